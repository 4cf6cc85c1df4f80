import Verif.Proofs.ParserTree
import Mathlib.Data.List.TakeWhile

/-!
# One operator on a line with groups
-/

namespace GA.Parser

/-! ### Operands and operators by turns -/

/-- Operators and operands. -/
def flat {α : Type*} (sep : Char → α) (r : List (Char × List α)) : List α :=
  r.flatMap fun p => sep p.1 :: p.2

/-- The operator after a run, and what follows. -/
def next {α : Type*} (sep : Char → α) (g : List α → List (Char × List α) → List α) :
    List (Char × List α) → List α
  | [] => []
  | (c, y) :: b => sep c :: g y b

/-- The maximal runs of operands that are joined by operators with `Q` are put together by `w`. -/
def grpRuns {α : Type*} (sep : Char → α) (Q : Char → Bool) (w : List α → List α) :
    ℕ → List α → List (Char × List α) → List α
  | 0, x, _ => x
  | k + 1, x, r =>
    (if r.takeWhile (fun p => Q p.1) = [] then x else w (x ++ flat sep (r.takeWhile fun p => Q p.1))) ++
      next sep (grpRuns sep Q w k) (r.dropWhile fun p => Q p.1)

section
variable {α : Type*} {sep : Char → α} {Q : Char → Bool} {w : List α → List α}

theorem grpRuns_mono (k k' : ℕ) (x : List α) (r : List (Char × List α)) (h : r.length < k)
    (h' : r.length < k') : grpRuns sep Q w k x r = grpRuns sep Q w k' x r := by
  induction k generalizing k' x r with
  | zero => omega
  | succ k ih =>
    cases k' with
    | zero => omega
    | succ k' =>
      rw [grpRuns, grpRuns]
      congr 1
      have hl := (List.dropWhile_suffix (fun p : Char × List α => Q p.1) (l := r)).length_le
      cases hb : r.dropWhile fun p => Q p.1 with
      | nil => rfl
      | cons p b =>
        rw [hb] at hl
        simp only [List.length_cons] at hl
        rw [next, next, ih k' p.2 b (by omega) (by omega)]

/-- All runs of a line. -/
def runs (sep : Char → α) (Q : Char → Bool) (w : List α → List α) (x : List α)
    (r : List (Char × List α)) : List α := grpRuns sep Q w (r.length + 1) x r

theorem runs_nil (x : List α) : runs sep Q w x [] = x := by simp [runs, grpRuns, next]

theorem runs_eq (x : List α) (r : List (Char × List α)) : runs sep Q w x r =
    (if r.takeWhile (fun p => Q p.1) = [] then x else w (x ++ flat sep (r.takeWhile fun p => Q p.1))) ++
      next sep (runs sep Q w) (r.dropWhile fun p => Q p.1) := by
  rw [runs, grpRuns]
  congr 1
  have hl := (List.dropWhile_suffix (fun p : Char × List α => Q p.1) (l := r)).length_le
  cases hb : r.dropWhile fun p => Q p.1 with
  | nil => rfl
  | cons p b =>
    rw [hb] at hl
    simp only [List.length_cons] at hl
    rw [next, next, runs, grpRuns_mono r.length (b.length + 1) p.2 b (by omega) (by omega)]

/-- A whole line is one run. -/
theorem runs_all (x : List α) {r : List (Char × List α)} (hr : r ≠ []) (h : ∀ p ∈ r, Q p.1 = true) :
    runs sep Q w x r = w (x ++ flat sep r) := by
  rw [runs_eq, List.takeWhile_eq_self_iff.mpr h, List.dropWhile_eq_nil_iff.mpr h, if_neg hr,
    next, List.append_nil]

/-- Runs end at other operators. -/
theorem runs_join (x : List α) (r : List (Char × List α)) {c : Char} (hc : Q c = false) (y : List α)
    (s : List (Char × List α)) :
    runs sep Q w x (r ++ (c, y) :: s) = runs sep Q w x r ++ sep c :: runs sep Q w y s := by
  induction hn : r.length using Nat.strong_induction_on generalizing x r with
  | _ n ih =>
    rw [runs_eq x (r ++ _), runs_eq x r]
    by_cases h : ∀ p ∈ r, Q p.1 = true
    · rw [List.takeWhile_append_of_pos h, List.dropWhile_append_of_pos h,
        List.takeWhile_eq_self_iff.mpr h, List.dropWhile_eq_nil_iff.mpr h]
      simp [hc, next]
    · push Not at h
      obtain ⟨p, hp, hQ⟩ := h
      have h1 : ∀ r : List (Char × List α), p ∈ r → (r ++ (c, y) :: s).takeWhile (fun p => Q p.1) =
          r.takeWhile (fun p => Q p.1) ∧ (r ++ (c, y) :: s).dropWhile (fun p => Q p.1) =
          r.dropWhile (fun p => Q p.1) ++ (c, y) :: s := by
        intro r hp
        induction r with
        | nil => simp at hp
        | cons a r ih =>
          rw [List.cons_append, List.takeWhile_cons, List.takeWhile_cons, List.dropWhile_cons,
            List.dropWhile_cons]
          by_cases ha : Q a.1 = true
          · rw [if_pos ha, if_pos ha, if_pos ha, if_pos ha]
            have hp' : p ∈ r := by
              rcases List.mem_cons.mp hp with rfl | hp
              · exact absurd ha hQ
              · exact hp
            rw [(ih hp').1, (ih hp').2]
            exact ⟨rfl, rfl⟩
          · rw [if_neg ha, if_neg ha, if_neg ha, if_neg ha]
            exact ⟨rfl, rfl⟩
      rw [(h1 r hp).1, (h1 r hp).2, List.append_assoc]
      congr 1
      cases hd : r.dropWhile fun p => Q p.1 with
      | nil => exact absurd (List.dropWhile_eq_nil_iff.mp hd p hp) hQ
      | cons a b =>
        obtain ⟨c', y'⟩ := a
        have hl := (List.dropWhile_suffix (fun p : Char × List α => Q p.1) (l := r)).length_le
        rw [hd] at hl
        simp only [List.length_cons] at hl
        rw [List.cons_append, next, next, ih b.length (by omega) y' b rfl]
        rfl

end

/-! ### `re.sub` on such lines -/

/-- The parentheses that `_sub_paren` adds. -/
def wrapLine (l : Line) : Line := .ch '(' :: (l ++ [.ch ')'])

/-- A nonempty sequence of operand symbols. -/
def OpdLine (l : Line) : Prop := l ≠ [] ∧ ∀ t ∈ l, isOperand t = true

/-- Operands and single operators. -/
def AltLine (r : List (Char × Line)) : Prop := ∀ p ∈ r, isOperand (.ch p.1) = false ∧ OpdLine p.2

theorem takeWhile_opd {x : Line} (hx : ∀ t ∈ x, isOperand t = true) {r : List (Char × Line)}
    (hr : AltLine r) : (x ++ flat Tk.ch r).takeWhile isOperand = x ∧
      (x ++ flat Tk.ch r).dropWhile isOperand = flat Tk.ch r := by
  rw [List.takeWhile_append_of_pos hx, List.dropWhile_append_of_pos hx]
  cases r with
  | nil => simp [flat]
  | cons p r =>
    have := (hr p (by simp)).1
    simp [flat, this]

/-- No two operators with `Q` in a row. -/
def NoRow (Q : Char → Bool) : List Char → Prop
  | a :: b :: l => ¬ (Q a = true ∧ Q b = true) ∧ NoRow Q (b :: l)
  | _ => True

theorem matchTail_flat (op : Op) (k : ℕ) (r : List (Char × Line)) (hr : AltLine r)
    (hk : (flat Tk.ch r).length ≤ k)
    (hd : op = .dots → NoRow (fun c => op.isOp (.ch c)) (r.map Prod.fst)) :
    matchTail op k (flat Tk.ch r) = (flat Tk.ch (r.takeWhile fun p => op.isOp (.ch p.1)),
      flat Tk.ch (r.dropWhile fun p => op.isOp (.ch p.1))) := by
  induction k generalizing r with
  | zero =>
    cases r with
    | nil => rfl
    | cons p r => simp [flat] at hk
  | succ k ih =>
    cases r with
    | nil => rfl
    | cons p r =>
      obtain ⟨h1, h2, h3⟩ := hr p (by simp)
      have hr' : AltLine r := fun q hq => hr q (by simp [hq])
      obtain ⟨ht, hdw⟩ := takeWhile_opd h3 hr'
      have e : flat Tk.ch (p :: r) = .ch p.1 :: (p.2 ++ flat Tk.ch r) := by simp [flat]
      rw [e, matchTail, ht, hdw]
      by_cases hop : op.isOp (.ch p.1) = true
      · rw [if_pos ⟨hop, h2⟩, List.takeWhile_cons, List.dropWhile_cons]
        simp only [hop, if_true]
        by_cases hdots : op = .dots
        · rw [if_pos hdots]
          have hrow := hd hdots
          cases r with
          | nil => simp [flat]
          | cons q r =>
            rw [List.map_cons, List.map_cons, NoRow] at hrow
            have hq : op.isOp (.ch q.1) = false := by
              rw [Bool.eq_false_iff]
              exact fun h => hrow.1 ⟨hop, h⟩
            simp [hq, flat]
        · rw [if_neg hdots, ih r hr' (by rw [e] at hk; simp at hk; omega) (fun h => absurd h hdots)]
          simp [flat]
      · rw [if_neg (fun h => hop h.1)]
        simp [hop, flat]

theorem reSub_skip (op : Op) (k : ℕ) (x : Tk) (hx : isOperand x = false) (l : Line) :
    reSub op (k + 1) (x :: l) = x :: reSub op k l := by
  rw [reSub, if_neg (by simp [hx])]

theorem noRow_drop {Q : Char → Bool} {a : Char} {l : List Char} (h : NoRow Q (a :: l)) : NoRow Q l := by
  cases l with
  | nil => trivial
  | cons b l => exact h.2

theorem noRow_suffix {Q : Char → Bool} {l s : List Char} (h : NoRow Q l) (hs : s <:+ l) : NoRow Q s := by
  obtain ⟨t, rfl⟩ := hs
  induction t with
  | nil => exact h
  | cons a t ih => exact ih (noRow_drop h)

theorem reSub_flat (op : Op) : ∀ (n : ℕ) (k : ℕ) (x : Line) (r : List (Char × Line)), OpdLine x →
    AltLine r → r.length ≤ n → (x ++ flat Tk.ch r).length ≤ k →
    (op = .dots → NoRow (fun c => op.isOp (.ch c)) (r.map Prod.fst)) →
    reSub op k (x ++ flat Tk.ch r) = runs Tk.ch (fun c => op.isOp (.ch c)) wrapLine x r := by
  intro n
  induction n with
  | zero =>
    intro k x r hx hr hn hk hd
    obtain rfl := List.length_eq_zero_iff.mp (by omega : r.length = 0)
    obtain ⟨t, x, rfl⟩ := List.exists_cons_of_ne_nil hx.1
    rw [runs_nil]
    cases k with
    | zero => simp at hk
    | succ k =>
      have hx' : ∀ t ∈ x, isOperand t = true := fun s hs => hx.2 s (by simp [hs])
      simp only [flat, List.flatMap_nil, List.append_nil]
      rw [reSub, if_pos (hx.2 t (by simp)), List.dropWhile_eq_nil_iff.mpr hx',
        List.takeWhile_eq_self_iff.mpr hx']
      have : ∀ j, matchTail op j [] = ([], []) := by intro j; cases j <;> rfl
      rw [this]
      simp
      cases k <;> rfl
  | succ n ih =>
    intro k x r hx hr hn hk hd
    obtain ⟨t, x, rfl⟩ := List.exists_cons_of_ne_nil hx.1
    have hx' : ∀ t ∈ x, isOperand t = true := fun s hs => hx.2 s (by simp [hs])
    obtain ⟨htw, hdw⟩ := takeWhile_opd hx' hr
    cases k with
    | zero => simp at hk
    | succ k =>
      rw [List.cons_append, reSub, if_pos (hx.2 t (by simp)), htw, hdw,
        matchTail_flat op _ r hr (by simp) hd, runs_eq]
      dsimp only
      have hsuf := List.dropWhile_suffix (fun p : Char × Line => op.isOp (.ch p.1)) (l := r)
      have hrest : ∀ j, (flat Tk.ch (r.dropWhile fun p => op.isOp (.ch p.1))).length ≤ j →
          reSub op j (flat Tk.ch (r.dropWhile fun p => op.isOp (.ch p.1))) =
          next Tk.ch (runs Tk.ch (fun c => op.isOp (.ch c)) wrapLine)
            (r.dropWhile fun p => op.isOp (.ch p.1)) := by
        intro j hj
        cases hdr : r.dropWhile fun p => op.isOp (.ch p.1) with
        | nil => cases j <;> rfl
        | cons p b =>
          rw [hdr] at hj hsuf
          have hp := hr p (hsuf.subset (by simp))
          obtain ⟨c, y⟩ := p
          have e : flat Tk.ch ((c, y) :: b) = .ch c :: (y ++ flat Tk.ch b) := by simp [flat]
          rw [e] at hj ⊢
          cases j with
          | zero => simp at hj
          | succ j =>
            have hl := hsuf.length_le
            simp only [List.length_cons] at hl hj
            rw [reSub_skip op j _ hp.1, ih j y b hp.2
              (fun q hq => hr q (hsuf.subset (by simp [hq]))) (by omega) (by omega)]
            · rfl
            · intro h
              have := noRow_suffix (hd h) (hsuf.map Prod.fst)
              exact noRow_drop this
      have hlen : ∀ s : List (Char × Line), s <:+ r → (flat Tk.ch s).length ≤ k := by
        rintro s ⟨u, rfl⟩
        have : (flat Tk.ch s).length ≤ (flat Tk.ch (u ++ s)).length := by simp [flat]
        simp only [List.length_append, List.length_cons] at hk
        omega
      by_cases htk : r.takeWhile (fun p => op.isOp (.ch p.1)) = []
      · have hdr : (r.dropWhile fun p => op.isOp (.ch p.1)) = r := by
          have := List.takeWhile_append_dropWhile (p := fun p : Char × Line => op.isOp (.ch p.1)) (l := r)
          rwa [htk, List.nil_append] at this
        have hk' := hrest k (hlen _ hsuf)
        rw [htk, if_pos (by simp [flat]), if_pos rfl, ← hk', hdr]
      · have : flat Tk.ch (r.takeWhile fun p => op.isOp (.ch p.1)) ≠ [] := by
          obtain ⟨p, b, hpb⟩ := List.exists_cons_of_ne_nil htk
          rw [hpb]
          simp [flat]
        rw [if_neg this, if_neg htk, ← hrest k (hlen _ hsuf)]
        simp [wrapLine]

theorem sub_flat (op : Op) {x : Line} {r : List (Char × Line)} (hx : OpdLine x) (hr : AltLine r)
    (hd : op = .dots → NoRow (fun c => op.isOp (.ch c)) (r.map Prod.fst)) :
    sub op (x ++ flat Tk.ch r) = runs Tk.ch (fun c => op.isOp (.ch c)) wrapLine x r :=
  reSub_flat op r.length _ x r hx hr le_rfl le_rfl hd

/-- A line without the operator is not changed. -/
theorem sub_of_no_op (op : Op) {l : Line} (h : ∀ t ∈ l, op.isOp t = false) : sub op l = l := by
  have hm : ∀ (k : ℕ) (l : Line), (∀ t ∈ l, op.isOp t = false) → matchTail op k l = ([], l) := by
    intro k l h
    cases k with
    | zero => rfl
    | succ k =>
      cases l with
      | nil => rfl
      | cons x l => rw [matchTail, if_neg (by simp [h x (by simp)])]
  have key : ∀ (k : ℕ) (l : Line), (∀ t ∈ l, op.isOp t = false) → reSub op k l = l := by
    intro k
    induction k with
    | zero => intro l _; rfl
    | succ k ih =>
      intro l h
      cases l with
      | nil => rfl
      | cons x l =>
        have hdw : ∀ t ∈ l.dropWhile isOperand, op.isOp t = false := fun t ht =>
          h t (List.mem_cons_of_mem _ ((List.dropWhile_suffix _).subset ht))
        rw [reSub]
        dsimp only
        rw [hm _ _ hdw]
        simp only [if_true]
        rw [ih _ hdw, ih l (fun t ht => h t (by simp [ht])), List.cons_append,
          List.takeWhile_append_dropWhile]
        simp
  exact key _ l h

end GA.Parser
