import Verif.Proofs.ParserStage

/-!
# Expressions without parentheses, operator by operator
-/

namespace GA.Parser

/-- An expression whose operands are names and tokens; the operator of `op k` is in group `k`. -/
inductive SE
  | leaf (x : Line)
  | op (k : ℕ) (l : SE) (c : Char) (r : SE)

namespace SE

def rank : SE → ℕ
  | leaf _ => 0
  | op k _ _ _ => k + 1

/-- A product of the first `i` operator groups. -/
def isCh (i : ℕ) : SE → Bool
  | leaf _ => false
  | op k _ _ _ => decide (k < i)

/-- The items of the expression when the products of the first `i` operator groups are in groups; the
expression itself is not put in a group. -/
def st (i : ℕ) : SE → List It
  | leaf x => x.map .tk
  | op k l c r => (if isCh i l = true ∧ l.rank ≠ k + 1 then [.grp (st i l)] else st i l) ++
      .tk (.ch c) :: (if isCh i r = true then [.grp (st i r)] else st i r)

def top (i : ℕ) (e : SE) : List It := if isCh i e = true then [.grp (st i e)] else st i e

/-- The separator of a group. -/
def sepOk (ops : List Op) (k : ℕ) (c : Char) : Prop :=
  (∃ o, ops[k]? = some o ∧ o.isOp (.ch c) = true) ∨
    (k = ops.length ∧ isOperand (.ch c) = false ∧ isParen (.ch c) = false ∧
      ∀ o : Op, o.isOp (.ch c) = false)

def WF (ops : List Op) : SE → Prop
  | leaf x => OpdLine x
  | op k l c r => WF ops l ∧ WF ops r ∧ l.rank ≤ k + 1 ∧ r.rank ≤ k ∧ sepOk ops k c ∧
      (ops[k]? = some .dots → l.rank ≤ k)

/-- The first operand and the others with the operators before them. -/
def alt (i : ℕ) : SE → List It × List (Char × List It)
  | leaf x => (x.map .tk, [])
  | op k l c r => if k < i then ([.grp (st i (op k l c r))], [])
      else ((alt i l).1, (alt i l).2 ++ (c, (alt i r).1) :: (alt i r).2)

def sepIt (c : Char) : It := .tk (.ch c)

theorem isCh_false_of_rank {i : ℕ} {e : SE} (h : i < e.rank) : isCh i e = false := by
  cases e with
  | leaf x => rfl
  | op k l c r => simp only [rank] at h; simp [isCh]; omega

theorem isCh_rank {i : ℕ} {e : SE} (h : isCh i e = true) : e.rank ≤ i := by
  cases e with
  | leaf x => simp [rank]
  | op k l c r => simp [isCh] at h; simp only [rank]; omega

theorem st_op_ge {i k : ℕ} {l r : SE} {c : Char} (hk : i ≤ k) :
    st i (op k l c r) = top i l ++ .tk (.ch c) :: top i r := by
  rw [st, top, top]
  congr 1
  by_cases h : isCh i l = true
  · have := isCh_rank h
    rw [if_pos ⟨h, by omega⟩, if_pos h]
  · rw [if_neg (fun h' => h h'.1), if_neg h]

theorem flat_append {α : Type*} (sep : Char → α) (r s : List (Char × List α)) :
    flat sep (r ++ s) = flat sep r ++ flat sep s := by simp [flat]

theorem flat_alt {ops : List Op} (i : ℕ) (e : SE) (h : WF ops e) :
    (alt i e).1 ++ flat sepIt (alt i e).2 = top i e := by
  induction e with
  | leaf x => simp [alt, top, isCh, st, flat]
  | op k l c r ihl ihr =>
    rw [alt]
    split_ifs with hk
    · simp [flat, top, isCh, hk]
    · obtain ⟨h1, h2, h3, h4, -⟩ := h
      rw [top, if_neg (by simp [isCh, hk]), st_op_ge (by omega), flat_append, ← ihl h1, ← ihr h2]
      simp [flat, sepIt]

theorem st_stable {ops : List Op} (i : ℕ) (e : SE) (h : WF ops e) (hr : e.rank ≤ i + 1) :
    st i e = st (i + 1) e := by
  induction e with
  | leaf x => rfl
  | op k l c r ihl ihr =>
    obtain ⟨h1, h2, h3, h4, -⟩ := h
    simp only [rank] at hr
    have hl : (isCh i l = true ∧ l.rank ≠ k + 1) ↔ (isCh (i + 1) l = true ∧ l.rank ≠ k + 1) := by
      cases l with
      | leaf x => simp [isCh]
      | op k' _ _ _ => simp only [rank] at h3 ⊢; simp [isCh]; omega
    have hr' : isCh i r = isCh (i + 1) r := by
      cases r with
      | leaf x => simp [isCh]
      | op k' _ _ _ => simp only [rank] at h4; simp [isCh]; omega
    rw [st, st, ihl h1 (by omega), ihr h2 (by omega), hr']
    simp only [hl]

theorem isCh_stable {i : ℕ} {e : SE} (hr : e.rank ≤ i) : isCh i e = isCh (i + 1) e := by
  cases e with
  | leaf x => rfl
  | op k l c r => simp only [rank] at hr; simp [isCh]; omega

theorem top_stable {ops : List Op} (i : ℕ) (e : SE) (h : WF ops e) (hr : e.rank ≤ i) :
    top i e = top (i + 1) e := by
  rw [top, top, st_stable i e h (by omega), isCh_stable hr]

/-- An expression of lower rank is one operand. -/
theorem alt_single (i : ℕ) (e : SE) (hr : e.rank ≤ i) : (alt i e).2 = [] := by
  cases e with
  | leaf x => rfl
  | op k l c r => simp only [rank] at hr; rw [alt, if_pos (by omega)]

theorem isOp_unique {o o' : Op} {t : Tk} (h : o.isOp t = true) (h' : o'.isOp t = true) : o = o' := by
  cases o <;> cases o' <;> simp [Op.isOp] at h h' ⊢ <;> simp_all

theorem isOp_not_operand {o : Op} {t : Tk} (h : o.isOp t = true) :
    isOperand t = false ∧ isParen t = false := by
  cases o <;> simp [Op.isOp] at h
  · rcases h with (rfl | rfl) | rfl <;> exact ⟨rfl, rfl⟩
  · subst h; exact ⟨rfl, rfl⟩
  · subst h; exact ⟨rfl, rfl⟩

theorem sepOk_not {ops : List Op} {k : ℕ} {c : Char} (h : sepOk ops k c) :
    isOperand (.ch c) = false ∧ isParen (.ch c) = false := by
  rcases h with ⟨o, -, h⟩ | ⟨-, h1, h2, -⟩
  · exact isOp_not_operand h
  · exact ⟨h1, h2⟩

/-- The operators of a group are not separators of another one. -/
theorem sepOk_other {ops : List Op} (hn : ops.Nodup) {i k : ℕ} {o : Op} (ho : ops[i]? = some o) {c : Char}
    (h : sepOk ops k c) (hik : k ≠ i) : o.isOp (.ch c) = false := by
  rcases h with ⟨o', h1, h2⟩ | ⟨-, -, -, h⟩
  · rw [Bool.eq_false_iff]
    intro h3
    obtain rfl := isOp_unique h2 h3
    obtain ⟨a1, a2⟩ := List.getElem?_eq_some_iff.mp h1
    obtain ⟨b1, b2⟩ := List.getElem?_eq_some_iff.mp ho
    exact hik ((List.Nodup.getElem_inj_iff hn).mp (a2.trans b2.symm))
  · exact h o

theorem sepOk_self {ops : List Op} {i : ℕ} {o : Op} (ho : ops[i]? = some o) {c : Char}
    (h : sepOk ops i c) : o.isOp (.ch c) = true := by
  rcases h with ⟨o', h1, h2⟩ | ⟨h, -⟩
  · rw [ho] at h1
    obtain rfl := Option.some.inj h1
    exact h2
  · rw [h] at ho
    simp at ho

/-- In a product of group `i` all separators are in the group. -/
theorem alt_ops {ops : List Op} {i : ℕ} {o : Op} (ho : ops[i]? = some o) (e : SE) (h : WF ops e)
    (hr : e.rank ≤ i + 1) : ∀ p ∈ (alt i e).2, o.isOp (.ch p.1) = true := by
  induction e with
  | leaf x => simp [alt]
  | op k l c r ihl ihr =>
    obtain ⟨h1, h2, h3, h4, h5, -⟩ := h
    simp only [rank] at hr
    rw [alt]
    split_ifs with hk
    · simp
    · obtain rfl : k = i := by omega
      rw [alt_single _ r h4]
      intro p hp
      rw [List.mem_append, List.mem_singleton] at hp
      rcases hp with hp | rfl
      · exact ihl h1 h3 p hp
      · exact sepOk_self ho h5

/-- Grouping by the operators of group `i`. -/
theorem runs_alt {ops : List Op} (hn : ops.Nodup) {i : ℕ} {o : Op} (ho : ops[i]? = some o) (e : SE)
    (h : WF ops e) : runs sepIt (fun c => o.isOp (.ch c)) (fun l => [.grp l]) (alt i e).1 (alt i e).2 =
      top (i + 1) e := by
  induction e with
  | leaf x => rw [alt, runs_nil]; rfl
  | op k l c r ihl ihr =>
    obtain ⟨h1, h2, h3, h4, h5, -⟩ := id h
    rcases Nat.lt_trichotomy k i with hk | hk | hk
    · rw [alt, if_pos hk, runs_nil, top, if_pos (by simp [isCh]; omega),
        st_stable i _ h (by simp only [rank]; omega)]
    · subst hk
      have hall := alt_ops ho (op k l c r) h (by simp [rank])
      have hne : (alt k (op k l c r)).2 ≠ [] := by rw [alt, if_neg (by omega)]; simp
      rw [runs_all _ hne hall, flat_alt k _ h, top, top, if_neg (by simp [isCh]), if_pos (by simp [isCh]),
        st_stable k _ h (by simp [rank])]
    · rw [alt, if_neg (by omega)]
      dsimp only
      rw [runs_join _ _ (sepOk_other hn ho h5 (by omega)), ihl h1, ihr h2, top.eq_1 (i + 1) (op k l c r),
        if_neg (by simp [isCh]; omega), st_op_ge (by omega)]
      rfl

theorem noRow_append {Q : Char → Bool} {a b : List Char} {c : Char} (ha : NoRow Q a) (hb : NoRow Q b)
    (hc : Q c = false) : NoRow Q (a ++ c :: b) := by
  induction a with
  | nil =>
    cases b with
    | nil => trivial
    | cons d b => exact ⟨by simp [hc], hb⟩
  | cons x a ih =>
    have ih := ih (noRow_drop ha)
    cases a with
    | nil => exact ⟨by simp [hc], ih⟩
    | cons y a => exact ⟨ha.1, ih⟩

theorem noRow_alt {ops : List Op} (hn : ops.Nodup) {i : ℕ} (ho : ops[i]? = some .dots) (e : SE)
    (h : WF ops e) : NoRow (fun c => Op.dots.isOp (.ch c)) ((alt i e).2.map Prod.fst) := by
  induction e with
  | leaf x => trivial
  | op k l c r ihl ihr =>
    obtain ⟨h1, h2, h3, h4, h5, h6⟩ := h
    rw [alt]
    split_ifs with hk
    · trivial
    · dsimp only
      rcases Nat.lt_or_ge i k with hk' | hk'
      · rw [List.map_append, List.map_cons]
        exact noRow_append (ihl h1) (ihr h2) (sepOk_other hn ho h5 (by omega))
      · obtain rfl : k = i := by omega
        rw [alt_single _ l (h6 ho), alt_single _ r h4]
        trivial

/-- An operand: a name, a token or a group. -/
def OpdIt (X : List It) : Prop := X ≠ [] ∧ ∀ x ∈ X, ∀ t, x = .tk t → isOperand t = true

theorem opdIt_leaf {x : Line} (h : OpdLine x) : OpdIt (x.map It.tk) := by
  refine ⟨by simpa using h.1, ?_⟩
  rintro y hy t rfl
  obtain ⟨s, hs, e⟩ := List.mem_map.mp hy
  obtain rfl : s = t := by simpa using e
  exact h.2 _ hs

theorem alt_opd {ops : List Op} (i : ℕ) (e : SE) (h : WF ops e) : OpdIt (alt i e).1 ∧
    ∀ p ∈ (alt i e).2, isOperand (.ch p.1) = false ∧ OpdIt p.2 := by
  induction e with
  | leaf x => exact ⟨opdIt_leaf h, by simp [alt]⟩
  | op k l c r ihl ihr =>
    obtain ⟨h1, h2, h3, h4, h5, h6⟩ := h
    rw [alt]
    split_ifs with hk
    · exact ⟨⟨by simp, by simp⟩, by simp⟩
    · refine ⟨(ihl h1).1, fun p hp => ?_⟩
      rw [List.mem_append, List.mem_cons] at hp
      rcases hp with hp | rfl | hp
      · exact (ihl h1).2 p hp
      · exact ⟨(sepOk_not h5).1, (ihr h2).1⟩
      · exact (ihr h2).2 p hp

theorem operand_not_paren {t : Tk} (h : isOperand t = true) : isParen t = false := by
  cases t with
  | ch c =>
    rw [Bool.eq_false_iff]
    intro h'
    simp [isParen] at h'
    rcases h' with rfl | rfl <;> revert h <;> decide
  | tok a b d => simp [isParen]

theorem good_leaf {x : Line} (h : ∀ t ∈ x, isParen t = false) : Good (x.map It.tk) := by
  induction x with
  | nil => exact good_nil
  | cons t x ih =>
    rw [List.map_cons, good_tk]
    exact ⟨h t (by simp), ih fun s hs => h s (by simp [hs])⟩

theorem good_st {ops : List Op} (i : ℕ) (e : SE) (h : WF ops e) : Good (st i e) := by
  induction e with
  | leaf x => exact good_leaf fun t ht => operand_not_paren (h.2 t ht)
  | op k l c r ihl ihr =>
    obtain ⟨h1, h2, h3, h4, h5, h6⟩ := h
    rw [st, good_append, good_tk]
    refine ⟨?_, (sepOk_not h5).2, ?_⟩
    · split_ifs
      · rw [good_grp]; exact ⟨ihl h1, good_nil⟩
      · exact ihl h1
    · split_ifs
      · rw [good_grp]; exact ⟨ihr h2, good_nil⟩
      · exact ihr h2

theorem good_top {ops : List Op} (i : ℕ) (e : SE) (h : WF ops e) : Good (top i e) := by
  rw [top]
  split_ifs
  · rw [good_grp]; exact ⟨good_st i e h, good_nil⟩
  · exact good_st i e h

/-- The symbols of an expression of rank at most `i` are not operators of group `i`. -/
theorem st_no_op {ops : List Op} (hn : ops.Nodup) {i : ℕ} {o : Op} (ho : ops[i]? = some o) (j : ℕ)
    (e : SE) (h : WF ops e) (hr : e.rank ≤ i) : ∀ t ∈ renders (st j e), o.isOp t = false := by
  induction e with
  | leaf x =>
    intro t ht
    have hx : renders (st j (leaf x)) = x := by
      rw [st]
      clear h ht hr
      induction x with
      | nil => simp
      | cons a x ih => simp [ih]
    rw [hx] at ht
    rw [Bool.eq_false_iff]
    intro h'
    have := (isOp_not_operand h').1
    rw [h.2 t ht] at this
    cases this
  | op k l c r ihl ihr =>
    obtain ⟨h1, h2, h3, h4, h5, h6⟩ := h
    simp only [rank] at hr
    have hp : ∀ t, isParen t = true → o.isOp t = false := by
      intro t ht
      rw [Bool.eq_false_iff]
      intro h'
      rw [(isOp_not_operand h').2] at ht
      cases ht
    have hg : ∀ s : SE, (∀ t ∈ renders (st j s), o.isOp t = false) →
        ∀ t ∈ renders [It.grp (st j s)], o.isOp t = false := by
      intro s hs t ht
      rw [renders_grp] at ht
      simp only [renders_nil, List.mem_cons, List.mem_append, List.not_mem_nil, or_false] at ht
      rcases ht with rfl | ht | rfl
      · exact hp _ rfl
      · exact hs t ht
      · exact hp _ rfl
    intro t ht
    rw [st, renders_append, renders_tk, List.mem_append, List.mem_cons] at ht
    rcases ht with ht | rfl | ht
    · split_ifs at ht
      · exact hg l (ihl h1 (by omega)) t ht
      · exact ihl h1 (by omega) t ht
    · exact sepOk_other hn ho h5 (by omega)
    · split_ifs at ht
      · exact hg r (ihr h2 (by omega)) t ht
      · exact ihr h2 (by omega) t ht

/-! ### No product twice -/

/-- The expression, if it is a product. -/
def self (n : ℕ) (e : SE) : List SE := if isCh n e = true then [e] else []

/-- The products inside the expression. -/
def inner (n : ℕ) : SE → List SE
  | leaf _ => []
  | op k l _ r => (if l.rank = k + 1 then [] else self n l) ++ inner n l ++ (self n r ++ inner n r)

/-- The text. -/
def text : SE → Line
  | leaf x => x
  | op _ l c r => text l ++ .ch c :: text r

theorem core_top {ops : List Op} (i : ℕ) (e : SE) (h : WF ops e) :
    core (renders (st i e)) = text e := by
  induction e with
  | leaf x =>
    have : ∀ x : Line, (∀ t ∈ x, isOperand t = true) → core (renders (x.map It.tk)) = x := by
      intro x hx
      induction x with
      | nil => simp [core]
      | cons a x ih =>
        rw [List.map_cons, renders_tk, core_cons, ih fun t ht => hx t (by simp [ht])]
        have := operand_not_paren (hx a (by simp))
        simp [core, this]
    exact this x h.2
  | op k l c r ihl ihr =>
    obtain ⟨h1, h2, h3, h4, h5, h6⟩ := h
    have hg : ∀ T : List It, core (renders [.grp T]) = core (renders T) := by
      intro T
      rw [renders_grp, core_open, renders_nil, core_append, core_close, List.append_nil]
    have hc : core [Tk.ch c] = [.ch c] := by
      have := (sepOk_not h5).2
      simp [core, this]
    rw [st, renders_append, renders_tk, core_append, core_cons, hc, text]
    congr 1
    · split_ifs
      · rw [hg, ihl h1]
      · exact ihl h1
    · rw [List.singleton_append]
      congr 1
      split_ifs
      · rw [hg, ihr h2]
      · exact ihr h2

theorem inG_append {a S T : List It} : inG a (S ++ T) ↔ inG a S ∨ inG a T := by
  induction S using It.induct with
  | nil => simp [inG]
  | tk t S ih => rw [List.cons_append, inG, inG, ih]
  | grp l S _ ih => rw [List.cons_append, inG, inG, ih]; tauto

theorem inG_leaf {a : List It} {x : Line} : ¬ inG a (x.map It.tk) := by
  induction x with
  | nil => simp [inG]
  | cons t x ih => rw [List.map_cons, inG]; exact ih

theorem mem_self {n : ℕ} {e : SE} : e ∈ self n e ↔ isCh n e = true := by
  rw [self]; split_ifs with h <;> simp [h]

theorem isCh_mono {i n : ℕ} (h : i ≤ n) {e : SE} (he : isCh i e = true) : isCh n e = true := by
  cases e with
  | leaf x => simp [isCh] at he
  | op k l c r => simp [isCh] at he ⊢; omega

/-- A group of the expression is one of its products. -/
theorem inG_st {i n : ℕ} (hin : i ≤ n) (e : SE) {a : List It} (h : inG a (st i e)) :
    ∃ a' ∈ inner n e, isCh i a' = true ∧ a = st i a' := by
  induction e with
  | leaf x => exact absurd h inG_leaf
  | op k l c r ihl ihr =>
    rw [st, inG_append, inG] at h
    rw [inner]
    rcases h with h | h
    · split_ifs at h with hl
      · rw [inG] at h
        rcases h with h | h | h
        · exact ⟨l, by rw [if_neg hl.2]; simp [mem_self.mpr (isCh_mono hin hl.1)], hl.1, h.symm⟩
        · obtain ⟨a', h1, h2⟩ := ihl h
          exact ⟨a', by simp [h1], h2⟩
        · simp [inG] at h
      · obtain ⟨a', h1, h2⟩ := ihl h
        exact ⟨a', by simp [h1], h2⟩
    · split_ifs at h with hr
      · rw [inG] at h
        rcases h with h | h | h
        · exact ⟨r, by simp [mem_self.mpr (isCh_mono hin hr)], hr, h.symm⟩
        · obtain ⟨a', h1, h2⟩ := ihr h
          exact ⟨a', by simp [h1], h2⟩
        · simp [inG] at h
      · obtain ⟨a', h1, h2⟩ := ihr h
        exact ⟨a', by simp [h1], h2⟩

/-- The products that are the groups of the list `st i e`. -/
def tops (i : ℕ) : SE → List SE
  | leaf _ => []
  | op k l _ r => (if isCh i l = true ∧ l.rank ≠ k + 1 then [l] else tops i l) ++
      (if isCh i r = true then [r] else tops i r)

theorem mem_tops {i : ℕ} (e : SE) {a : List It} (h : It.grp a ∈ st i e) :
    ∃ a' ∈ tops i e, a = st i a' := by
  induction e with
  | leaf x => simp [st] at h
  | op k l c r ihl ihr =>
    have hL : It.grp a ∈ (if isCh i l = true ∧ l.rank ≠ k + 1 then [.grp (st i l)] else st i l) →
        ∃ a' ∈ (if isCh i l = true ∧ l.rank ≠ k + 1 then [l] else tops i l), a = st i a' := by
      intro h
      split_ifs at h ⊢
      · exact ⟨l, by simp, by simpa using h⟩
      · exact ihl h
    have hR : It.grp a ∈ (if isCh i r = true then [.grp (st i r)] else st i r) →
        ∃ a' ∈ (if isCh i r = true then [r] else tops i r), a = st i a' := by
      intro h
      split_ifs at h ⊢
      · exact ⟨r, by simp, by simpa using h⟩
      · exact ihr h
    rw [st, List.mem_append, List.mem_cons] at h
    rw [tops]
    rcases h with h | h | h
    · obtain ⟨a', h1, h2⟩ := hL h
      exact ⟨a', List.mem_append_left _ h1, h2⟩
    · cases h
    · obtain ⟨a', h1, h2⟩ := hR h
      exact ⟨a', List.mem_append_right _ h1, h2⟩

theorem tops_sublist {i n : ℕ} (hin : i ≤ n) (e : SE) :
    List.Sublist ((tops i e).flatMap fun b => b :: inner n b) (inner n e) := by
  induction e with
  | leaf x => simp [tops]
  | op k l c r ihl ihr =>
    rw [tops, inner, List.flatMap_append]
    refine List.Sublist.append ?_ ?_
    · split_ifs with hl h2 h2
      · exact absurd h2 hl.2
      · have : self n l = [l] := by rw [self, if_pos (isCh_mono hin hl.1)]
        simp [this]
      · simpa using ihl
      · exact ihl.trans (List.sublist_append_right _ _)
    · split_ifs with hr
      · have : self n r = [r] := by rw [self, if_pos (isCh_mono hin hr)]
        simp [this]
      · exact ihr.trans (List.sublist_append_right _ _)

theorem inner_sublist {n : ℕ} (e : SE) {b : SE} (h : b ∈ inner n e) : List.Sublist (b :: inner n b) (inner n e) := by
  induction e with
  | leaf x => simp [inner] at h
  | op k l c r ihl ihr =>
    have hself : ∀ s : SE, b ∈ self n s → b = s ∧ self n s = [s] := by
      intro s hs
      rw [self] at hs ⊢
      split_ifs at hs ⊢
      · exact ⟨by simpa using hs, rfl⟩
      · simp at hs
    rw [inner, List.mem_append, List.mem_append, List.mem_append] at h
    rw [inner]
    rcases h with (h | h) | h | h
    · split_ifs at h ⊢ with hl
      · simp at h
      · obtain ⟨rfl, e⟩ := hself l h
        rw [e]
        exact List.sublist_append_left _ _
    · exact (ihl h).trans ((List.sublist_append_right _ _).trans (List.sublist_append_left _ _))
    · obtain ⟨rfl, e⟩ := hself r h
      rw [e]
      exact List.sublist_append_right _ _
    · exact (ihr h).trans ((List.sublist_append_right _ _).trans (List.sublist_append_right _ _))

theorem tops_wf {ops : List Op} {i : ℕ} (e : SE) (h : WF ops e) : ∀ b ∈ tops i e, WF ops b := by
  induction e with
  | leaf x => simp [tops]
  | op k l c r ihl ihr =>
    obtain ⟨h1, h2, -⟩ := h
    intro b hb
    rw [tops, List.mem_append] at hb
    rcases hb with hb | hb
    · split_ifs at hb
      · rw [List.mem_singleton] at hb; subst hb; exact h1
      · exact ihl h1 b hb
    · split_ifs at hb
      · rw [List.mem_singleton] at hb; subst hb; exact h2
      · exact ihr h2 b hb

theorem inner_wf {ops : List Op} {n : ℕ} (e : SE) (h : WF ops e) : ∀ b ∈ inner n e, WF ops b := by
  have hself : ∀ (s b : SE), b ∈ self n s → b = s := by
    intro s b hs
    rw [self] at hs
    split_ifs at hs
    · simpa using hs
    · simp at hs
  induction e with
  | leaf x => simp [inner]
  | op k l c r ihl ihr =>
    obtain ⟨h1, h2, -⟩ := h
    intro b hb
    rw [inner, List.mem_append, List.mem_append, List.mem_append] at hb
    rcases hb with (hb | hb) | hb | hb
    · split_ifs at hb
      · simp at hb
      · rw [hself l b hb]; exact h1
    · exact ihl h1 b hb
    · rw [hself r b hb]; exact h2
    · exact ihr h2 b hb

theorem sib_st {ops : List Op} {i n : ℕ} (hin : i ≤ n) (e : SE) (h : WF ops e)
    (hd : ((inner n e).map text).Nodup) : Sib (st i e) := by
  intro a b ha hb hab
  obtain ⟨a', ha', rfl⟩ := mem_tops e ha
  obtain ⟨b', hb', rfl⟩ := mem_tops e hb
  obtain ⟨a'', ha'', -, e1⟩ := inG_st hin b' hab
  have hwa := tops_wf e h a' ha'
  have hwb := tops_wf e h b' hb'
  have htext : text a' = text a'' := by
    rw [← core_top i a' hwa, e1, core_top i a'' (inner_wf b' hwb a'' ha'')]
  have hN := List.Nodup.sublist ((tops_sublist hin e).map text) hd
  rw [List.map_flatMap, List.nodup_flatMap] at hN
  by_cases hab' : a' = b'
  · subst hab'
    have := hN.1 a' ha'
    rw [List.map_cons, List.nodup_cons] at this
    exact this.1 (by rw [htext]; exact List.mem_map_of_mem ha'')
  · have : Std.Symm (Function.onFun List.Disjoint fun a => List.map text (a :: inner n a)) :=
      ⟨fun x y h => List.Disjoint.symm h⟩
    have := hN.2.forall ha' hb' hab'
    refine this (a := text a') ?_ ?_
    · exact List.mem_map_of_mem (by simp)
    · rw [htext]; exact List.mem_map_of_mem (by simp [ha''])

theorem clean_st {ops : List Op} {i n : ℕ} (hin : i ≤ n) (e : SE) (h : WF ops e)
    (hd : ((inner n e).map text).Nodup) : Clean (st i e) := by
  refine ⟨sib_st hin e h hd, fun b hb => ?_⟩
  obtain ⟨b', h1, -, rfl⟩ := inG_st hin e hb
  refine sib_st hin b' (inner_wf e h b' h1) (List.Nodup.sublist ?_ hd)
  exact ((List.sublist_cons_self _ _).trans (inner_sublist e h1)).map text

theorem not_inG_self (a : List It) : ¬ inG a a := by
  have key : ∀ T : List It, inG a T → sizeOf a < sizeOf T := by
    intro T h
    induction T using It.induct with
    | nil => rw [inG] at h; exact h.elim
    | tk t T ih => rw [inG] at h; have := ih h; simp; omega
    | grp l T ihl ihT =>
      rw [inG] at h
      rcases h with rfl | h | h
      · simp; omega
      · have := ihl h; simp; omega
      · have := ihT h; simp; omega
  intro h
  exact absurd (key a h) (lt_irrefl _)

theorem clean_grp {T : List It} (h : Clean T) : Clean [.grp T] := by
  refine ⟨?_, fun b hb => ?_⟩
  · intro a b ha hb
    simp only [List.mem_singleton, It.grp.injEq] at ha hb
    subst ha hb
    exact not_inG_self _
  · rw [inG, inG] at hb
    rcases hb with rfl | hb | hb
    · exact h.1
    · exact h.2 b hb
    · exact hb.elim

theorem clean_top {ops : List Op} {i n : ℕ} (hin : i ≤ n) (e : SE) (h : WF ops e)
    (hd : ((inner n e).map text).Nodup) : Clean (top i e) := by
  rw [top]
  split_ifs
  · exact clean_grp (clean_st hin e h hd)
  · exact clean_st hin e h hd

end SE

end GA.Parser
