import Verif.Spec.ReadBack
import Verif.Props.C74
import Verif.Props.C75
import Verif.Props.C94

/-! # The text of a multivector as an expression -/

set_option linter.unusedSectionVars false

namespace GA
open GA.Parser (Op parseLine)

variable {n : ℕ} {R : Type*} [CommRing R] [DecidableEq R] [Invertible (2 : R)]
  {g : Matrix (Fin n) (Fin n) R}

/-! ### What is printed on one line -/

/-- A term after the first one. -/
def signedTerm : List Char → List Char
  | '-' :: s => [' ', '-', ' '] ++ s
  | s => [' ', '+', ' '] ++ s

theorem printLoop_one (shows : R → Sym n → List Char) (es : List (ℤ × (R × Sym n × ℤ)))
    (hes : ∀ e ∈ es, shows e.2.1 e.2.2.1 ≠ []) (acc : List Char × ℤ) :
    es.foldlM (printStep 1 shows) acc =
      some (acc.1 ++ es.flatMap (fun e => signedTerm (shows e.2.1 e.2.2.1)), acc.2) := by
  induction es generalizing acc with
  | nil => simp
  | cons e es ih =>
    obtain ⟨x, rest, hx⟩ : ∃ x rest, shows e.2.1 e.2.2.1 = x :: rest := by
      cases h : shows e.2.1 e.2.2.1 with
      | nil => exact absurd h (hes e List.mem_cons_self)
      | cons x rest => exact ⟨x, rest, rfl⟩
    rw [List.foldlM_cons, printStep_none_iff 1 shows acc e hx]
    have hsg : (if x = '-' then [' ', '-', ' '] ++ rest else [' ', '+', ' '] ++ x :: rest) =
        signedTerm (x :: rest) := by
      by_cases h : x = '-'
      · subst h; rfl
      · rw [if_neg h, signedTerm]
        intro s hs
        exact h (List.cons.inj hs).1
    rw [hsg]
    simp only [show ¬ ((1 : ℕ) = 2 ∧ acc.2 ≠ e.2.2.2) from by omega, show ¬ ((1 : ℕ) = 3) from by omega, if_false,
      List.append_nil]
    refine Eq.trans (ih (fun e he => hes e (List.mem_cons_of_mem _ he)) _) ?_
    simp [hx]

theorem mem_signedTerm {c : Char} {s : List Char} (h : c ∈ s) (hc : c ≠ '-') : c ∈ signedTerm s := by
  cases s with
  | nil => simp at h
  | cons x s =>
    by_cases hx : x = '-'
    · subst hx
      rcases List.mem_cons.mp h with rfl | h
      · exact absurd rfl hc
      · exact List.mem_append_right _ h
    · rw [signedTerm]
      · exact List.mem_append_right _ h
      · intro s' hs; exact hx (List.cons.inj hs).1

theorem printTerms_one {shows : R → Sym n → List Char} {e : ℤ × (R × Sym n × ℤ)}
    {es : List (ℤ × (R × Sym n × ℤ))}
    (hne : ∀ x ∈ e :: es, shows x.2.1 x.2.2.1 ≠ []) (hnl : ∀ x ∈ e :: es, '\n' ∉ shows x.2.1 x.2.2.1) :
    printTerms 1 shows (e :: es) =
      some (shows e.2.1 e.2.2.1 ++ es.flatMap (fun e => signedTerm (shows e.2.1 e.2.2.1))) := by
  have : printTerms 1 shows (e :: es) =
      (es.foldlM (printStep 1 shows) (shows e.2.1 e.2.2.1, e.2.2.2)).bind fun r =>
        match r.1.getLast? with
        | none => none
        | some '\n' => some r.1.dropLast
        | some _ => some r.1 := rfl
  rw [this, printLoop_one _ _ fun x hx => hne x (List.mem_cons_of_mem _ hx), Option.bind_some]
  dsimp only
  set s := shows e.2.1 e.2.2.1 ++ es.flatMap (fun e => signedTerm (shows e.2.1 e.2.2.1)) with hs
  have hs0 : s ≠ [] := by
    rw [hs]; intro h
    exact hne e List.mem_cons_self (List.append_eq_nil_iff.mp h).1
  have hn : '\n' ∉ s := by
    rw [hs, List.mem_append, List.mem_flatMap, not_or]
    refine ⟨hnl e List.mem_cons_self, ?_⟩
    rintro ⟨x, hx, h⟩
    have h1 := hnl x (List.mem_cons_of_mem _ hx)
    revert h h1
    generalize shows x.2.1 x.2.2.1 = t
    intro h h1
    rw [signedTerm.eq_def] at h
    split at h
    · simp at h h1; exact h1 h
    · simp at h; exact h1 h
  rw [List.getLast?_eq_some_getLast hs0]
  have hc : s.getLast hs0 ≠ '\n' := fun h => hn (h ▸ List.getLast_mem _)
  split
  · rename_i h; cases h
  · rename_i h; exact absurd (Option.some.inj h) hc
  · rfl

/-- The text on one line: the terms by grade and index, with their signs. -/
theorem mvStr_one {A : Mv R n} (hA : A.WF g) {args : Expr R n} (hargs : expand args = A.obj)
    (hsub : ∀ t ∈ args, t.2 ∈ A.obj.map Prod.snd) {shows : R → Sym n → List Char}
    (hne : ∀ t ∈ A.obj, shows t.1 t.2 ≠ []) (hnl : ∀ t ∈ A.obj, '\n' ∉ shows t.1 t.2) (h0 : A.obj ≠ []) :
    ∃ t T, (t :: T).Perm A.obj ∧ ((t :: T).Pairwise fun t u => Before (symIndex t.2) (symIndex u.2)) ∧
      mvStr g 1 shows args = some (shows t.1 t.2 ++ T.flatMap fun u => signedTerm (shows u.1 u.2)) := by
  have hco : ∀ s, coefOf A.obj s = coefOf args s := fun s => by
    rw [← hargs]; exact lin_expand _ _
  have single : ∀ c b, (∀ u ∈ A.obj, u = (c, b)) → A.obj = [(c, b)] := by
    intro c b hE
    cases hO : A.obj with
    | nil => exact absurd hO h0
    | cons v E =>
      have h1 := hE v (by rw [hO]; exact List.mem_cons_self)
      cases E with
      | nil => rw [h1]
      | cons w E =>
        have h2 := hE w (by rw [hO]; simp)
        have := hA.1
        rw [hO, h1, h2] at this
        simp at this
  unfold mvStr
  by_cases hall : (args.all fun t => decide (t.2 = .blade [])) = true
  · rw [if_pos hall]
    simp only [List.all_eq_true, decide_eq_true_eq] at hall
    have hobj := single (args.map Prod.fst).sum (.blade []) (by
      intro u hu
      have h1 : coefOf A.obj u.2 = u.1 := coefOf_of_mem hA.1 hu
      have h2 : u.2 = .blade [] := by
        by_contra hc
        refine hA.2.1 u hu ?_
        rw [← h1, hco]
        refine coefOf_eq_zero fun hm => ?_
        obtain ⟨v, hv, he⟩ := List.mem_map.mp hm
        exact hc (he ▸ hall v hv)
      refine Prod.ext ?_ h2
      rw [← h1, hco, h2]
      exact expand_all_scalar hall)
    exact ⟨_, [], by rw [hobj], List.pairwise_singleton _ _, by simp⟩
  · rw [if_neg hall]
    split
    · rename_i c b
      have hobj := single c b (by
        intro u hu
        have h1 : coefOf A.obj u.2 = u.1 := coefOf_of_mem hA.1 hu
        rw [hco, coefOf_singleton] at h1
        split_ifs at h1 with h2
        · exact Prod.ext h1.symm h2.symm
        · exact absurd h1.symm (hA.2.1 u hu))
      exact ⟨_, [], by rw [hobj], List.pairwise_singleton _ _, by simp⟩
    · obtain ⟨mk, grades, h1, h2, h3, h4, h5, h6⟩ := mvStr_cases hA hargs hsub
      obtain ⟨e, es, hL, hperm, hord, -, -⟩ :=
        sortedTerms_facts (-1) h1 h2 h3 h4 h5 hargs hA.1 hA.2.1 hsub h0
      refine ⟨(e.2.1, e.2.2.1), printed es, hperm, hord, ?_⟩
      have hm : ∀ x ∈ e :: es, (x.2.1, x.2.2.1) ∈ A.obj := fun x hx =>
        hperm.mem_iff.mp (List.mem_map_of_mem (f := fun e : ℤ × (R × Sym n × ℤ) => (e.2.1, e.2.2.1)) hx)
      rw [h6, hL, printTerms_one (fun x hx => hne _ (hm x hx)) (fun x hx => hnl _ (hm x hx))]
      simp [printed, List.flatMap_map]


/-! ### Expressions -/

/-- `e_1^e_2^e_3` -/
def bladeExpr (names : Fin n → List Char) : List (Fin n) → PExpr
  | [] => .name ['1']
  | i :: l => l.foldl (fun e j => .op 1 e '^' (.name (names j))) (.name (names i))

def termExpr (names : Fin n → List Char) (w : PExpr) (l : List (Fin n)) : PExpr :=
  if l = [] then w else if w.text = ['1'] then bladeExpr names l
  else .op 2 w '*' (bladeExpr names l)

/-- A sum, beginning with `e`; each term has a sign, a coefficient and a blade. -/
def sumExpr (names : Fin n → List Char) (e : PExpr) (ts : List (Bool × PExpr × List (Fin n))) : PExpr :=
  ts.foldl (fun e t => .op 3 e (if t.1 then '-' else '+') (termExpr names t.2.1 t.2.2)) e

/-- The operator order that is used. -/
abbrev stdOps : List Op := [.dots, .wedge, .times]

section facts
variable {names : Fin n → List Char}

theorem bladeText_cons (i : Fin n) (l : List (Fin n)) :
    bladeText names (i :: l) = names i ++ l.flatMap fun j => '^' :: names j := by
  have key : ∀ (i : Fin n) (l : List (Fin n)), joinWith '^' ((i :: l).map names) =
      names i ++ l.flatMap fun j => '^' :: names j := by
    intro i l
    induction l generalizing i with
    | nil => simp [joinWith]
    | cons j l ih =>
      rw [List.map_cons, List.map_cons, joinWith, ← List.map_cons, ih]
      · simp
      · simp
  cases l with
  | nil => simp [bladeText, joinedText]
  | cons j l => rw [bladeText, joinedText, key] <;> simp

theorem text_bladeFold (l : List (Fin n)) (e : PExpr) :
    (l.foldl (fun e j => PExpr.op 1 e '^' (.name (names j))) e).text =
      e.text ++ l.flatMap fun j => '^' :: names j := by
  induction l generalizing e with
  | nil => simp
  | cons j l ih => rw [List.foldl_cons, ih]; simp [PExpr.text]

theorem text_bladeExpr {l : List (Fin n)} (h : l ≠ []) : (bladeExpr names l).text = bladeText names l := by
  cases l with
  | nil => exact absurd rfl h
  | cons i l => rw [bladeExpr, text_bladeFold, bladeText_cons]; rfl

theorem text_termExpr (w : PExpr) (l : List (Fin n)) :
    (termExpr names w l).text = unsignedText names w.text l := by
  rw [termExpr, unsignedText]
  by_cases h : l = []
  · rw [if_pos h, if_pos h]
  · rw [if_neg h, if_neg h]
    split_ifs
    · exact text_bladeExpr h
    · simp [PExpr.text, text_bladeExpr h]

theorem text_sumExpr (e : PExpr) (ts : List (Bool × PExpr × List (Fin n))) :
    (sumExpr names e ts).text = e.text ++
      ts.flatMap fun t => (if t.1 then '-' else '+') :: unsignedText names t.2.1.text t.2.2 := by
  rw [sumExpr]
  induction ts generalizing e with
  | nil => simp
  | cons t ts ih => rw [List.foldl_cons, ih]; simp [PExpr.text, text_termExpr]

/-- A word that can be a name in an expression. -/
def Word (s : List Char) : Prop := s ≠ [] ∧ ∀ c ∈ s, nameChar c = true

theorem wf_bladeFold (hn : ∀ i, Word (names i)) (l : List (Fin n)) {e : PExpr} (he : e.WF stdOps)
    (hr : e.rank = 0 ∨ e.rank = 2) :
    let e' := l.foldl (fun e j => PExpr.op 1 e '^' (.name (names j))) e
    e'.WF stdOps ∧ (e'.rank = 0 ∨ e'.rank = 2) ∧ (e.parts 3 = [] → e'.parts 3 = []) ∧
      ∀ i < 2, e.starts i = false → e'.starts i = false := by
  induction l generalizing e with
  | nil => exact ⟨he, hr, id, fun _ _ => id⟩
  | cons j l ih =>
    have h1 : (PExpr.op 1 e '^' (.name (names j))).WF stdOps := by
      refine ⟨he, hn j, Or.inl ⟨.wedge, rfl, rfl⟩, Nat.zero_le _, ?_⟩
      rw [if_neg (by decide)]
      omega
    obtain ⟨a, b, c, d⟩ := ih (e := .op 1 e '^' (.name (names j))) h1 (Or.inr rfl)
    refine ⟨a, b, fun h => c ?_, fun i hi h => d i hi ?_⟩
    · rw [PExpr.parts, h]
      have hs : (if e.rank = 1 + 1 then [] else e.self 3) = [] := by
        rcases hr with h0 | h2
        · rw [if_neg (by omega), PExpr.self, if_neg]
          simp [PExpr.isProduct, h0]
        · rw [if_pos h2]
      rw [hs]
      rfl
    · rw [PExpr.starts, h]
      simp; omega

theorem wf_bladeExpr (hn : ∀ i, Word (names i)) {l : List (Fin n)} (hl : l ≠ []) :
    (bladeExpr names l).WF stdOps ∧ ((bladeExpr names l).rank = 0 ∨ (bladeExpr names l).rank = 2) ∧
      (bladeExpr names l).parts 3 = [] ∧ ∀ i < 2, (bladeExpr names l).starts i = false := by
  cases l with
  | nil => exact absurd rfl hl
  | cons i l =>
    obtain ⟨a, b, c, d⟩ := wf_bladeFold hn l (e := .name (names i)) (hn i) (Or.inl rfl)
    exact ⟨a, b, c rfl, fun i hi => d i hi rfl⟩

/-- The products of a term. -/
def prods (e : PExpr) : List PExpr := e.self 3 ++ e.parts 3

/-- A coefficient as an expression: only `*`, `+` and `-`, and not a sum. -/
structure Coef (w : PExpr) : Prop where
  wf : w.WF stdOps
  arith : w.Arith
  rank : w.rank = 0 ∨ w.rank = 3
  parens : w.SafeParens 3

theorem arith_rank {w : PExpr} (h : w.Arith) (hr : w.rank ≤ 3) : w.rank = 0 ∨ w.rank = 3 := by
  cases w with
  | name s => exact Or.inl rfl
  | paren e => exact Or.inl rfl
  | op k l c r => have := h.1; rw [PExpr.rank] at *; omega

theorem arith_starts {w : PExpr} (h : w.Arith) {i : ℕ} (hi : i ≤ 2) : w.starts i = false := by
  induction w with
  | name s => rfl
  | paren e _ => rfl
  | op k l c r ihl _ =>
    rw [PExpr.starts, ihl h.2.1]
    have := h.1
    simp; omega

theorem wf_termExpr (hn : ∀ i, Word (names i)) {w : PExpr} (hw : Coef w) (l : List (Fin n)) :
    (termExpr names w l).WF stdOps ∧ (termExpr names w l).rank ≤ 3 := by
  rw [termExpr]
  split_ifs with h1 h2
  · exact ⟨hw.wf, by have := hw.rank; omega⟩
  · obtain ⟨a, b, -⟩ := wf_bladeExpr hn h1
    exact ⟨a, by omega⟩
  · obtain ⟨a, b, -⟩ := wf_bladeExpr hn h1
    refine ⟨⟨hw.wf, a, Or.inl ⟨.times, rfl, rfl⟩, by omega, ?_⟩, by simp [PExpr.rank]⟩
    rw [if_neg (by decide)]
    have := hw.rank; omega

theorem wf_sumExpr (hn : ∀ i, Word (names i)) {e : PExpr} (he : e.WF stdOps) (hr : e.rank ≤ 4)
    {ts : List (Bool × PExpr × List (Fin n))} (hw : ∀ t ∈ ts, Coef t.2.1) :
    (sumExpr names e ts).WF stdOps ∧ (sumExpr names e ts).rank ≤ 4 := by
  rw [sumExpr]
  induction ts generalizing e with
  | nil => exact ⟨he, hr⟩
  | cons t ts ih =>
    obtain ⟨a, b⟩ := wf_termExpr hn (hw t List.mem_cons_self) t.2.2
    refine ih (e := .op 3 e (if t.1 then '-' else '+') (termExpr names t.2.1 t.2.2)) ?_ (by simp [PExpr.rank])
      fun u hu => hw u (List.mem_cons_of_mem _ hu)
    refine ⟨he, a, Or.inr ⟨rfl, ?_⟩, b, ?_⟩
    · cases t.1 <;> simp
    · rw [if_neg (by decide)]; exact hr

theorem prods_sumExpr (e : PExpr) (ts : List (Bool × PExpr × List (Fin n))) :
    prods (sumExpr names e ts) = prods e ++ ts.flatMap fun t => prods (termExpr names t.2.1 t.2.2) := by
  rw [sumExpr]
  induction ts generalizing e with
  | nil => simp
  | cons t ts ih =>
    rw [List.foldl_cons, ih, List.flatMap_cons, ← List.append_assoc]
    congr 1
    rw [prods, PExpr.self, if_neg (by simp [PExpr.isProduct, PExpr.rank]), PExpr.parts, List.nil_append]
    have : (if e.rank = 3 + 1 then [] else e.self 3) = e.self 3 := by
      split_ifs with h
      · rw [PExpr.self, if_neg (by simp [PExpr.isProduct, h])]
      · rfl
    rw [this]
    rfl

theorem not_star_word {w : List Char} (hw : Word w) {c : Char} (hc : nameChar c = false) : c ∉ w := by
  intro h
  rw [hw.2 c h] at hc
  cases hc

/-- The names in an expression that belong to basis vectors. -/
def basisLeaves (names : Fin n → List Char) (e : PExpr) : List (List Char) :=
  e.tree.leaves.filter fun s => decide (∃ i, s = names i)

theorem basisLeaves_text {e e' : PExpr} (he : e.WF stdOps) (he' : e'.WF stdOps) (h : e.text = e'.text) :
    basisLeaves names e = basisLeaves names e' := by
  have h1 := readString_order (ops := stdOps) (by decide) e he
  rw [h, readString_order (ops := stdOps) (by decide) e' he'] at h1
  rw [basisLeaves, basisLeaves, Option.some.inj h1]

theorem basisLeaves_op (k : ℕ) (l : PExpr) (c : Char) (r : PExpr) :
    basisLeaves names (.op k l c r) = basisLeaves names l ++ basisLeaves names r := by
  rw [basisLeaves, PExpr.tree, Tree.leaves, List.filter_append]; rfl

theorem basisLeaves_name (i : Fin n) : basisLeaves names (.name (names i)) = [names i] := by
  simp [basisLeaves, PExpr.tree, Tree.leaves]

theorem basisLeaves_blade {l : List (Fin n)} (hl : l ≠ []) :
    basisLeaves names (bladeExpr names l) = l.map names := by
  have key : ∀ (l : List (Fin n)) (e : PExpr),
      basisLeaves names (l.foldl (fun e j => PExpr.op 1 e '^' (.name (names j))) e) =
        basisLeaves names e ++ l.map names := by
    intro l
    induction l with
    | nil => simp
    | cons j l ih => intro e; rw [List.foldl_cons, ih, basisLeaves_op, basisLeaves_name]; simp
  cases l with
  | nil => exact absurd rfl hl
  | cons i l => rw [bladeExpr, key, basisLeaves_name]; rfl

theorem mem_self {m : ℕ} {e x : PExpr} (h : x ∈ e.self m) : x = e := by
  rw [PExpr.self] at h
  split_ifs at h
  · simpa using h
  · simp at h

/-- The parts of an expression are expressions with the same names. -/
theorem mem_parts {ops : List Op} {m : ℕ} (e : PExpr) (he : e.WF ops) {p : PExpr} (hp : p ∈ e.parts m) :
    p.WF ops ∧ ∀ s ∈ p.tree.leaves, s ∈ e.tree.leaves := by
  induction e with
  | name s => simp [PExpr.parts] at hp
  | paren e ih =>
    rw [PExpr.parts, List.mem_cons, List.mem_append] at hp
    rcases hp with rfl | hp | hp
    · exact ⟨he, fun s => id⟩
    · rw [mem_self hp]; exact ⟨he, fun s => id⟩
    · exact ih he hp
  | op k l c r ihl ihr =>
    rw [PExpr.parts, List.mem_append, List.mem_append, List.mem_append] at hp
    have hl : ∀ s ∈ l.tree.leaves, s ∈ (PExpr.op k l c r).tree.leaves := fun s hs => by
      rw [PExpr.tree, Tree.leaves, List.mem_append]; exact Or.inl hs
    have hr : ∀ s ∈ r.tree.leaves, s ∈ (PExpr.op k l c r).tree.leaves := fun s hs => by
      rw [PExpr.tree, Tree.leaves, List.mem_append]; exact Or.inr hs
    rcases hp with (hp | hp) | hp | hp
    · split_ifs at hp
      · simp at hp
      · rw [mem_self hp]; exact ⟨he.1, hl⟩
    · exact ⟨(ihl he.1 hp).1, fun s hs => hl s ((ihl he.1 hp).2 s hs)⟩
    · rw [mem_self hp]; exact ⟨he.2.1, hr⟩
    · exact ⟨(ihr he.2.1 hp).1, fun s hs => hr s ((ihr he.2.1 hp).2 s hs)⟩

/-- The products of a term that contain its blade. -/
def outerParts (names : Fin n → List Char) (w : PExpr) (l : List (Fin n)) : List PExpr :=
  if l = [] then [] else if w.text = ['1'] then (bladeExpr names l).self 3
  else .op 2 w '*' (bladeExpr names l) :: (bladeExpr names l).self 3

theorem text_one {w : PExpr} (hw : w.WF stdOps) (h : w.text = ['1']) : w = .name ['1'] := by
  cases w with
  | name s => rw [← h]; rfl
  | paren e => have := congrArg List.head? h; simp [PExpr.text] at this
  | op k l c r =>
    have h1 := readString_order (ops := stdOps) (by decide) _ hw
    rw [h, show readString (orderRules stdOps) ['1'] = some (Tree.leaf ['1']) from by decide] at h1
    cases h1

theorem prods_termExpr (hn : ∀ i, Word (names i)) {w : PExpr} (hw : Coef w) (l : List (Fin n)) :
    prods (termExpr names w l) = (outerParts names w l) ++ coefParts l w ∨
    prods (termExpr names w l) = (outerParts names w l).take 1 ++ coefParts l w ++ (outerParts names w l).drop 1 := by
  rw [termExpr, outerParts, coefParts]
  by_cases hl : l = []
  · rw [if_pos hl, if_pos hl, if_pos hl]
    left; simp [prods]
  · rw [if_neg hl, if_neg hl, if_neg hl]
    obtain ⟨-, hr, hp, -⟩ := wf_bladeExpr hn hl
    by_cases h1 : w.text = ['1']
    · rw [if_pos h1, if_pos h1, prods, hp, text_one hw.wf h1]
      left; simp [PExpr.parts]
    · rw [if_neg h1, if_neg h1, prods]
      right
      have e1 : (PExpr.op 2 w '*' (bladeExpr names l)).self 3 = [.op 2 w '*' (bladeExpr names l)] := by
        simp [PExpr.self, PExpr.isProduct, PExpr.rank]
      have e2 : (PExpr.op 2 w '*' (bladeExpr names l)).parts 3 = w.parts 3 ++ (bladeExpr names l).self 3 := by
        rw [PExpr.parts, hp]
        have : (if w.rank = 2 + 1 then [] else w.self 3) = [] := by
          rcases hw.rank with h | h
          · rw [if_neg (by omega), PExpr.self, if_neg (by simp [PExpr.isProduct, h])]
          · rw [if_pos h]
        rw [this]; simp
      rw [e1, e2]; simp

theorem perm_termExpr (hn : ∀ i, Word (names i)) {w : PExpr} (hw : Coef w) (l : List (Fin n)) :
    (prods (termExpr names w l)).Perm (outerParts names w l ++ coefParts l w) := by
  rcases prods_termExpr hn hw l with h | h
  · rw [h]
  · rw [h, List.append_assoc]
    refine (List.Perm.append_left _ List.perm_append_comm).trans ?_
    rw [← List.append_assoc, List.take_append_drop]

theorem mem_outerParts (hn : ∀ i, Word (names i)) {w : PExpr} (hw : Coef w) (hb : basisLeaves names w = [])
    (l : List (Fin n)) {p : PExpr} (hp : p ∈ outerParts names w l) :
    l ≠ [] ∧ p.WF stdOps ∧ basisLeaves names p = l.map names ∧ ∀ e', p ≠ .paren e' := by
  rw [outerParts] at hp
  by_cases hl : l = []
  · rw [if_pos hl] at hp; simp at hp
  · rw [if_neg hl] at hp
    obtain ⟨a, hr, -⟩ := wf_bladeExpr hn hl
    have hself : p ∈ (bladeExpr names l).self 3 → l ≠ [] ∧ p.WF stdOps ∧ basisLeaves names p = l.map names ∧
        ∀ e', p ≠ .paren e' := by
      intro h
      have h' := mem_self h
      subst h'
      refine ⟨hl, a, basisLeaves_blade hl, ?_⟩
      intro e' he
      rw [he] at h
      simp [PExpr.self, PExpr.isProduct, PExpr.rank] at h
    split_ifs at hp with h1
    · exact hself hp
    · rcases List.mem_cons.mp hp with rfl | hp
      · refine ⟨hl, ?_, ?_, fun e' h => by cases h⟩
        · have := (wf_termExpr hn hw l).1
          rw [termExpr, if_neg hl, if_neg h1] at this
          exact this
        · rw [basisLeaves_op, hb, basisLeaves_blade hl, List.nil_append]
      · exact hself hp

theorem nodup_outerParts {w : PExpr} (l : List (Fin n)) :
    ((outerParts names w l).map PExpr.text).Nodup := by
  rw [outerParts]
  have hsn : (((bladeExpr names l).self 3).map PExpr.text).Nodup := by rw [PExpr.self]; split_ifs <;> simp
  split_ifs with hl h1
  · simp
  · exact hsn
  · rw [List.map_cons, List.nodup_cons]
    refine ⟨fun h => ?_, hsn⟩
    obtain ⟨y, hy, h⟩ := List.mem_map.mp h
    rw [mem_self hy] at h
    have := congrArg List.length h
    rw [PExpr.text] at this
    simp at this
    omega

theorem mem_coefParts {w : PExpr} (hw : Coef w) (hb : basisLeaves names w = []) (l : List (Fin n)) {p : PExpr}
    (hp : p ∈ coefParts l w) :
    p.WF stdOps ∧ basisLeaves names p = [] ∧ ∀ e', p = .paren e' → p ∈ w.parts 3 := by
  have key : p ∈ w.parts 3 → p.WF stdOps ∧ basisLeaves names p = [] := by
    intro h
    obtain ⟨h1, h2⟩ := mem_parts w hw.wf h
    refine ⟨h1, ?_⟩
    rw [basisLeaves, List.filter_eq_nil_iff] at hb ⊢
    exact fun s hs => hb s (h2 s hs)
  rw [coefParts] at hp
  split_ifs at hp
  · rcases List.mem_append.mp hp with h | h
    · refine ⟨by rw [mem_self h]; exact hw.wf, by rw [mem_self h]; exact hb, ?_⟩
      rintro e' rfl
      rw [PExpr.self] at h
      split_ifs at h with h'
      · rw [List.mem_singleton] at h
        rw [← h] at h'
        simp [PExpr.isProduct, PExpr.rank] at h'
      · simp at h
    · exact ⟨(key h).1, (key h).2, fun _ _ => h⟩
  · exact ⟨(key hp).1, (key hp).2, fun _ _ => hp⟩

/-- No product is repeated in a sum of terms with different blades. -/
theorem noRepeat_sum (hn : ∀ i, Word (names i)) (hinj : Function.Injective names) {w : PExpr} (hw : Coef w)
    (hb : basisLeaves names w = []) (l : List (Fin n)) {ts : List (Bool × PExpr × List (Fin n))}
    (hws : ∀ t ∈ ts, Coef t.2.1 ∧ basisLeaves names t.2.1 = [])
    (hd : (l :: ts.map fun t => t.2.2).Nodup)
    (hc : ((((false, w, l) :: ts : List (Bool × PExpr × List (Fin n)))).flatMap
      fun t => (coefParts t.2.2 t.2.1).map PExpr.text).Nodup) :
    (sumExpr names (termExpr names w l) ts).NoRepeat 3 ∧
      (sumExpr names (termExpr names w l) ts).SafeParens 3 := by
  have hP := prods_sumExpr (names := names) (termExpr names w l) ts
  have hcat : prods (sumExpr names (termExpr names w l) ts) =
      (((false, w, l) :: ts : List (Bool × PExpr × List (Fin n)))).flatMap
        fun t => prods (termExpr names t.2.1 t.2.2) := by
    rw [hP, List.flatMap_cons]
  have hws' : ∀ t ∈ ((false, w, l) :: ts : List (Bool × PExpr × List (Fin n))),
      Coef t.2.1 ∧ basisLeaves names t.2.1 = [] := by
    intro t ht
    rcases List.mem_cons.mp ht with rfl | ht
    · exact ⟨hw, hb⟩
    · exact hws t ht
  have hd' : (((false, w, l) :: ts : List (Bool × PExpr × List (Fin n))).map fun t => t.2.2).Nodup := hd
  set T : List (Bool × PExpr × List (Fin n)) := (false, w, l) :: ts with hT
  have hperm : (prods (sumExpr names (termExpr names w l) ts)).Perm
      (T.flatMap (fun t => outerParts names t.2.1 t.2.2) ++ T.flatMap fun t => coefParts t.2.2 t.2.1) := by
    rw [hcat]
    refine (List.Perm.flatMap_left _ fun t ht => perm_termExpr hn (hws' t ht).1 t.2.2).trans ?_
    exact (List.flatMap_append_perm _ _ _).symm
  have hmem : ∀ p ∈ prods (sumExpr names (termExpr names w l) ts),
      (∃ t ∈ T, p ∈ outerParts names t.2.1 t.2.2) ∨ ∃ t ∈ T, p ∈ coefParts t.2.2 t.2.1 := by
    intro p hp
    rw [hperm.mem_iff, List.mem_append, List.mem_flatMap, List.mem_flatMap] at hp
    exact hp
  have hnd : ((prods (sumExpr names (termExpr names w l) ts)).map PExpr.text).Nodup := by
    rw [(hperm.map _).nodup_iff, List.map_append, List.nodup_append, List.map_flatMap, List.map_flatMap]
    refine ⟨?_, hc, ?_⟩
    · rw [List.nodup_flatMap]
      refine ⟨fun t _ => nodup_outerParts t.2.2, ?_⟩
      rw [List.Nodup, List.pairwise_map] at hd'
      refine hd'.imp_of_mem fun {a b} ha hb hab x h1 h2 => ?_
      obtain ⟨p, p1, p2⟩ := List.mem_map.mp h1
      obtain ⟨q, q1, q2⟩ := List.mem_map.mp h2
      obtain ⟨-, p3, p4, -⟩ := mem_outerParts hn (hws' a ha).1 (hws' a ha).2 _ p1
      obtain ⟨-, q3, q4, -⟩ := mem_outerParts hn (hws' b hb).1 (hws' b hb).2 _ q1
      have := basisLeaves_text (names := names) p3 q3 (p2.trans q2.symm)
      rw [p4, q4] at this
      exact hab (List.map_injective_iff.mpr hinj this)
    · rintro x h1 y h2 rfl
      obtain ⟨a, ha, h1⟩ := List.mem_flatMap.mp h1
      obtain ⟨b, hb, h2⟩ := List.mem_flatMap.mp h2
      obtain ⟨p, p1, p2⟩ := List.mem_map.mp h1
      obtain ⟨q, q1, q2⟩ := List.mem_map.mp h2
      obtain ⟨p0, p3, p4, -⟩ := mem_outerParts hn (hws' a ha).1 (hws' a ha).2 _ p1
      obtain ⟨q3, q4, -⟩ := mem_coefParts (hws' b hb).1 (hws' b hb).2 _ q1
      have := basisLeaves_text (names := names) p3 q3 (p2.trans q2.symm)
      rw [p4, q4] at this
      exact p0 (List.map_eq_nil_iff.mp this)
  constructor
  · rw [PExpr.NoRepeat]
    rw [prods, List.map_append] at hnd
    exact (List.nodup_append.mp hnd).2.1
  · intro e' he'
    have : PExpr.paren e' ∈ prods (sumExpr names (termExpr names w l) ts) := List.mem_append_right _ he'
    rcases hmem _ this with ⟨t, ht, h⟩ | ⟨t, ht, h⟩
    · exact absurd rfl ((mem_outerParts hn (hws' t ht).1 (hws' t ht).2 _ h).2.2.2 e')
    · exact (hws' t ht).1.parens e' ((mem_coefParts (hws' t ht).1 (hws' t ht).2 _ h).2.2 e' rfl)

theorem starts_sumExpr {i : ℕ} (hi : i < 3) (e : PExpr) (ts : List (Bool × PExpr × List (Fin n))) :
    (sumExpr names e ts).starts i = e.starts i := by
  rw [sumExpr]
  induction ts generalizing e with
  | nil => rfl
  | cons t ts ih => rw [List.foldl_cons, ih, PExpr.starts]; simp; omega

/-- The sum is one term, or its first term is not a blade of two or more vectors without coefficient. -/
theorem safeTop_sum (hn : ∀ i, Word (names i)) {w : PExpr} (hw : Coef w) {l : List (Fin n)}
    {ts : List (Bool × PExpr × List (Fin n))} (h : ts = [] ∨ l.length ≤ 1 ∨ w.text ≠ ['1']) :
    (sumExpr names (termExpr names w l) ts).SafeTop 3 := by
  have key : (l.length ≤ 1 ∨ w.text ≠ ['1']) → ∀ i < 3, (termExpr names w l).starts i = false := by
    intro h i hi
    rw [termExpr]
    split_ifs with h1 h2
    · exact arith_starts hw.arith (by omega)
    · rcases h with h | h
      · match l, h1, h with
        | [j], _, _ => rfl
      · exact absurd h2 h
    · rw [PExpr.starts, arith_starts hw.arith (by omega)]; simp; omega
  by_cases h' : l.length ≤ 1 ∨ w.text ≠ ['1']
  · intro i hi
    right
    rw [starts_sumExpr hi, key h' i hi]
    simp
  · push Not at h'
    obtain rfl : ts = [] := by
      rcases h with h | h | h
      · exact h
      · omega
      · exact absurd h'.2 h
    intro i hi
    have hl : l ≠ [] := by rintro rfl; simp at h'
    rw [sumExpr, List.foldl_nil, termExpr, if_neg hl, if_pos h'.2]
    obtain ⟨-, -, -, hs⟩ := wf_bladeExpr hn hl
    by_cases hi2 : i < 2
    · right; rw [hs i hi2]; simp
    · left
      obtain rfl : i = 2 := by omega
      have : (bladeExpr names l).rank = 2 := by
        match l, h' with
        | i :: j :: l, _ =>
          have : ∀ (l : List (Fin n)) (e : PExpr), e.rank = 2 →
              (l.foldl (fun e j => PExpr.op 1 e '^' (.name (names j))) e).rank = 2 := by
            intro l
            induction l with
            | nil => exact fun e h => h
            | cons j l ih => intro e _; exact ih _ rfl
          exact this l _ rfl
        | [], h' => simp at h'
        | [i], h' => simp at h'
      simp [PExpr.isProduct, this]

end facts


/-! ### Values -/

section values
variable {names : Fin n → List Char} {ν : List Char → Val R n}

theorem IsName.word {s : List Char} (h : IsName s) : Word s := ⟨h.1, h.2.1⟩

theorem isDigit_all_strNat (k : ℕ) : (strNat k).all Char.isDigit = true := by
  rw [List.all_eq_true]; exact fun c hc => isDigit_strNat hc

variable {ρ : List Char → R}

theorem IsCoef.coef {c : R} {w : PExpr} (h : IsCoef ν ρ c w) : Coef w :=
  ⟨h.wf, h.arith, arith_rank h.arith h.rank, h.parens⟩

theorem IsCoef.basisLeaves {c : R} {w : PExpr} (h : IsCoef ν ρ c w) (hn : ∀ i, IsName (names i))
    (hb : ∀ i, (ν (names i)).IsMv) : basisLeaves names w = [] := by
  rw [GA.basisLeaves, List.filter_eq_nil_iff]
  intro s hs
  simp only [decide_eq_true_eq]
  rintro ⟨i, rfl⟩
  rcases h.leaves _ hs with ⟨h1, -⟩ | ⟨-, h1⟩
  · exact (hn i).2.2 h1
  · have := hb i
    rw [h1] at this
    exact this

theorem arith_value {w : PExpr} (hwf : w.WF stdOps) (ha : w.Arith)
    (hl : ∀ s ∈ w.tree.leaves,
      (s.all Char.isDigit = true ∧ s.head? ≠ some '0') ∨ (IsName s ∧ ν s = .scalar (ρ s))) (P : List Char → Prop) :
    w.tree.value g (fun s => (ν s).value g) = algebraMap R _ (w.tree.number ρ) ∧ w.tree.Algebraic P := by
  induction w with
  | name s =>
    rcases hl s (by simp [PExpr.tree, Tree.leaves]) with ⟨h1, h2⟩ | ⟨h1, h2⟩
    · refine ⟨?_, fun _ => h2⟩
      rw [PExpr.tree, Tree.value, Tree.number, if_pos h1, if_pos h1, map_natCast]
    · refine ⟨?_, fun h => absurd h h1.2.2⟩
      rw [PExpr.tree, Tree.value, Tree.number, if_neg h1.2.2, if_neg h1.2.2, h2]
      rfl
  | paren e ih => exact ih hwf ha hl
  | op k l c r ihl ihr =>
    obtain ⟨a1, a2⟩ := ihl hwf.1 ha.2.1 fun s hs => hl s (by
      rw [PExpr.tree, Tree.leaves, List.mem_append]; exact Or.inl hs)
    obtain ⟨b1, b2⟩ := ihr hwf.2.1 ha.2.2 fun s hs => hl s (by
      rw [PExpr.tree, Tree.leaves, List.mem_append]; exact Or.inr hs)
    have hk := ha.1
    have hc : c = '+' ∨ c = '-' ∨ c = '*' := by
      rcases hwf.2.2.1 with ⟨o, h1, h2⟩ | ⟨-, h⟩
      · have : k < 3 := (List.getElem?_eq_some_iff.mp h1).1
        obtain rfl : k = 2 := by omega
        simp at h1
        subst h1
        exact Or.inr (Or.inr (by simpa [opChar] using h2))
      · tauto
    refine ⟨?_, a2, b2, by tauto⟩
    rw [PExpr.tree, Tree.value, Tree.number, a1, b1]
    rcases hc with rfl | rfl | rfl
    · rw [if_pos rfl, map_add]; rfl
    · rw [if_neg (by decide), if_pos rfl, map_sub]; rfl
    · rw [if_neg (by decide), if_neg (by decide), map_mul]; rfl

theorem IsCoef.value_eq {c : R} {w : PExpr} (h : IsCoef ν ρ c w) :
    w.tree.value g (fun s => (ν s).value g) = algebraMap R _ c := by
  rw [(arith_value (g := g) h.wf h.arith h.leaves fun _ => True).1, h.value]

theorem IsCoef.algebraic {c : R} {w : PExpr} (h : IsCoef ν ρ c w) (P : List Char → Prop) : w.tree.Algebraic P :=
  (arith_value (n := n) (g := (0 : Matrix (Fin n) (Fin n) R)) h.wf h.arith h.leaves P).2

theorem IsCoef.one {c : R} {w : PExpr} (h : IsCoef ν ρ c w) (hw : w.text = ['1']) : c = 1 := by
  have := h.value
  rw [text_one h.wf hw, PExpr.tree, Tree.number, if_pos (by decide)] at this
  rw [← this]
  simp [digitsValue]

theorem tree_bladeFold (hn : ∀ i, IsName (names i)) (hb : ∀ i, (ν (names i)).IsMv ∧ (ν (names i)).value g = Spec.e g i)
    (l : List (Fin n)) {e : PExpr} (he : e.tree.Algebraic fun s => (ν s).IsMv)
    (hm : e.tree.HasMv fun s => (ν s).IsMv) {x : Spec.Cl g}
    (hx : e.tree.value g (fun s => (ν s).value g) = x) :
    let t := (l.foldl (fun e j => PExpr.op 1 e '^' (.name (names j))) e).tree
    (t.Algebraic fun s => (ν s).IsMv) ∧ (t.HasMv fun s => (ν s).IsMv) ∧
      t.value g (fun s => (ν s).value g) = Spec.wedge g x (Spec.blade g l) ∧
      ∀ s ∈ t.leaves, s ∈ e.tree.leaves ∨ ∃ i, s = names i := by
  induction l generalizing e x with
  | nil => exact ⟨he, hm, by simp [hx, Spec.wedge_one], fun s hs => Or.inl hs⟩
  | cons j l ih =>
    obtain ⟨a, b, c, d⟩ := ih (e := .op 1 e '^' (.name (names j))) (x := Spec.wedge g x (Spec.e g j))
      ⟨he, fun h => absurd h (hn j).2.2, Or.inr (Or.inr (Or.inr (Or.inl hm)))⟩ (Or.inl hm) (by
        rw [PExpr.tree, Tree.value, hx, PExpr.tree, Tree.value, if_neg (hn j).2.2, (hb j).2]
        rfl)
    refine ⟨a, b, c.trans ?_, fun s hs => ?_⟩
    · rw [Spec.wedge_assoc, Spec.blade_cons]
    · rcases d s hs with h | h
      · rw [PExpr.tree, Tree.leaves, List.mem_append] at h
        rcases h with h | h
        · exact Or.inl h
        · exact Or.inr ⟨j, by simpa [PExpr.tree, Tree.leaves] using h⟩
      · exact Or.inr h

theorem tree_bladeExpr (hn : ∀ i, IsName (names i)) (hb : ∀ i, (ν (names i)).IsMv ∧ (ν (names i)).value g = Spec.e g i)
    {l : List (Fin n)} (hl : l ≠ []) :
    ((bladeExpr names l).tree.Algebraic fun s => (ν s).IsMv) ∧
      (bladeExpr names l).tree.value g (fun s => (ν s).value g) = Spec.blade g l ∧
      ∀ s ∈ (bladeExpr names l).tree.leaves, ∃ i, s = names i := by
  cases l with
  | nil => exact absurd rfl hl
  | cons i l =>
    obtain ⟨a, b, c, d⟩ := tree_bladeFold (g := g) hn hb l (e := .name (names i)) (x := Spec.e g i)
      (fun h => absurd h (hn i).2.2) ⟨(hn i).2.2, (hb i).1⟩ (by
        rw [PExpr.tree, Tree.value, if_neg (hn i).2.2, (hb i).2])
    refine ⟨a, ?_, fun s hs => ?_⟩
    · rw [Spec.blade_cons]; exact c
    · rcases d s hs with h | h
      · exact ⟨i, by simpa [PExpr.tree, Tree.leaves] using h⟩
      · exact h

theorem tree_termExpr (hn : ∀ i, IsName (names i)) (hb : ∀ i, (ν (names i)).IsMv ∧ (ν (names i)).value g = Spec.e g i)
    {c : R} {w : PExpr} (hw : IsCoef ν ρ c w) (l : List (Fin n)) :
    ((termExpr names w l).tree.Algebraic fun s => (ν s).IsMv) ∧
      (termExpr names w l).tree.value g (fun s => (ν s).value g) = c • Spec.blade g l ∧
      ∀ s ∈ (termExpr names w l).tree.leaves, s ∈ w.tree.leaves ∨ ∃ i, s = names i := by
  rw [termExpr]
  split_ifs with h1 h2
  · refine ⟨hw.algebraic _, ?_, fun s hs => Or.inl hs⟩
    rw [hw.value_eq, h1, Algebra.algebraMap_eq_smul_one]
    simp
  · obtain ⟨a, b, d⟩ := tree_bladeExpr (g := g) hn hb h1
    refine ⟨a, ?_, fun s hs => Or.inr (d s hs)⟩
    rw [b, hw.one h2, one_smul]
  · obtain ⟨a, b, d⟩ := tree_bladeExpr (g := g) hn hb h1
    refine ⟨⟨hw.algebraic _, a, Or.inr (Or.inr (Or.inl rfl))⟩, ?_, fun s hs => ?_⟩
    · rw [PExpr.tree, Tree.value, b, hw.value_eq, Algebra.smul_def]; rfl
    · rw [PExpr.tree, Tree.leaves, List.mem_append] at hs
      rcases hs with hs | hs
      · exact Or.inl hs
      · exact Or.inr (d s hs)

/-- The sign, the coefficient and the blade of a term. -/
def Says (names : Fin n → List Char) (ν : List Char → Val R n) (ρ : List Char → R) (shows : R → Sym n → List Char)
    (t : R × Sym n) (u : Bool × PExpr × List (Fin n)) : Prop :=
  t.2 = .blade u.2.2 ∧ IsCoef ν ρ (if u.1 then -t.1 else t.1) u.2.1 ∧
    ∃ s, s.filter (· ≠ ' ') = unsignedText names u.2.1.text u.2.2 ∧ shows t.1 t.2 = if u.1 then '-' :: s else s

theorem tree_sumExpr (hn : ∀ i, IsName (names i)) (hb : ∀ i, (ν (names i)).IsMv ∧ (ν (names i)).value g = Spec.e g i)
    {shows : R → Sym n → List Char} {T : Expr R n} {ts : List (Bool × PExpr × List (Fin n))}
    (hT : List.Forall₂ (Says names ν ρ shows) T ts) {e : PExpr} (he : e.tree.Algebraic fun s => (ν s).IsMv)
    {x : Spec.Cl g} (hx : e.tree.value g (fun s => (ν s).value g) = x) :
    ((sumExpr names e ts).tree.Algebraic fun s => (ν s).IsMv) ∧
      (sumExpr names e ts).tree.value g (fun s => (ν s).value g) = x + den g T ∧
      ∀ s ∈ (sumExpr names e ts).tree.leaves, s ∈ e.tree.leaves ∨ (∃ i, s = names i) ∨
        ∃ c w, IsCoef ν ρ c w ∧ s ∈ w.tree.leaves := by
  rw [sumExpr]
  induction hT generalizing e x with
  | nil => exact ⟨he, by simp [hx, den], fun s hs => Or.inl hs⟩
  | @cons t u T ts htu _ ih =>
    obtain ⟨h1, h2, h3⟩ := htu
    obtain ⟨a, b, c⟩ := tree_termExpr (g := g) hn hb h2 u.2.2
    obtain ⟨p, q, r⟩ := ih (e := .op 3 e (if u.1 then '-' else '+') (termExpr names u.2.1 u.2.2))
      (x := x + t.1 • Spec.blade g u.2.2) (by
        refine ⟨he, a, ?_⟩
        cases u.1 <;> simp) (by
        rw [PExpr.tree, Tree.value, hx, b]
        cases u.1 with
        | true => show x - (-t.1) • _ = _; rw [neg_smul, sub_neg_eq_add]
        | false => rfl)
    refine ⟨p, q.trans ?_, fun s hs => ?_⟩
    · have : den g (t :: T) = t.1 • symDen g t.2 + den g T := by simp [den]
      rw [this, h1, add_assoc]
      rfl
    · rcases r s hs with h | h
      · rw [PExpr.tree, Tree.leaves, List.mem_append] at h
        rcases h with h | h
        · exact Or.inl h
        · rcases c s h with h | h
          · exact Or.inr (Or.inr ⟨_, _, h2, h⟩)
          · exact Or.inr (Or.inl h)
      · exact Or.inr h

theorem value_neg_sumExpr (hn : ∀ i, IsName (names i))
    (hb : ∀ i, (ν (names i)).IsMv ∧ (ν (names i)).value g = Spec.e g i)
    {shows : R → Sym n → List Char} {T : Expr R n} {ts : List (Bool × PExpr × List (Fin n))}
    (hT : List.Forall₂ (Says names ν ρ shows) T ts) {e : PExpr}
    {x : Spec.Cl g} (hx : e.negRead.value g (fun s => (ν s).value g) = x) :
    (sumExpr names e ts).negRead.value g (fun s => (ν s).value g) = x + den g T := by
  rw [sumExpr]
  induction hT generalizing e x with
  | nil => simp [hx, den]
  | @cons t u T ts htu _ ih =>
    obtain ⟨h1, h2, h3⟩ := htu
    obtain ⟨a, b, c⟩ := tree_termExpr (g := g) hn hb h2 u.2.2
    have q := ih (e := .op 3 e (if u.1 then '-' else '+') (termExpr names u.2.1 u.2.2))
      (x := x + t.1 • Spec.blade g u.2.2) (by
        rw [PExpr.negRead, Tree.value, hx, b]
        cases u.1 with
        | true => show x - (-t.1) • _ = _; rw [neg_smul, sub_neg_eq_add]
        | false => rfl)
    refine q.trans ?_
    have : den g (t :: T) = t.1 • symDen g t.2 + den g T := by simp [den]
    rw [this, h1, add_assoc]
    rfl

/-! ### Texts -/

theorem nameChar_ne {c : Char} (h : nameChar c = true) : c ≠ ' ' ∧ c ≠ '-' ∧ c ≠ '\n' := by
  refine ⟨?_, ?_, ?_⟩ <;> (rintro rfl; exact absurd h (by decide))

theorem mem_text {e : PExpr} (he : e.WF stdOps) {c : Char} (hc : c ∈ e.text) : c ≠ ' ' ∧ c ≠ '\n' := by
  induction e with
  | name s => exact ⟨(nameChar_ne (he.2 c hc)).1, (nameChar_ne (he.2 c hc)).2.2⟩
  | paren e ih =>
    rw [PExpr.text, List.mem_cons, List.mem_append, List.mem_singleton] at hc
    rcases hc with rfl | hc | rfl
    · decide
    · exact ih he hc
    · decide
  | op k l d r ihl ihr =>
    rw [PExpr.text, List.mem_append, List.mem_cons] at hc
    rcases hc with hc | rfl | hc
    · exact ihl he.1 hc
    · have : opChar .dots c = true ∨ opChar .wedge c = true ∨ opChar .times c = true ∨ c = '+' ∨ c = '-' := by
        rcases he.2.2.1 with ⟨o, -, h⟩ | ⟨-, h⟩
        · cases o <;> simp [h]
        · tauto
      simp only [opChar, Bool.or_eq_true, decide_eq_true_eq] at this
      constructor <;> (rintro rfl; revert this; decide)
    · exact ihr he.2.1 hc

theorem head_text {e : PExpr} (he : e.WF stdOps) : ∃ c s, e.text = c :: s ∧ c ≠ '-' := by
  induction e with
  | name s =>
    obtain ⟨c, t, h⟩ := List.exists_cons_of_ne_nil he.1
    exact ⟨c, t, h, (nameChar_ne (he.2 c (by rw [h]; simp))).2.1⟩
  | paren e _ => exact ⟨'(', _, rfl, by decide⟩
  | op k l d r ihl _ =>
    obtain ⟨c, t, h, hc⟩ := ihl he.1
    exact ⟨c, t ++ d :: r.text, by rw [PExpr.text, h]; rfl, hc⟩

theorem unsigned_facts (hn : ∀ i, Word (names i)) {w : PExpr} (hw : Coef w) (l : List (Fin n)) {s : List Char}
    (hs : s.filter (· ≠ ' ') = unsignedText names w.text l) :
    s ≠ [] ∧ s.head? ≠ some '-' ∧ '\n' ∉ s := by
  rw [← text_termExpr] at hs
  have hwf := (wf_termExpr hn hw l).1
  obtain ⟨c, t, h1, h2⟩ := head_text hwf
  refine ⟨?_, ?_, ?_⟩
  · rintro rfl
    rw [h1] at hs
    simp at hs
  · intro h
    cases s with
    | nil => simp at h
    | cons x s =>
      have hx : x = '-' := by simpa using h
      subst hx
      rw [List.filter_cons_of_pos (by decide), h1] at hs
      exact h2 (List.cons.inj hs).1.symm
  · intro h
    have : '\n' ∈ s.filter (· ≠ ' ') := List.mem_filter.mpr ⟨h, by decide⟩
    rw [hs] at this
    exact (mem_text hwf this).2 rfl

theorem filter_signed (hn : ∀ i, Word (names i)) {shows : R → Sym n → List Char} {t : R × Sym n}
    {u : Bool × PExpr × List (Fin n)} (h : Says names ν ρ shows t u) :
    (signedTerm (shows t.1 t.2)).filter (· ≠ ' ') =
      (if u.1 then '-' else '+') :: unsignedText names u.2.1.text u.2.2 := by
  obtain ⟨-, h2, s, hs, h3⟩ := h
  rw [h3]
  have hf := unsigned_facts hn h2.coef u.2.2 hs
  cases hu : u.1 with
  | true =>
    simp only [if_true]
    rw [signedTerm, List.filter_append, hs]
    rfl
  | false =>
    simp only [Bool.false_eq_true, if_false]
    rw [signedTerm, List.filter_append, hs]
    · rfl
    · intro s' hs'
      exact hf.2.1 (by rw [hs']; rfl)

theorem says_of_termText {shows : R → Sym n → List Char} {t : R × Sym n} {l : List (Fin n)} (hl : t.2 = .blade l)
    {neg : Bool} {w : PExpr} (h : TermText names ν ρ t.1 l w neg (shows t.1 t.2)) :
    Says names ν ρ shows t (neg, w, l) := by
  generalize hs : shows t.1 t.2 = s at h
  cases h with
  | plus _ h h' => exact ⟨hl, h, s, h', hs⟩
  | minus s h h' => exact ⟨hl, h, s, h', hs⟩

theorem forall₂_says {shows : R → Sym n → List Char} {T : Expr R n}
    {f : R × Sym n → Bool × PExpr × List (Fin n)} (h : ∀ t ∈ T, Says names ν ρ shows t (f t)) :
    List.Forall₂ (Says names ν ρ shows) T (T.map f) := by
  induction T with
  | nil => exact .nil
  | cons t T ih => exact .cons (h t List.mem_cons_self) (ih fun u hu => h u (List.mem_cons_of_mem _ hu))

theorem Says.map_snd {shows : R → Sym n → List Char} {T : Expr R n}
    {ts : List (Bool × PExpr × List (Fin n))} (h : List.Forall₂ (Says names ν ρ shows) T ts) :
    T.map Prod.snd = (ts.map fun u => u.2.2).map Sym.blade := by
  induction h with
  | nil => rfl
  | cons h _ ih => simp only [List.map_cons, ih, h.1]

theorem says_text (hn : ∀ i, Word (names i)) {shows : R → Sym n → List Char} {T : Expr R n}
    {ts : List (Bool × PExpr × List (Fin n))} (h : List.Forall₂ (Says names ν ρ shows) T ts) :
    (T.flatMap fun u => signedTerm (shows u.1 u.2)).filter (· ≠ ' ') =
      ts.flatMap fun t => (if t.1 then '-' else '+') :: unsignedText names t.2.1.text t.2.2 := by
  induction h with
  | nil => rfl
  | cons h _ ih => rw [List.flatMap_cons, List.filter_append, ih, filter_signed hn h, List.flatMap_cons]

theorem Says.coefs {shows : R → Sym n → List Char} {T : Expr R n}
    {ts : List (Bool × PExpr × List (Fin n))} (h : List.Forall₂ (Says names ν ρ shows) T ts)
    (hn : ∀ i, IsName (names i)) (hb : ∀ i, (ν (names i)).IsMv) :
    ∀ t ∈ ts, Coef t.2.1 ∧ basisLeaves names t.2.1 = [] := by
  induction h with
  | nil => simp
  | cons h _ ih =>
    intro t ht
    rcases List.mem_cons.mp ht with rfl | ht
    · exact ⟨h.2.1.coef, h.2.1.basisLeaves hn hb⟩
    · exact ih t ht

end values

end GA
