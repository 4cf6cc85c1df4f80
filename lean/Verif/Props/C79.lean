import Verif.Proofs.DopText
import Verif.Props.C40
import Verif.Props.C71

/-!
# C79: the text of differential operators

`P : Printer` has the texts that SymPy gives for coefficients, symbols and basis blades.  They are assumed
to have no plus sign followed by a minus sign (`P.OK`), as SymPy's texts of sums are.
-/

set_option linter.unusedSectionVars false
set_option maxRecDepth 10000

namespace GA

section scalar
variable {V : Type*} [LinearOrder V] {R : Type*} [CommRing R] [DecidableEq R] {B : Type*}
  {P : Printer V R B}

/-- C79: the text of a partial derivative is `D` and, for each symbol, its name in braces and the number of
differentiations if there are several. -/
theorem C79_partial_text (p : Pdop V) (h : p.order ≠ 0) : p.str P = derivText P p := by
  rw [Pdop.str_eq, if_neg h]

/-- C79: different partial derivatives have different texts, if different symbols have different texts,
without braces and not empty, and no dictionary has an entry of order zero. -/
theorem C79_partial_injective (hinj : Function.Injective P.sym) (hb : ∀ x, '}' ∉ P.sym x)
    (hne : ∀ x, P.sym x ≠ []) {p q : Pdop V} (hp : ∀ e ∈ p, e.2 ≠ 0) (hq : ∀ e ∈ q, e.2 ≠ 0)
    (h : p.str P = q.str P) : p = q := by
  have h0 : ∀ {p : Pdop V}, (∀ e ∈ p, e.2 ≠ 0) → p.order = 0 → p = [] := by
    intro p hp ho
    cases p with
    | nil => rfl
    | cons a p =>
      have := hp a (by simp)
      rw [Pdop.order, List.map_cons, List.sum_cons] at ho
      omega
  have h1 : ∀ q : Pdop V, q ≠ [] → derivText P q ≠ ['D', '{', '}'] := by
    intro q hq e
    cases q with
    | nil => exact hq rfl
    | cons a q =>
      rw [derivText, List.flatMap_cons] at e
      simp only [List.cons_append, List.cons.injEq, true_and] at e
      cases hs : P.sym a.1 with
      | nil => exact hne a.1 hs
      | cons c s =>
        rw [hs] at e
        simp only [List.cons_append, List.cons.injEq] at e
        exact hb a.1 (by rw [hs, e.1]; simp)
  rw [Pdop.str_eq, Pdop.str_eq] at h
  split_ifs at h with e1 e2 e2
  · rw [h0 hp e1, h0 hq e2]
  · exact absurd h.symm (h1 q (by rintro rfl; exact e2 rfl))
  · exact absurd h (h1 p (by rintro rfl; exact e1 rfl))
  · exact derivText_inj hinj hb hp hq h

/-- Without the condition on the dictionaries the text is wrong: `Pdop({x: 0, y: 1})`, the derivative by
`y`, is written like the mixed derivative `Pdop({x: 1, y: 1})`. -/
theorem C79_order_zero_counterexample (x y : V) (P : Printer V R B) :
    Pdop.str P [(x, 0), (y, 1)] = Pdop.str P [(x, 1), (y, 1)] ∧
      ∀ D : V → R → R, ∀ f, Pdop.call (basicDiff D) [(x, 0), (y, 1)] f = D y f :=
  ⟨by simp [Pdop.str, Pdop.order], fun D f => rfl⟩

/-- C79: the text of a scalar operator is the sum of its terms, each exactly once, with lower orders first
and equal orders in the dictionary order of their symbols. -/
theorem C79_scalar_text (hP : P.OK) {s : Sdop R V} (hs : s ≠ []) :
    ∃ (T : Sdop R V) (texts : List (List Char)), T.Perm s ∧ T.Pairwise (fun t u => t.2.le u.2) ∧
      List.Forall₂ (fun text t => SaysTerm P ['*'] ['('] [')', '*'] (t.2.str P) t.2 text t) texts T ∧
      s.str P = sumText ['-', ' '] texts := by
  refine ⟨s.sorted, _, s.sorted_perm, s.sorted_pairwise, ?_, Sdop.str_eq hP hs⟩
  rw [List.forall₂_map_left_iff, List.forall₂_same]
  rintro ⟨c, p⟩ -
  rw [Sdop.strTerm]
  simp only
  split_ifs with h1 h2 h3
  · subst h1; exact .unit
  · subst h2; exact .neg
  · have := SaysTerm.sum (P := P) (times := ['*']) (opn := ['(']) (cls := [')', '*']) (pd := p.str P) (p := p) c h3
    simpa using this
  · exact .coef c (by simpa using h3)

/-- C79: the LaTeX text of a scalar operator, likewise; the identity operator has no text of its own, except
as the number 1. -/
theorem C79_scalar_latex (hP : P.OK) {s : Sdop R V} (hs : s ≠ []) :
    ∃ (T : Sdop R V) (texts : List (List Char)), T.Perm s ∧ T.Pairwise (fun t u => t.2.le u.2) ∧
      List.Forall₂ (fun text t =>
        SaysTerm P [' '] "\\left ( ".toList "\\right ) ".toList (t.2.latex P) t.2 text t ∨
        (t.2.latex P = [] ∧ ((t.1 = 1 ∧ text = ['1']) ∨ (t.1 = -1 ∧ text = ['-', '1'])))) texts T ∧
      s.latex P = sumText ['-', ' '] texts := by
  refine ⟨s.sorted, _, s.sorted_perm, s.sorted_pairwise, ?_, Sdop.latex_eq hP hs⟩
  rw [List.forall₂_map_left_iff, List.forall₂_same]
  rintro ⟨c, p⟩ -
  rw [Sdop.latexTerm]
  simp only
  split_ifs with h1 h2 h2 h3 h4
  · exact Or.inr ⟨h2, Or.inl ⟨h1, rfl⟩⟩
  · subst h1; exact Or.inl .unit
  · exact Or.inr ⟨h3, Or.inr ⟨h2, rfl⟩⟩
  · subst h2; exact Or.inl .neg
  · exact Or.inl (.sum c h4)
  · exact Or.inl (.coef c (by simpa using h4))

/-- C79: operators that act alike have the same LaTeX text, in whatever order their terms and the symbols of
their terms are, provided that they are consolidated and no dictionary has an entry of order zero. -/
theorem C79_latex_canonical [IsDomain R] [CharZero R] {D : V → Derivation ℤ R R}
    (hD : ∀ x y f, D x (D y f) = D y (D x f)) {X : V → R}
    (hX : ∀ u v, D u (X v) = if u = v then 1 else 0) (hP : P.OK) {s t : Sdop R V} (hs : s.WF) (ht : t.WF)
    (hs0 : ∀ u ∈ s, ∀ e ∈ u.2, e.2 ≠ 0) (ht0 : ∀ u ∈ t, ∀ e ∈ u.2, e.2 ≠ 0) (hds : Distinct s)
    (hdt : Distinct t) (hzs : ∀ u ∈ s, u.1 ≠ 0) (hzt : ∀ u ∈ t, u.1 ≠ 0)
    (h : ∀ f, s.call (fun y => D y) f = t.call (fun y => D y) f) : s.latex P = t.latex P :=
  Sdop.latex_congr hP hs ht hs0 ht0 hds (Sdop.perm_of_eq hs ht hs0 ht0 hds hdt hzs hzt
    ((C40_eq hD hX hs ht hs0 ht0).mpr h))

/-- The plain text is not canonical: mixed derivatives that are equal have different texts, if their
dictionaries were made in different orders. -/
theorem C79_canonical_counterexample [Nontrivial R] (hP : P.OK) (hinj : Function.Injective P.sym)
    (hb : ∀ x, '}' ∉ P.sym x) {x y : V} (hne : x ≠ y) :
    Sdop.eq [((1 : R), [(x, 1), (y, 1)])] [(1, [(y, 1), (x, 1)])] = true ∧
      Sdop.str P [((1 : R), [(x, 1), (y, 1)])] ≠ Sdop.str P [(1, [(y, 1), (x, 1)])] := by
  constructor
  · have : Pdop.eqv [(x, 1), (y, 1)] [(y, 1), (x, 1)] = true :=
      Pdop.perm_eqv (by simp [Pdop.WF, hne.symm]) (List.Perm.swap _ _ _)
    have h2 : Pdop.eqv [(x, 1), (y, 1)] [(x, 1), (y, 1)] = true :=
      Pdop.perm_eqv (by simp [Pdop.WF, hne]) (List.Perm.refl _)
    simp [Sdop.eq, Sdop.sub, Sdop.add, Sdop.neg, mergeTerms, this, h2, accum]
  · intro h
    have key : ∀ p : Pdop V, p.order ≠ 0 → Sdop.str P [((1 : R), p)] = derivText P p := by
      intro p hp
      rw [Sdop.str_eq hP (by simp)]
      simp [Sdop.sorted, Sdop.strTerm, sumText, C79_partial_text p hp]
    rw [key _ (by simp [Pdop.order]), key _ (by simp [Pdop.order])] at h
    have := derivText_inj hinj hb (by simp) (by simp) h
    simp [hne] at this

end scalar

section dop
variable {n : ℕ} {K : Type*} [Field K] [DecidableEq K] [Invertible (2 : K)]
  {D : Fin n → Derivation ℤ K K} {g0 : Matrix (Fin n) (Fin n) K} {N : Option (Fin n → K)}
  {conn : Option (Fin n → Fin n → Expr K n)} {P : Printer (Fin n) K (Sym n)}

theorem isMinus_iff {s : List Char} : isMinus s = true ↔ ∃ u, s = '-' :: u := by
  cases s with
  | nil => simp [isMinus]
  | cons c s => simp [isMinus]

/-- C79: the text of a multivector operator is the sum of products of basis blades and scalar operators, each
basis blade at most once and in the order of the basis blades.  That the sum of these products is the
operator is C71. -/
theorem C79_text (hs : g0.IsSymm)
    (hN : ∀ N', N = some N' → ∀ i, N' i ^ 2 = g0 i i ∨ N' i ^ 2 = - g0 i i)
    (h : connOf (fun i => D i) g0 N = some conn)
    (hf : CommutingDerivatives (Fields.ofMetric (fun i => D i) g0 N conn)) (hP : P.OK)
    {d : Dop (Fin n) K n} (hd : d.WF (Fields.ofMetric (fun i => D i) g0 N conn)) (hne : d.terms ≠ []) :
    ∃ (l : List (Sdop K (Fin n) × List (Fin n))) (texts : List (List Char)),
      d.mvExpand (Fields.ofMetric (fun i => D i) g0 N conn) = some (l.map fun t => (t.1, Sym.blade t.2)) ∧
      (l.map Prod.snd).Sublist (flat (indexes n)) ∧
      List.Forall₂ (fun text t => if t.2 = [] then text = t.1.str P else
        SaysProduct ['*'] (if d.cmpflg then ['('] else ['*', '(']) (if d.cmpflg then [')', '*'] else [')'])
          (P.base (.blade t.2)) d.cmpflg (decide (1 < t.1.length)) text (t.1.str P)) texts l ∧
      d.str (Fields.ofMetric (fun i => D i) g0 N conn) P = some (sumText ['-'] texts) := by
  obtain ⟨Γ, hE⟩ := env_of hs hN h hf
  obtain ⟨l, l1, -, l3, -⟩ := Dop.mvExpand_spec hE (d := d) hd
  refine ⟨l, (l.map fun t => (t.1, Sym.blade t.2)).map (Dop.strTerm P d.cmpflg), l1, l3, ?_, ?_⟩
  · rw [List.map_map, List.forall₂_map_left_iff, List.forall₂_same]
    rintro ⟨t, I⟩ -
    simp only [Function.comp]
    by_cases hI : I = []
    · subst hI
      rw [if_pos rfl]
      simp [Dop.strTerm]
    · have hI' : ¬ (Sym.blade I : Sym n) = .blade [] := by simpa using hI
      rw [if_neg hI]
      simp only [Dop.strTerm, if_neg hI']
      by_cases hl : 1 < t.length
      · rw [if_pos hl, decide_eq_true hl]
        cases d.cmpflg
        · simpa using SaysProduct.sum (times := ['*']) (opn := ['*', '(']) (cls := [')'])
            (b := P.base (.blade I)) (t.str P)
        · simpa using SaysProduct.sumRight (times := ['*']) (opn := ['(']) (cls := [')', '*'])
            (b := P.base (.blade I)) (t.str P)
      · rw [if_neg hl, decide_eq_false hl]
        split_ifs with h1 h2 h2
        · rw [h1]
          exact SaysProduct.oneRight _
        · rw [h1]
          exact SaysProduct.oneRight _
        · rw [Bool.not_eq_true] at h1
          rw [Bool.and_eq_true] at h2
          obtain ⟨u, hu⟩ := isMinus_iff.mp h2.1
          rw [h1, hu]
          exact SaysProduct.minus u
        · rw [Bool.not_eq_true] at h1
          rw [h1]
          exact SaysProduct.one _
  · rw [Dop.str, if_neg (by simpa using hne), l1, Option.map_some, join_eq fun t _ => plain_dopTerm hP _ t]

/-- C79 for LaTeX (proved part): the text of a multivector operator, if no scalar operator in it is `1`.  What is missing is false, see below. -/
theorem C79_latex_partial (hs : g0.IsSymm)
    (hN : ∀ N', N = some N' → ∀ i, N' i ^ 2 = g0 i i ∨ N' i ^ 2 = - g0 i i)
    (h : connOf (fun i => D i) g0 N = some conn)
    (hf : CommutingDerivatives (Fields.ofMetric (fun i => D i) g0 N conn)) (hP : P.OK)
    {d : Dop (Fin n) K n} (hd : d.WF (Fields.ofMetric (fun i => D i) g0 N conn)) (hne : d.terms ≠ []) :
    ∃ (l : List (Sdop K (Fin n) × List (Fin n))) (texts : List (List Char)),
      d.mvExpand (Fields.ofMetric (fun i => D i) g0 N conn) = some (l.map fun t => (t.1, Sym.blade t.2)) ∧
      (l.map Prod.snd).Sublist (flat (indexes n)) ∧
      List.Forall₂ (fun text t => if t.2 = [] then text = t.1.latex P else
        t.1.latex P ≠ ['1'] →
        SaysProduct [' '] (if d.cmpflg then "\\left ( ".toList else ' ' :: "\\left ( ".toList)
          "\\right ) ".toList
          (P.base (.blade t.2)) d.cmpflg (decide (1 < t.1.length)) text (t.1.latex P) ∨
        t.1.latex P = ['-', '1'] ∧ text = '-' :: P.base (.blade t.2) ∨
        d.cmpflg = true ∧ ¬ 1 < t.1.length ∧ text = t.1.latex P ++ P.base (.blade t.2)) texts l ∧
      d.latex (Fields.ofMetric (fun i => D i) g0 N conn) P = some (sumText ['-'] texts) := by
  obtain ⟨Γ, hE⟩ := env_of hs hN h hf
  obtain ⟨l, l1, -, l3, -⟩ := Dop.mvExpand_spec hE (d := d) hd
  refine ⟨l, (l.map fun t => (t.1, Sym.blade t.2)).map (Dop.latexTerm P d.cmpflg), l1, l3, ?_, ?_⟩
  · rw [List.map_map, List.forall₂_map_left_iff, List.forall₂_same]
    rintro ⟨t, I⟩ -
    simp only [Function.comp]
    by_cases hI : I = []
    · subst hI
      rw [if_pos rfl]
      simp [Dop.latexTerm]
    · have hI' : ¬ (Sym.blade I : Sym n) = .blade [] := by simpa using hI
      rw [if_neg hI]
      intro n1
      by_cases n2 : t.latex P = ['-', '1']
      · refine Or.inr (Or.inl ⟨n2, ?_⟩)
        simp only [Dop.latexTerm, if_neg hI', if_neg n1, if_pos n2, List.nil_append]
      simp only [Dop.latexTerm, if_neg hI', if_neg n1, if_neg n2, List.nil_append]
      by_cases hl : 1 < t.length
      · rw [if_pos hl, decide_eq_true hl]
        refine Or.inl ?_
        cases d.cmpflg
        · simpa using SaysProduct.sum (times := [' ']) (opn := ' ' :: "\\left ( ".toList)
            (cls := "\\right ) ".toList) (b := P.base (.blade I)) (t.latex P)
        · simpa using SaysProduct.sumRight (times := [' ']) (opn := "\\left ( ".toList)
            (cls := "\\right ) ".toList) (b := P.base (.blade I)) (t.latex P)
      · rw [if_neg hl, decide_eq_false hl]
        split_ifs with h1 h2 h2
        · exact Or.inr (Or.inr ⟨h1, hl, rfl⟩)
        · rw [h1]
          exact Or.inl (SaysProduct.oneRight _)
        · rw [Bool.not_eq_true] at h1
          rw [Bool.and_eq_true] at h2
          obtain ⟨u, hu⟩ := isMinus_iff.mp h2.1
          rw [h1, hu]
          exact Or.inl (SaysProduct.minus u)
        · rw [Bool.not_eq_true] at h1
          rw [h1]
          exact Or.inl (SaysProduct.one _)
  · rw [Dop.latex, if_neg (by simpa using hne), l1, Option.map_some,
      join_eq fun t _ => plain_dopLatexTerm hP _ t]

theorem latex_of_unit {X : Fields (Fin n) K n} (hP : P.OK) {I : List (Fin n)} (hI : I ≠ [])
    {d : Dop (Fin n) K n} (hne : d.terms ≠ []) (hd : d.cmpflg = false)
    (h : d.mvExpand X = some [([(1, [])], .blade I)]) :
    d.latex X P = some (P.base (.blade I) ++ P.base (.blade I) ++ [' ', '1']) := by
  rw [Dop.latex, if_neg (by simpa using hne), h, Option.map_some,
    join_eq fun t _ => plain_dopLatexTerm hP _ t]
  have h1 : Sdop.latex P [((1 : K), ([] : Pdop (Fin n)))] = ['1'] := by
    rw [Sdop.latex_eq hP (by simp)]
    simp [Sdop.sorted, Sdop.latexTerm, sumText, Pdop.latex, Pdop.order]
  simp only [List.map_cons, List.map_nil, sumText, Dop.latexTerm]
  rw [h1, hd]
  simp [hI, isMinus]

end dop

/-- C79 is false for LaTeX: the operator of the Euclidean plane that multiplies by `e_0` is written
`e_0e_0 1`, as if it multiplied by the square of `e_0`, whatever the texts of coefficients and blades are. -/
theorem C79_latex_counterexample {P : Printer (Fin 2) (Ex.Fun 2) (Sym 2)} (hP : P.OK) :
    (⟨[(Mv.ofExpr (bladeE [0]), [])], false⟩ : Dop (Fin 2) (Ex.Fun 2) 2).latex
      (Fields.ofMetric (fun i => Ex.partialD i) 1 none none) P =
    some (P.base (.blade [0]) ++ P.base (.blade [0]) ++ [' ', '1']) := by
  set X : Fields (Fin 2) (Ex.Fun 2) 2 := Fields.ofMetric (fun i => Ex.partialD i) 1 none none
  refine latex_of_unit hP (by simp) (by simp) rfl ?_
  have hs : X.g.IsSymm := Matrix.isSymm_one
  have e1 : (Mv.ofExpr (bladeE [0]) : Mv (Ex.Fun 2) 2).obj = [((1 : Ex.Fun 2), Sym.blade [0])] := by
    simp [Mv.ofExpr, bladeE, expand, gatherE, addTerm]
  have hsc : (Mv.ofExpr (bladeE [0]) : Mv (Ex.Fun 2) 2).isScalar X.g = false := by
    rw [← Bool.not_eq_true, isScalar_iff hs (basis_rep 0).wf, (basis_rep 0).val]
    rintro ⟨c, hc⟩
    have h1 := congrArg (Spec.grade X.g 1) hc
    rw [grade_algebraMap X.g c one_ne_zero] at h1
    have h3 : Spec.vec X.g (Pi.single 0 1) = Spec.blade X.g [0] := (Spec.blade_singleton ..).symm
    have h2 := Spec.grade_blade (g := X.g) 1 [0]
    rw [if_pos (by rfl), ← h3, h1] at h2
    replace h2 := congrFun (vec_inj X.g (h2.symm.trans (map_zero _).symm)) 0
    simp at h2
  have hl : Dop.expandLoop X ⟨[(Mv.ofExpr (bladeE [0]), [])], false⟩ =
      [([((1 : Ex.Fun 2), [])], Sym.blade [0])] := by
    rw [Dop.expandLoop, List.foldl_cons, List.foldl_nil, hsc, if_neg (by simp), e1,
      linearExpand_canon ⟨by simp, by simp⟩ (by simp)]
    rfl
  rw [Dop.mvExpand, hl]
  rfl

/-! ### Concrete cases -/

namespace Ex

/-- A printer that writes `c` for every coefficient, `x` and `y` for the coordinates and `e` for blades. -/
def textP (R : Type*) : Printer (Fin 2) R (Sym 2) :=
  ⟨fun _ => ['c'], fun _ => false, fun i => if i = 0 then ['x'] else ['y'], fun _ => ['e']⟩

theorem textP_ok (R : Type*) : (textP R).OK :=
  ⟨fun _ => plain_of_not_mem (by simp [textP]), fun x => plain_of_not_mem (by simp only [textP]; split_ifs <;> simp),
    fun _ => plain_of_not_mem (by simp [textP])⟩

/-- The hypotheses of `C79_partial_injective` are met; the derivatives `D{x}^2{y}` and `D{y}{x}^2`, of
dictionaries in different orders, have different texts. -/
example : Pdop.str (textP ℚ) [(0, 2), (1, 1)] ≠ Pdop.str (textP ℚ) [(1, 1), (0, 2)] ∧
    Pdop.str (textP ℚ) [(0, 2), (1, 1)] = "D{x}^2{y}".toList :=
  ⟨fun h => absurd (C79_partial_injective (P := textP ℚ) (by decide) (by decide) (by decide)
    (by decide) (by decide) h) (by decide), by decide +kernel⟩

/-- The hypotheses of `C79_scalar_text` and `C79_scalar_latex` are met by `3 ∂_x∂_y - ∂_y`. -/
example : Sdop.str (textP ℚ) [(3, [(0, 1), (1, 1)]), (-1, [(1, 1)])] = "-D{y} + c*D{x}{y}".toList := by
  decide +kernel

example : Sdop.latex (textP ℚ) [(3, [(0, 1), (1, 1)]), (-1, [(1, 1)]), (-1, [])] =
    "-1 - \\frac{\\partial}{\\partial y} + c \\frac{\\partial^{2}}{\\partial x\\partial y}".toList := by
  decide +kernel

/-- The hypotheses of `C79_latex_canonical` are met by `r ∂_x∂_y + 1` and `1 + r ∂_y∂_x`. -/
example : Sdop.latex (textP (Fun 2)) [(coord 0, [(0, 1), (1, 1)]), (1, [])] =
    Sdop.latex (textP (Fun 2)) [(1, []), (coord 0, [(1, 1), (0, 1)])] := by
  refine C79_latex_canonical (D := partialD) partialD_comm (X := coord) partialD_coord (textP_ok _)
    (by simp [Sdop.WF, Pdop.WF]) (by simp [Sdop.WF, Pdop.WF]) (by simp) (by simp) ?_ ?_
    (by simp [coord_ne_zero]) (by simp [coord_ne_zero]) ?_
  · simp only [Distinct, List.pairwise_cons, List.mem_singleton, forall_eq]
    exact ⟨by decide, by simp⟩
  · simp only [Distinct, List.pairwise_cons, List.mem_singleton, forall_eq]
    exact ⟨by decide, by simp⟩
  · intro f
    simp [Sdop.call, Pdop.call, basicDiff, add_comm, partialD_comm 0 1]

/-- The hypotheses of `C79_text` and `C79_latex_partial` are met by `e_θ ∂_r + r² ∂_θ ∂_r` in polar
coordinates. -/
example : ∃ conn texts texts', connOf (fun i => partialD i) polar none = some conn ∧
    (dpol false).str (Fields.ofMetric (fun i => partialD i) polar none conn) (textP _) = some texts ∧
    (dpol false).latex (Fields.ofMetric (fun i => partialD i) polar none conn) (textP _) = some texts' := by
  obtain ⟨conn, h1, h2⟩ := polar_commuting
  obtain ⟨l, ts, -, -, -, h3⟩ := C79_text (P := textP _) polar_symm (by simp) h1 h2 (textP_ok _) (dpol_wf _ false)
    (by simp [dpol])
  obtain ⟨l', ts', -, -, -, h4⟩ := C79_latex_partial (P := textP _) polar_symm (by simp) h1 h2 (textP_ok _)
    (dpol_wf _ false) (by simp [dpol])
  exact ⟨conn, _, _, h1, h3, h4⟩

end Ex

end GA
