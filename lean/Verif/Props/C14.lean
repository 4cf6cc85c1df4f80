import Verif.Proofs.Examples
import Verif.Proofs.SpecLaws

/-!
# C14: grade decomposition

`getGrade` models `Mv.get_grade` / `Ga.get_grade`, `gradeDecomposition` models
`Ga.grade_decomposition`, `grades` models `Ga.grades`.
-/

set_option linter.unusedSectionVars false
set_option maxRecDepth 10000

namespace GA
variable {n : ℕ} {R : Type*} [CommRing R] [DecidableEq R] [Invertible (2 : R)]
  {g : Matrix (Fin n) (Fin n) R}

/-- C14: `get_grade(r)` is the grade-`r` part, contains only blades with `r` indices, and the parts
add up to the multivector. -/
theorem C14_get_grade {A : Mv R n} (hA : A.WF g) (hb : A.isBladeRep = true) :
    (∀ r, (A.getGrade r).WF g ∧ (A.getGrade r).val g = Spec.grade g r (A.val g) ∧
      ∀ t ∈ (A.getGrade r).obj, ∃ l : List (Fin n), t.2 = .blade l ∧ l.length = r) ∧
    ∑ r ∈ Finset.range (n + 1), (A.getGrade r).val g = A.val g := by
  constructor
  · intro r
    have h := getGrade_spec hA (Or.inl hb) r
    refine ⟨h.1, h.2.2, fun t ht => ?_⟩
    have hv := getGrade_valid (hA.valid (Or.inl hb)) r
    have hl : AllSyms (fun s => IsBl s ∧ symLen s = r) (GA.getGrade A.obj r) :=
      fun u hu => ⟨hv u hu, getGrade_len (hA.valid (Or.inl hb)) r u hu⟩
    obtain ⟨⟨l, hl1, -⟩, hl2⟩ := hl.expand t ht
    exact ⟨l, hl1, by rw [hl1] at hl2; exact hl2⟩
  · conv_rhs => rw [← sum_grade g (A.val g)]
    exact Finset.sum_congr rfl fun r _ => (getGrade_spec hA (Or.inl hb) r).2.2

/-- C14: `get_grade` is linear, idempotent, and parts of different grades are orthogonal
projections: `<<A>_r>_s = 0` for `r ≠ s`. -/
theorem C14_projection (hs : g.IsSymm) {A B : Mv R n} (hA : A.WF g) (hB : B.WF g)
    (hA' : A.isBladeRep = true) (hB' : B.isBladeRep = true) (c : R) (r s : ℕ) :
    ((A.add g B).getGrade r).eq g ((A.getGrade r).add g (B.getGrade r)) = true ∧
    ((A.smul c).getGrade r).eq g ((A.getGrade r).smul c) = true ∧
    ((A.getGrade r).getGrade r).eq g (A.getGrade r) = true ∧
    (r ≠ s → ((A.getGrade r).getGrade s).isZero = true) := by
  have hAB := add_spec hs hA hB
  have fAB : (A.add g B).isBladeRep = true := by
    rw [Mv.add, Mv.arith, if_pos (hA'.trans hB'.symm)]
    exact (ofExpr_valid (g := g) (valid_addE (hA.valid (Or.inl hA')) (hB.valid (Or.inl hB')))).2
  have hcA := smul_spec c hA
  have fcA : (A.smul c).isBladeRep = true :=
    (ofExpr_valid (g := g) (valid_smulE c (hA.valid (Or.inl hA'))).expand).2
  have gA := getGrade_spec hA (Or.inl hA') r
  have gB := getGrade_spec hB (Or.inl hB') r
  have gAB := getGrade_spec hAB.1 (Or.inl fAB) r
  have gcA := getGrade_spec hcA.1 (Or.inl fcA) r
  have h1 := add_spec hs gA.1 gB.1
  have h2 := smul_spec c gA.1
  have h3 := getGrade_spec gA.1 (Or.inl gA.2.1) r
  have h4 := getGrade_spec gA.1 (Or.inl gA.2.1) s
  refine ⟨?_, ?_, ?_, fun hrs => ?_⟩
  · rw [eq_spec hs gAB.1 h1.1, gAB.2.2, h1.2, gA.2.2, gB.2.2, hAB.2, map_add]
  · rw [eq_spec hs gcA.1 h2.1, gcA.2.2, h2.2, gA.2.2, hcA.2, map_smul]
  · rw [eq_spec hs h3.1 gA.1, h3.2.2, gA.2.2, Spec.grade_grade, if_pos rfl]
  · rw [Mv.isZero, decide_eq_true_eq, ← val_eq_zero h4.1, h4.2.2, gA.2.2, Spec.grade_grade,
      if_neg hrs.symm]

/-- C14: `grade_decomposition` returns a dictionary whose entry `r` (or zero if absent) is the
grade-`r` part. -/
theorem C14_grade_decomposition {A : Mv R n} (hA : A.WF g) (hb : A.isBladeRep = true) :
    ∃ d, gradeDecomposition A.obj = some d ∧ ∀ r,
      Valid ((d.get? r).getD []) ∧ (∀ t ∈ (d.get? r).getD [], ∃ l : List (Fin n),
        t.2 = .blade l ∧ l.length = r) ∧
      den g ((d.get? r).getD []) = Spec.grade g r (A.val g) := by
  obtain ⟨d, h1, h2⟩ := gradeDecomposition_spec g (hA.valid (Or.inl hb))
  refine ⟨d, h1, fun r => ?_⟩
  obtain ⟨h3, h4, h5⟩ := h2 r
  refine ⟨h3, fun t ht => ?_, h5⟩
  obtain ⟨l, hl, -⟩ := h3 t ht
  have := h4 t ht
  rw [hl] at this
  exact ⟨l, hl, this⟩

/-- C14: `grades` lists, in increasing order, exactly the grades whose part is not zero; for the
zero multivector it is `[0]`.  Any representation. -/
theorem C14_grades (hs : g.IsSymm) {A : Mv R n} (hA : A.WF g) :
    ∃ L, grades g A.obj = some L ∧ L.Pairwise (· < ·) ∧
      ∀ r, r ∈ L ↔ Spec.grade g r (A.val g) ≠ 0 ∨ (A.val g = 0 ∧ r = 0) := by
  obtain ⟨h1, h2⟩ := toBladeRep_valid hs hA
  obtain ⟨L, hL, hp, hm⟩ := gradesOf_spec h1
  refine ⟨L, hL, hp, fun r => ?_⟩
  rw [hm, expand_eq_nil (g := g) h1, h2]
  refine or_congr ?_ Iff.rfl
  have hc : Canon (expand (baseToBladeRep g A.obj)) :=
    canon_expand (P := IsBl) (fun s hs => isBl_ne_error hs) h1
  rw [← h2, ← den_expand, ← den_filter_len g h1.expand.syms]
  have hc' : (Mv.mk ((expand (baseToBladeRep g A.obj)).filter fun t => decide (symLen t.2 = r))
      true).WF g := wf_of_valid ⟨hc.1.sublist (List.filter_sublist.map _),
        fun t ht => hc.2 t (List.mem_of_mem_filter ht)⟩ (allSyms_filter h1.expand.syms _) (Or.inl rfl)
  have := val_eq_zero hc'
  rw [Mv.val] at this
  rw [Ne, this, List.filter_eq_nil_iff]
  simp

example : grades Ex.gN Ex.P.obj = some [0, 1, 2, 3] ∧ grades Ex.gO Ex.B.obj = some [1, 2, 3] ∧
    (Ex.B.getGrade 2).obj = [(-1, Sym.blade [0, 2])] := by decide +kernel

example : ∑ r ∈ Finset.range (3 + 1), (Ex.B.getGrade r).val Ex.gN = Ex.B.val Ex.gN :=
  (C14_get_grade (Ex.B_wf _) Ex.B_blade).2

end GA
