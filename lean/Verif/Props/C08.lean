import Verif.Proofs.Examples
import Verif.Proofs.SpecLaws
import Verif.Props.C06

/-!
# C08, C09: the wedge product

`A.wedge g B` models `A ^ B`.  `Spec.wedge` is the product of the exterior algebra carried over to the
Clifford algebra by the canonical linear equivalence.
-/

set_option linter.unusedSectionVars false
set_option maxRecDepth 10000

namespace GA
variable {n : ℕ} {R : Type*} [CommRing R] [DecidableEq R] [Invertible (2 : R)]
  {g : Matrix (Fin n) (Fin n) R}

/-- C08: `^` is the exterior product. -/
theorem C08_wedge (hs : g.IsSymm) {A B : Mv R n} (hA : A.WF g) (hB : B.WF g) :
    (A.wedge g B).WF g ∧ (A.wedge g B).val g = Spec.wedge g (A.val g) (B.val g) :=
  wedge_spec' hs hA hB

theorem wedge_blade_flag (hs : g.IsSymm) {A B : Mv R n} (hA : A.WF g) (hB : B.WF g)
    (hB' : B.isBladeRep = true) : (A.wedge g B).isBladeRep = true := by
  rw [Mv.wedge]
  split_ifs with h
  · rw [Mv.mul, if_pos h, Mv.scalarTimes]
    obtain ⟨c, hc⟩ := (isScalar_iff hs hA).mp h
    have h1 : ∀ t ∈ A.obj, t.2 = .blade [] := len_zero_of_scalar hA fun r hr => by
      rw [hc, grade_algebraMap g c hr]
    refine ofExpr_flag.mpr (AllSyms.expand (AllSyms.expand (allSyms_flatMap fun t ht => ?_)))
    rw [if_pos (h1 t ht)]
    exact (hB.valid (Or.inl hB')).syms.smulE _
  · exact (ofExpr_valid (g := g) (wedge_valid (bladeRep_valid hs hA) (bladeRep_valid hs hB))).2

/-- C08: the coefficients of `A ^ B` (in blade representation) do not depend on the metric. -/
theorem C08_metric_free {g' : Matrix (Fin n) (Fin n) R} (hs : g.IsSymm) (hs' : g'.IsSymm)
    {A B : Mv R n} (hA : A.WF g) (hB : B.WF g) (hA' : A.isBladeRep = true)
    (hB' : B.isBladeRep = true) :
    (A.wedge g B).bladeCoefs = (A.wedge g' B).bladeCoefs := by
  have vA := hA.valid (Or.inl hA')
  have vB := hB.valid (Or.inl hB')
  have hA2 : A.WF g' := wf_of_valid hA.canon vA (Or.inl hA')
  have hB2 : B.WF g' := wf_of_valid hB.canon vB (Or.inl hB')
  have h1 := wedge_spec' hs hA hB
  have h2 := wedge_spec' hs' hA2 hB2
  have f1 := wedge_blade_flag hs hA hB hB'
  have f2 := wedge_blade_flag hs' hA2 hB2 hB'
  have key : ∀ {E : Expr R n}, Valid E → Spec.toExt g (den g E) = Spec.toExt g' (den g' E) := by
    intro E hE
    refine (Pi.basisFun R (Fin n)).ExteriorAlgebra.ext_elem fun s => ?_
    rw [toExt_den g hE, toExt_den g' hE]
  have hw : Spec.toExt g ((A.wedge g B).val g) = Spec.toExt g' ((A.wedge g' B).val g') := by
    rw [h1.2, h2.2, Spec.wedge, Spec.wedge, LinearEquiv.apply_symm_apply,
      LinearEquiv.apply_symm_apply, Mv.val, Mv.val, Mv.val, Mv.val, key vA, key vB]
  have hc : (A.wedge g B).WF g' := wf_of_valid h1.1.canon (h1.1.valid (Or.inl f1)) (Or.inl f1)
  rw [C06_blade_coefs_iff hc h2.1 f1 f2]
  apply (Spec.toExt g').injective
  rw [← hw]
  exact (key (h1.1.valid (Or.inl f1))).symm

example : (Ex.A.wedge Ex.gN Ex.B).bladeCoefs = (Ex.A.wedge Ex.gO Ex.B).bladeCoefs :=
  C08_metric_free Ex.gN_symm Ex.gO_symm (Ex.A_wf _) (Ex.B_wf _) Ex.A_blade Ex.B_blade

example : (Ex.A.wedge Ex.gN Ex.B).bladeCoefs = [0, 0, 1, 0, 2, -1, 0, 5] := by decide +kernel

/-- C09: associativity. -/
theorem C09_assoc (hs : g.IsSymm) {A B C : Mv R n} (hA : A.WF g) (hB : B.WF g) (hC : C.WF g) :
    ((A.wedge g B).wedge g C).eq g (A.wedge g (B.wedge g C)) = true := by
  have h1 := wedge_spec' hs hA hB
  have h2 := wedge_spec' hs hB hC
  have h3 := wedge_spec' hs h1.1 hC
  have h4 := wedge_spec' hs hA h2.1
  rw [eq_spec hs h3.1 h4.1, h3.2, h4.2, h1.2, h2.2, Spec.wedge_assoc]

/-- C09: bilinearity. -/
theorem C09_bilinear (hs : g.IsSymm) (c : R) {A B C : Mv R n} (hA : A.WF g) (hB : B.WF g)
    (hC : C.WF g) :
    (A.wedge g (B.add g C)).eq g ((A.wedge g B).add g (A.wedge g C)) = true ∧
    ((A.add g B).wedge g C).eq g ((A.wedge g C).add g (B.wedge g C)) = true ∧
    ((A.smul c).wedge g B).eq g ((A.wedge g B).smul c) = true ∧
    (A.wedge g (B.smul c)).eq g ((A.wedge g B).smul c) = true := by
  have hAB := wedge_spec' hs hA hB
  have hAC := wedge_spec' hs hA hC
  have hBC := wedge_spec' hs hB hC
  have h1 := add_spec hs hB hC
  have h2 := add_spec hs hA hB
  have h3 := wedge_spec' hs hA h1.1
  have h4 := wedge_spec' hs h2.1 hC
  have h5 := add_spec hs hAB.1 hAC.1
  have h6 := add_spec hs hAC.1 hBC.1
  have sA := smul_spec c hA
  have sB := smul_spec c hB
  have h7 := wedge_spec' hs sA.1 hB
  have h8 := wedge_spec' hs hA sB.1
  have h9 := smul_spec c hAB.1
  refine ⟨?_, ?_, ?_, ?_⟩
  · rw [eq_spec hs h3.1 h5.1, h3.2, h5.2, h1.2, hAB.2, hAC.2, Spec.wedge_add]
  · rw [eq_spec hs h4.1 h6.1, h4.2, h6.2, h2.2, hAC.2, hBC.2, Spec.add_wedge]
  · rw [eq_spec hs h7.1 h9.1, h7.2, h9.2, sA.2, hAB.2, Spec.smul_wedge]
  · rw [eq_spec hs h8.1 h9.1, h8.2, h9.2, sB.2, hAB.2, Spec.wedge_smul]

/-- C09: `A_r ^ B_s = (-1)^(rs) B_s ^ A_r`; the result has only grade `r+s`, and is zero for
`r + s > n`. -/
theorem C09_graded (hs : g.IsSymm) {A B : Mv R n} (hA : A.WF g) (hB : B.WF g) {r s : ℕ}
    (hr : Spec.Homogeneous g r (A.val g)) (hs' : Spec.Homogeneous g s (B.val g)) :
    (A.wedge g B).eq g ((B.wedge g A).smul ((-1) ^ (r * s))) = true ∧
    Spec.Homogeneous g (r + s) ((A.wedge g B).val g) ∧
    (n < r + s → (A.wedge g B).isZero = true) := by
  have h1 := wedge_spec' hs hA hB
  have h2 := wedge_spec' hs hB hA
  have h3 := smul_spec ((-1 : R) ^ (r * s)) h2.1
  have h4 := Spec.homogeneous_wedge hr hs'
  refine ⟨?_, ?_, ?_⟩
  · rw [eq_spec hs h1.1 h3.1, h1.2, h3.2, h2.2]; exact Spec.wedge_comm hr hs'
  · rw [h1.2]; exact h4
  · intro hn
    rw [C06_is_zero h1.1, h1.2, ← h4.grade_eq, Spec.grade_gt hn]

/-- C09: `v ^ v = 0` for vectors. -/
theorem C09_vector (hs : g.IsSymm) (v : Fin n → R) :
    ((Mv.vector v).wedge g (Mv.vector v)).isZero = true := by
  have hv := vector_spec (g := g) v
  have h1 := wedge_spec' hs hv.1 hv.1
  rw [C06_is_zero h1.1, h1.2, hv.2.2, Spec.vec_wedge_self]

example : Spec.Homogeneous Ex.gN 1 ((Mv.vector ![1, 2, 3]).val Ex.gN) ∧
    ((Mv.vector ![1, 2, 3]).wedge Ex.gN (Mv.vector ![0, 1, 1])).isZero = false := by
  refine ⟨?_, by decide +kernel⟩
  rw [(vector_spec _).2.2]; exact Spec.homogeneous_vec _

example : ((Ex.A.wedge Ex.gN Ex.P).wedge Ex.gN Ex.C).eq Ex.gN
    (Ex.A.wedge Ex.gN (Ex.P.wedge Ex.gN Ex.C)) = true :=
  C09_assoc Ex.gN_symm (Ex.A_wf _) Ex.P_wf (Ex.C_wf _)

end GA
