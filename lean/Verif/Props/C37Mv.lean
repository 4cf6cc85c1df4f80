import Verif.Props.C36
import Verif.Proofs.InnerLaws
import Verif.Proofs.Shirokov

/-!
# C37: the adjoint on multivectors
-/

set_option linter.unusedSectionVars false
set_option maxRecDepth 10000

namespace Spec
open GA CliffordAlgebra
variable {n : ℕ} {R : Type*} [CommRing R] [Invertible (2 : R)] {g : Matrix (Fin n) (Fin n) R}

theorem con_outer {M N : Matrix (Fin n) (Fin n) R} (h : ∀ a b, ip g a (M.mulVec b) = ip g (N.mulVec a) b)
    (v : Fin n → R) (y : Cl g) : con g v (outer g M y) = outer g M (con g (N.mulVec v) y) := by
  induction y using wedge_induction with
  | h0 => simp
  | h1 => rw [outer_one, con_one, con_one, map_zero]
  | hadd x y hx hy => simp only [map_add, hx, hy]
  | hsmul c x hx => simp only [map_smul, hx]
  | hv w x hx =>
    rw [outer_wedge, outer_vec, con_wedge_vec, hx, con_wedge_vec, map_sub, map_smul, outer_wedge, outer_vec]
    exact congrArg (fun c => c • outer g M x - _) (h v w)

/-- `x ⌋ L(y) = L(L†(x) ⌋ y)`. -/
theorem lc_outer {M N : Matrix (Fin n) (Fin n) R} (h : ∀ a b, ip g a (M.mulVec b) = ip g (N.mulVec a) b)
    (x y : Cl g) : leftContraction g x (outer g M y) = outer g M (leftContraction g (outer g N x) y) := by
  induction x using wedge_induction with
  | h0 => simp [lc_zero_left]
  | h1 => rw [outer_one, lc_one, lc_one]
  | hadd x y hx hy => simp only [map_add, lc_add_left, hx, hy]
  | hsmul c x hx => simp only [map_smul, lc_smul_left, hx]
  | hv w x hx => rw [lc_wedge_vec, hx, con_outer h, outer_wedge, outer_vec, lc_wedge_vec]

end Spec

namespace GA
variable {n : ℕ} {K : Type*} [Field K] [DecidableEq K] [Invertible (2 : K)] {g : Matrix (Fin n) (Fin n) K}

theorem ip_adj (hs : g.IsSymm) {M gi : Matrix (Fin n) (Fin n) K} (h1 : gi * g = 1) (h2 : g * gi = 1)
    (a b : Fin n → K) : Spec.ip g a (M.mulVec b) = Spec.ip g ((gi * M.transpose * g).mulVec a) b := by
  rw [Spec.ip_mulVec hs, Spec.ip_mulVec hs, mulVec_dot, Matrix.mulVec_mulVec, Matrix.mulVec_mulVec,
    Matrix.transpose_mul, Matrix.transpose_mul, Matrix.transpose_transpose, hs, inv_symm hs h1 h2]
  congr 2
  rw [mul_assoc, mul_assoc, h1, mul_one]

/-- C37: the adjoint on multivectors.  `A < L(B) == L(adj(L)(A) < B)`, the scalar parts of `A * L(B)` and
`adj(L)(A) * B` are equal, and `L(adj(L)(A) * E) == det(L) * (A * E)`, from which `L` can be inverted. -/
theorem C37_multivectors (hs : g.IsSymm) (hd : g.det ≠ 0) {L : Lt K n} (hL : L.WF) :
    ∃ L' d, L.adj g = some L' ∧ L.det g = some d ∧ ∀ A B : Mv K n, A.WF g → A.isBladeRep = true → B.WF g →
      B.isBladeRep = true →
      (A.left g (L.call g B)).eq g (L.call g ((L'.call g A).left g B)) = true ∧
      (A.mul g (L.call g B)).scalar = ((L'.call g A).mul g B).scalar ∧
      (L.call g ((L'.call g A).mul g pseudoE)).eq g ((A.mul g pseudoE).smul d) = true := by
  obtain ⟨gi, L', h1, h2, h3, h4, h5⟩ := adj_spec hs hd hL
  refine ⟨L', L.mat.det, h3, C36_det hs hd hL hL.matrix, fun A B hA hA' hB hB' => ?_⟩
  have rA := Rep.of_wf hA hA'
  have rB := Rep.of_wf hB hB'
  have hip : ∀ a b, Spec.ip g a (L.mat.mulVec b) = Spec.ip g (L'.mat.mulVec a) b := by
    rw [h5]; exact ip_adj hs h1 h2
  have rLB := Rep.call hs hL rB
  have rA' := Rep.call hs h4 rA
  refine ⟨?_, algebraMap_inj g ?_, ?_⟩
  · rw [Rep.eq_iff hs (Rep.left hs rA rLB) (Rep.call hs hL (Rep.left hs rA' rB))]
    exact Spec.lc_outer hip _ _
  · rw [(Rep.mul hs rA rLB).scalar, (Rep.mul hs rA' rB).scalar, ← Spec.grade_zero_lc,
      ← Spec.grade_zero_lc, Spec.lc_outer hip, ← Spec.homogeneous_outer, ← Spec.algebraMap_sc,
      Algebra.algebraMap_eq_smul_one, map_smul, Spec.outer_one]
  · rw [Rep.eq_iff hs (Rep.call hs hL (Rep.mul hs rA' pseudoE_rep))
      ((Rep.mul hs rA pseudoE_rep).smul _), Spec.mul_pseudo_lc, Spec.mul_pseudo_lc, ← Spec.lc_outer hip,
      Spec.outer_pseudo, Spec.lc_smul_right]

open Ex in
example : ∃ L', L.adj gN = some L' ∧ L.det gN = some (-3) ∧
    (A.left gN (L.call gN B)).eq gN (L.call gN ((L'.call gN A).left gN B)) = true := by
  obtain ⟨L', d, h1, h2, h3⟩ := C37_multivectors (g := gN) gN_symm (by decide +kernel) (L := L) L_wf
  refine ⟨L', h1, by decide +kernel, (h3 A B (A_wf gN) (by decide) (B_wf gN) (by decide)).1⟩

end GA
