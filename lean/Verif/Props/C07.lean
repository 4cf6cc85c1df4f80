import Verif.Proofs.Examples
import Verif.Proofs.SpecLaws

/-!
# C07: vectors square to the metric

`Mv.vector v` models `Mv([v_1,...,v_n], 'vector')`; `A.eq g B` models `A == B`.
-/

set_option linter.unusedSectionVars false
set_option maxRecDepth 10000

namespace GA
variable {n : ℕ} {R : Type*} [CommRing R] [DecidableEq R] [Invertible (2 : R)]
  {g : Matrix (Fin n) (Fin n) R}

/-- C07: `v*v` is the scalar `∑ g i j v_i v_j`. -/
theorem C07_vector_square (hs : g.IsSymm) (v : Fin n → R) :
    ((Mv.vector v).mul g (Mv.vector v)).eq g
      (Mv.scalarMv (∑ i, ∑ j, g i j * v i * v j)) = true := by
  have h1 := vector_spec (g := g) v
  have h2 := mul_spec' hs h1.1 h1.1
  have h3 := scalarMv_spec (g := g) (n := n) (∑ i, ∑ j, g i j * v i * v j)
  rw [eq_spec hs h2.1 h3.1, h2.2, h3.2.2, h1.2.2, Spec.vec_mul_vec hs, Spec.vec_wedge_self, add_zero]

/-- C07: `a|b = (a*b + b*a)/2 = ∑ g i j a_i b_j`, `a^b = (a*b - b*a)/2` (the commutator `a>>b`) and
`a*b = a|b + a^b`. -/
theorem C07_vector_products (hs : g.IsSymm) (a b : Fin n → R) :
    ((Mv.vector a).dot g (Mv.vector b)).eq g
      (Mv.scalarMv (∑ i, ∑ j, g i j * a i * b j)) = true ∧
    ((Mv.vector a).dot g (Mv.vector b)).eq g ((Mv.vector a).antiComm g (Mv.vector b)) = true ∧
    ((Mv.vector a).wedge g (Mv.vector b)).eq g ((Mv.vector a).comm g (Mv.vector b)) = true ∧
    ((Mv.vector a).mul g (Mv.vector b)).eq g
      (((Mv.vector a).dot g (Mv.vector b)).add g ((Mv.vector a).wedge g (Mv.vector b))) = true := by
  have ha := vector_spec (g := g) a
  have hb := vector_spec (g := g) b
  have h1 := dot_spec hs ha.1 hb.1
  have h2 := wedge_spec' hs ha.1 hb.1
  have h3 := mul_spec' hs ha.1 hb.1
  have h4 := antiComm_spec hs ha.1 hb.1
  have h5 := comm_spec hs ha.1 hb.1
  have h6 := add_spec hs h1.1 h2.1
  have h7 := scalarMv_spec (g := g) (n := n) (∑ i, ∑ j, g i j * a i * b j)
  have hd := Spec.hestenesDot_vec hs a b
  have hsym : (∑ i, ∑ j, g i j * b i * a j) = ∑ i, ∑ j, g i j * a i * b j := by
    rw [Finset.sum_comm]
    refine Finset.sum_congr rfl fun i _ => Finset.sum_congr rfl fun j _ => ?_
    rw [hs.apply i j]; ring
  have hw : Spec.wedge g (Spec.vec g b) (Spec.vec g a) = -Spec.wedge g (Spec.vec g a) (Spec.vec g b) := by
    have := Spec.wedge_comm (g := g) (Spec.homogeneous_vec b) (Spec.homogeneous_vec a)
    simpa using this
  refine ⟨?_, ?_, ?_, ?_⟩
  · rw [eq_spec hs h1.1 h7.1, h1.2, h7.2.2, ha.2.2, hb.2.2, hd]
  · rw [eq_spec hs h1.1 h4.1, h1.2, h4.2, ha.2.2, hb.2.2, hd]
    apply Spec.two_cancel (R := R)
    rw [smul_smul, mul_invOf_self, one_smul, Spec.vec_mul_vec hs, Spec.vec_mul_vec hs, hw, hsym,
      two_smul]
    abel
  · rw [eq_spec hs h2.1 h5.1, h2.2, h5.2, ha.2.2, hb.2.2]
    apply Spec.two_cancel (R := R)
    rw [smul_smul, mul_invOf_self, one_smul, Spec.vec_mul_vec hs, Spec.vec_mul_vec hs, hw, hsym,
      two_smul]
    abel
  · rw [eq_spec hs h3.1 h6.1, h3.2, h6.2, h1.2, h2.2, ha.2.2, hb.2.2, hd, Spec.vec_mul_vec hs]

example : ((Mv.vector ![1, 2, 3]).mul Ex.gN (Mv.vector ![1, 2, 3])).obj =
    [((35 : ℚ), Sym.blade [])] := by decide +kernel

example : ((Mv.vector ![1, 2, 3]).dot Ex.gN (Mv.vector ![0, 1, 1])).eq Ex.gN
    (Mv.scalarMv (27/2)) = true := by decide +kernel

end GA
