import Verif.Model.Signature
import Verif.Proofs.OrthoBasis
import Verif.Proofs.Recip
import Mathlib.LinearAlgebra.QuadraticForm.Signature
import Mathlib.LinearAlgebra.QuadraticForm.IsometryEquiv
import Mathlib.LinearAlgebra.Determinant

/-! # Signs of determinants and signatures -/

set_option linter.unusedSectionVars false

namespace Spec

open Finset

variable {n : ℕ} {K : Type*} [Field K] [LinearOrder K] [IsStrictOrderedRing K] [Invertible (2 : K)]
  {g : Matrix (Fin n) (Fin n) K}

theorem equiv_weighted (b : Module.Basis (Fin n) K (Fin n → K))
    (hb : ∀ i j, i ≠ j → ip g (b i) (b j) = 0) :
    QuadraticMap.Equivalent (Q g) (QuadraticMap.weightedSumSquares K fun i => Q g (b i)) := by
  have h := QuadraticMap.basisRepr_eq_of_iIsOrtho (Q g) b fun i j hij => hb i j hij
  rw [← h]
  exact ⟨(Q g).isometryEquivBasisRepr b⟩

theorem abs_eq_ite (x : K) : |x| = (if x < 0 then -1 else 1) * x := by
  split_ifs with h
  · rw [abs_of_neg h]; ring
  · rw [abs_of_nonneg (not_lt.mp h)]; ring

theorem sign_prod (w : Fin n → K) :
    (-1) ^ (univ.filter fun i => w i < 0).card * ∏ i, w i = ∏ i, |w i| := by
  simp only [abs_eq_ite, prod_mul_distrib]
  rw [prod_ite]
  simp

theorem det_ortho (hs : g.IsSymm) (b : Module.Basis (Fin n) K (Fin n → K))
    (hb : ∀ i j, i ≠ j → ip g (b i) (b j) = 0) :
    (Matrix.of b).det * (Matrix.of b).det * g.det = ∏ i, Q g (b i) := by
  have e : Matrix.of b * g * (Matrix.of b).transpose = Matrix.diagonal fun i => Q g (b i) := by
    ext i j
    have h1 : (Matrix.of b * g * (Matrix.of b).transpose) i j = ip g (b i) (b j) := by
      rw [ip, associated_vec hs, Matrix.mul_apply, Finset.sum_comm]
      refine Finset.sum_congr rfl fun k _ => ?_
      rw [Matrix.mul_apply, Finset.sum_mul]
      exact Finset.sum_congr rfl fun l _ => by simp only [Matrix.of_apply, Matrix.transpose_apply]; ring
    rw [h1, Matrix.diagonal_apply]
    split_ifs with h
    · subst h; exact QuadraticMap.associated_eq_self_apply K (Q g) (b i)
    · exact hb i j h
  have := congrArg Matrix.det e
  rw [Matrix.det_mul, Matrix.det_mul, Matrix.det_transpose, Matrix.det_diagonal] at this
  rw [← this]; ring

/-- The sign of the determinant of a non-degenerate metric is `(-1)^q`, `q` the negative index. -/
theorem sign_det (hs : g.IsSymm) (hd : g.det ≠ 0) :
    0 < (-1) ^ (sigNeg (Q g)) * g.det := by
  obtain ⟨b, hb⟩ := exists_ortho g
  have h1 := QuadraticForm.sigNeg_of_equiv_weightedSumSquares (equiv_weighted b hb)
  have h2 := det_ortho hs b hb
  have h3 := sign_prod fun i => Q g (b i)
  have hP : (Matrix.of b).det ≠ 0 := by
    have h := (Pi.basisFun K (Fin n)).isUnit_det b
    rw [Module.Basis.det_apply] at h
    have e : (Pi.basisFun K (Fin n)).toMatrix b = (Matrix.of b).transpose := by
      ext i j; simp [Module.Basis.toMatrix_apply]
    rw [e, Matrix.det_transpose] at h
    exact h.ne_zero
  have h4 : sigNeg (Q g) = (univ.filter fun i => Q g (b i) < 0).card := by
    rw [h1, ← Set.ncard_coe_finset]; congr 1; ext; simp
  rw [← h4, ← h2] at h3
  have h5 : 0 < ∏ i, |Q g (b i)| := by
    refine prod_pos fun i _ => abs_pos.mpr fun h => ?_
    have : ∏ i, Q g (b i) = 0 := prod_eq_zero (mem_univ i) h
    rw [← h2] at this
    simp [hP, hd] at this
  rw [← h3] at h5
  have h6 : 0 < (Matrix.of b).det * (Matrix.of b).det := mul_self_pos.mpr hP
  by_contra hc
  have := mul_nonpos_of_nonneg_of_nonpos h6.le (not_lt.mp hc)
  linarith [h5]

end Spec
