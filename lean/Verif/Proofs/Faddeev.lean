import Mathlib.LinearAlgebra.Matrix.Charpoly.Coeff
import Mathlib.Algebra.Polynomial.Derivative

/-! The Faddeev–LeVerrier iteration for a square matrix over a commutative ring. -/

open Polynomial Matrix

namespace Faddeev
variable {ι : Type*} [Fintype ι] [DecidableEq ι] {S : Type*} [CommRing S]

theorem derivative_det (A : Matrix ι ι S[X]) : derivative A.det =
    ∑ i, (A.updateCol i fun j => derivative (A j i)).det := by
  simp only [det_apply, derivative_sum]
  rw [Finset.sum_comm]
  refine Finset.sum_congr rfl fun σ _ => ?_
  rw [← Finset.smul_sum]
  have : ∀ (u : ℤˣ) (p : S[X]), derivative (u • p) = u • derivative p := by
    intro u p
    rcases Int.units_eq_one_or u with rfl | rfl <;> simp
  rw [this]
  congr 1
  rw [derivative_prod_finset]
  refine Finset.sum_congr rfl fun i _ => ?_
  rw [← Finset.mul_prod_erase _ _ (Finset.mem_univ i), mul_comm]
  congr 1
  · simp
  · refine Finset.prod_congr rfl fun j hj => ?_
    rw [updateCol_ne (Finset.ne_of_mem_erase hj)]

theorem trace_adjugate (M : Matrix ι ι S) :
    (adjugate (charmatrix M)).trace = derivative M.charpoly := by
  rw [Matrix.charpoly, derivative_det, Matrix.trace]
  refine Finset.sum_congr rfl fun i _ => ?_
  have h : (fun j => derivative (charmatrix M j i)) = Pi.single i 1 := by
    funext j
    by_cases hji : j = i
    · subst hji; simp
    · simp [hji]
  rw [h, ← cramer_apply, cramer_eq_adjugate_mulVec, diag_apply, mulVec_single_one, col_apply]

/-- The coefficient matrices of the adjugate of `X - M`. -/
noncomputable def adjCoeff (M : Matrix ι ι S) (j : ℕ) : Matrix ι ι S :=
  (adjugate (charmatrix M)).map fun p => p.coeff j

theorem adjCoeff_succ (M : Matrix ι ι S) (j : ℕ) :
    adjCoeff M j = M * adjCoeff M (j + 1) + M.charpoly.coeff (j + 1) • 1 := by
  have h := mul_adjugate (charmatrix M)
  ext a b
  have hab := congrArg (fun p => p.coeff (j + 1)) (congrFun (congrFun h a) b)
  simp only [mul_apply, charmatrix_apply, sub_mul, Finset.sum_sub_distrib, coeff_sub,
    finsetSum_coeff, coeff_C_mul, Matrix.smul_apply] at hab
  rw [Finset.sum_eq_single a] at hab
  · simp only [diagonal_apply_eq, coeff_X_mul] at hab
    rw [Matrix.add_apply, Matrix.smul_apply, mul_apply]
    simp only [adjCoeff, map_apply]
    rw [sub_eq_iff_eq_add'] at hab
    rw [hab]
    congr 1
    rw [← Matrix.charpoly]
    by_cases hb : a = b
    · subst hb; simp
    · simp [hb]
  · intro c _ hc
    rw [diagonal_apply_ne' _ hc, zero_mul, coeff_zero]
  · intro h; exact absurd (Finset.mem_univ a) h

theorem adjCoeff_zero (M : Matrix ι ι S) : M * adjCoeff M 0 = -(M.charpoly.coeff 0 • 1) := by
  have h := mul_adjugate (charmatrix M)
  ext a b
  have hab := congrArg (fun p => p.coeff 0) (congrFun (congrFun h a) b)
  simp only [mul_apply, charmatrix_apply, sub_mul, Finset.sum_sub_distrib, coeff_sub,
    finsetSum_coeff, coeff_C_mul, Matrix.smul_apply] at hab
  rw [Finset.sum_eq_zero] at hab
  · rw [Matrix.neg_apply, Matrix.smul_apply, mul_apply]
    simp only [adjCoeff, map_apply]
    rw [zero_sub] at hab
    rw [eq_neg_iff_add_eq_zero, ← neg_eq_iff_add_eq_zero, hab, ← Matrix.charpoly]
    by_cases hb : a = b
    · subst hb; simp
    · simp [hb]
  · intro c _
    by_cases hc : c = a
    · subst hc; simp
    · rw [diagonal_apply_ne' _ hc, zero_mul, coeff_zero]

theorem adjCoeff_large (M : Matrix ι ι S) : ∃ D, ∀ j, D ≤ j → adjCoeff M j = 0 := by
  refine ⟨(Finset.univ.sup fun a => Finset.univ.sup fun b =>
    (adjugate (charmatrix M) a b).natDegree) + 1, fun j hj => ?_⟩
  ext a b
  rw [adjCoeff, map_apply, Matrix.zero_apply]
  refine coeff_eq_zero_of_natDegree_lt (lt_of_le_of_lt ?_ (Nat.lt_of_succ_le hj))
  exact (Finset.le_sup (f := fun b => (adjugate (charmatrix M) a b).natDegree)
    (Finset.mem_univ b)).trans
    (Finset.le_sup (f := fun a => Finset.univ.sup fun b =>
      (adjugate (charmatrix M) a b).natDegree) (Finset.mem_univ a))

theorem adjCoeff_ge [Nontrivial S] (M : Matrix ι ι S) {j : ℕ} (hj : Fintype.card ι ≤ j) :
    adjCoeff M j = 0 := by
  obtain ⟨D, hD⟩ := adjCoeff_large M
  have : ∀ d, ∀ j, Fintype.card ι ≤ j → D ≤ j + d → adjCoeff M j = 0 := by
    intro d
    induction d with
    | zero => intro j _ h; exact hD j h
    | succ d ih =>
      intro j hj h
      rw [adjCoeff_succ, ih (j + 1) (by omega) (by omega), mul_zero,
        coeff_eq_zero_of_natDegree_lt (by rw [charpoly_natDegree_eq_dim]; omega), zero_smul,
        add_zero]
  exact this D j hj (by omega)

theorem adjCoeff_top [Nontrivial S] (M : Matrix ι ι S) {N : ℕ} (hN : Fintype.card ι = N + 1) :
    adjCoeff M N = 1 := by
  rw [adjCoeff_succ, adjCoeff_ge M hN.le, mul_zero, zero_add, ← hN]
  have := M.charpoly_monic
  rw [Monic, leadingCoeff, charpoly_natDegree_eq_dim] at this
  rw [this, one_smul]

theorem trace_adjCoeff (M : Matrix ι ι S) (j : ℕ) :
    (adjCoeff M j).trace = M.charpoly.coeff (j + 1) * (j + 1) := by
  have := congrArg (fun p => p.coeff j) (trace_adjugate M)
  simp only [coeff_derivative, Matrix.trace, finsetSum_coeff] at this
  rw [← this]
  rfl

theorem trace_mul_adjCoeff (M : Matrix ι ι S) {j k : ℕ} (h : Fintype.card ι = j + k) :
    (M * adjCoeff M j).trace = -((k : S) * M.charpoly.coeff j) := by
  cases j with
  | zero =>
    rw [adjCoeff_zero, trace_neg, trace_smul, trace_one, h]
    simp [mul_comm]
  | succ j =>
    have h1 := congrArg trace (adjCoeff_succ M j)
    rw [trace_add, trace_adjCoeff, trace_smul, trace_one, h] at h1
    push_cast at h1
    rw [smul_eq_mul] at h1
    linear_combination -h1

/-- The iteration: `U 1 = M`, `U (k+1) = M (U k - c k)` with `k * c k = tr (U k)`.  Its last step is
a multiple of the identity, and the multiple is (up to sign) the determinant. -/
theorem iteration [Nontrivial S] (M : Matrix ι ι S) {N : ℕ} (hN : Fintype.card ι = N) (hN0 : 0 < N)
    (U : ℕ → Matrix ι ι S) (c : ℕ → S) (h1 : U 1 = M)
    (hU : ∀ k, 1 ≤ k → k < N → U (k + 1) = M * (U k - c k • 1))
    (hc : ∀ k, 1 ≤ k → k ≤ N → (k : S) * c k = (U k).trace)
    (hk : ∀ k : ℕ, 1 ≤ k → k ≤ N → IsUnit (k : S)) :
    U N = c N • 1 ∧ c N = -((-1) ^ N * M.det) := by
  have key : ∀ k, 1 ≤ k → k ≤ N → U k = M * adjCoeff M (N - k) ∧
      c k = -M.charpoly.coeff (N - k) := by
    intro k
    induction k with
    | zero => omega
    | succ k ih =>
      intro _ hkN
      have hUk : U (k + 1) = M * adjCoeff M (N - (k + 1)) := by
        by_cases hk0 : k = 0
        · subst hk0
          rw [h1, adjCoeff_top M (N := N - 1) (by omega), mul_one]
        · obtain ⟨h2, h3⟩ := ih (by omega) (by omega)
          rw [hU k (by omega) (by omega), h2, h3]
          congr 1
          rw [adjCoeff_succ M (N - (k + 1)), show N - (k + 1) + 1 = N - k by omega, neg_smul,
            sub_neg_eq_add]
      refine ⟨hUk, ?_⟩
      apply (hk (k + 1) (by omega) hkN).mul_left_cancel
      rw [hc (k + 1) (by omega) hkN, hUk, trace_mul_adjCoeff M (k := k + 1) (by omega), mul_neg]
  obtain ⟨h2, h3⟩ := key N hN0 le_rfl
  rw [Nat.sub_self] at h2 h3
  refine ⟨by rw [h2, h3, adjCoeff_zero, neg_smul], ?_⟩
  rw [h3, det_eq_sign_charpoly_coeff, hN, ← mul_assoc, ← mul_pow]
  simp

end Faddeev
