import Verif.Proofs.Gamma
import Verif.Proofs.Faddeev
import Verif.Proofs.Flags
import Verif.Proofs.Contract

/-! The iteration of `shirokov_inverse` in the Clifford algebra. -/

set_option linter.unusedSectionVars false

universe u

namespace Spec
open GA CliffordAlgebra
variable {n : ℕ} {K : Type u} [Field K] [Invertible (2 : K)] {g : Matrix (Fin n) (Fin n) K}

theorem exists_sc (x : Cl g) : ∃ c : K, grade g 0 x = algebraMap K _ c :=
  homogeneous_zero_iff.mp (homogeneous_grade 0 x)

/-- The scalar part as a number. -/
noncomputable def sc (x : Cl g) : K := (exists_sc x).choose
theorem algebraMap_sc (x : Cl g) : algebraMap K (Cl g) (sc x) = grade g 0 x :=
  (exists_sc x).choose_spec.symm

/-- `Uk` after `k` passes of the loop. -/
noncomputable def shU (x : Cl g) (N : ℕ) : ℕ → Cl g
  | 0 => x
  | k + 1 => -x * (algebraMap K _ (((N : K) / ((k + 1 : ℕ) : K)) * sc (shU x N k)) - shU x N k)

/-- `adjU` in pass `k + 1`. -/
noncomputable def shAdj (x : Cl g) (N k : ℕ) : Cl g :=
  algebraMap K _ (((N : K) / ((k + 1 : ℕ) : K)) * sc (shU x N k)) - shU x N k

theorem shU_succ (x : Cl g) (N k : ℕ) : shU x N (k + 1) = -x * shAdj x N k := rfl

/-- After the last pass `Uk` is a scalar; it is zero exactly when `x` is not invertible. -/
theorem shirokov (x : Cl g) [CharZero K] {N : ℕ} (hN : N = 2 ^ ((n + 1) / 2)) :
    shU x N (N - 1) = algebraMap K _ (sc (shU x N (N - 1))) ∧
      (IsUnit x → sc (shU x N (N - 1)) ≠ 0) := by
  obtain ⟨S, _, _, ι, _, _, ρ, hinj, hcard, hρ, htr⟩ := Gamma.exists_faithful g
  rw [← hN] at hcard
  have hN0 : 0 < N := by rw [hN]; positivity
  have : Nontrivial S := hinj.nontrivial
  have htr' : ∀ y, (ρ y).trace = algebraMap K S (sc y * N) := by
    intro y
    rw [htr y (sc y) (algebraMap_sc y).symm, hcard, map_mul, map_natCast]
  have hρa : ∀ a : K, ρ (algebraMap K _ a) = algebraMap K S a • 1 := by
    intro a
    rw [AlgHom.commutes, Algebra.algebraMap_eq_smul_one (A := Matrix ι ι S), algebraMap_smul]
  have hunit : ∀ k : ℕ, 1 ≤ k → IsUnit (k : S) := by
    intro k hk
    rw [← map_natCast (algebraMap K S)]
    exact (IsUnit.mk0 (k : K) (by exact_mod_cast (by omega : k ≠ 0))).map _
  obtain ⟨h1, h2⟩ := Faddeev.iteration (ρ x) hcard hN0 (fun k => ρ (shU x N (k - 1)))
    (fun k => algebraMap K S (((N : K) / (k : K)) * sc (shU x N (k - 1)))) rfl
    (by
      intro k hk _
      obtain ⟨k, rfl⟩ : ∃ j, k = j + 1 := ⟨k - 1, by omega⟩
      simp only [Nat.add_sub_cancel]
      rw [← hρa, ← map_sub, ← map_mul, shU_succ, shAdj, neg_mul, ← mul_neg, neg_sub])
    (by
      intro k hk _
      rw [htr', ← map_natCast (algebraMap K S), ← map_mul]
      congr 1
      have : (k : K) ≠ 0 := by exact_mod_cast (by omega : k ≠ 0)
      field_simp)
    (fun k hk _ => hunit k hk)
  have hdiv : (N : K) / (N : K) = 1 := div_self (by exact_mod_cast hN0.ne')
  simp only [hdiv, one_mul] at h1 h2
  refine ⟨hρ (by rw [h1, hρa]), fun hu h0 => ?_⟩
  rw [h0, map_zero] at h2
  have hd := (Matrix.isUnit_iff_isUnit_det _).mp (hu.map ρ)
  have h3 : (ρ x).det = 0 := by
    have h4 : (-1 : S) ^ N * (ρ x).det = 0 := neg_eq_zero.mp h2.symm
    have h5 := congrArg (fun y => (-1 : S) ^ N * y) h4
    simpa [← mul_assoc, ← mul_pow] using h5
  rw [h3] at hd
  exact not_isUnit_zero hd

end Spec

namespace GA
variable {n : ℕ} {K : Type u} [Field K] [DecidableEq K] [Invertible (2 : K)]
  {g : Matrix (Fin n) (Fin n) K}

theorem Rep.scalar_sc {A : Mv K n} {x : Spec.Cl g} (h : Rep g A x) : A.scalar = Spec.sc x :=
  h.scalar_of (Spec.algebraMap_sc x).symm

end GA
