import Verif.Proofs.Shirokov
import Verif.Proofs.InnerLaws
import Verif.Proofs.Hitzer

/-! The scalar product of `x̃` and `y` in the Clifford algebra. -/

set_option linter.unusedSectionVars false

universe u

namespace Spec
open GA CliffordAlgebra
variable {n : ℕ} {K : Type u} [Field K] [DecidableEq K] [Invertible (2 : K)] {g : Matrix (Fin n) (Fin n) K}

theorem sc_unique {x : Cl g} {c : K} (h : grade g 0 x = algebraMap K _ c) : sc x = c :=
  algebraMap_inj g ((algebraMap_sc x).trans h)

/-- The scalar part as a linear form. -/
noncomputable def scL (g : Matrix (Fin n) (Fin n) K) : Cl g →ₗ[K] K where
  toFun := sc
  map_add' x y := sc_unique (by rw [map_add, map_add, algebraMap_sc, algebraMap_sc])
  map_smul' c x := sc_unique (by
    rw [map_smul, RingHom.id_apply, smul_eq_mul, map_mul, algebraMap_sc, Algebra.smul_def])

/-- The scalar product `⟨x̃ y⟩₀`. -/
noncomputable def sp (x y : Cl g) : K := scL g (reverse x * y)

theorem sp_add_left (x y z : Cl g) : sp (x + y) z = sp x z + sp y z := by
  rw [sp, map_add, add_mul, map_add]; rfl
theorem sp_sub_left (x y z : Cl g) : sp (x - y) z = sp x z - sp y z := by
  rw [sp, map_sub, sub_mul, map_sub]; rfl
theorem sp_add_right (x y z : Cl g) : sp x (y + z) = sp x y + sp x z := by
  rw [sp, mul_add, map_add]; rfl
theorem sp_sub_right (x y z : Cl g) : sp x (y - z) = sp x y - sp x z := by
  rw [sp, mul_sub, map_sub]; rfl
theorem sp_smul_left (c : K) (x y : Cl g) : sp (c • x) y = c * sp x y := by
  rw [sp, map_smul, smul_mul_assoc, map_smul]; rfl
theorem sp_smul_right (c : K) (x y : Cl g) : sp x (c • y) = c * sp x y := by
  rw [sp, mul_smul_comm, map_smul]; rfl

theorem scL_reverse (x : Cl g) : scL g (reverse x) = scL g x := by
  refine sc_unique ?_
  rw [grade_reverse, ← algebraMap_sc, reverse.commutes]
  rfl

theorem scL_mul_comm (x y : Cl g) : scL g (x * y) = scL g (y * x) := by
  refine sc_unique ?_
  rw [grade_zero_mul_comm, ← algebraMap_sc]
  rfl

theorem scL_involute (x : Cl g) : scL g (involute x) = scL g x := by
  refine sc_unique ?_
  rw [grade_involute, pow_zero, one_smul, ← algebraMap_sc]
  rfl

theorem sp_comm (x y : Cl g) : sp x y = sp y x := by
  rw [sp, ← scL_reverse, reverse.map_mul, reverse_reverse]
  rfl

theorem sp_mul_left (x y z : Cl g) : sp (x * y) z = sp y (reverse x * z) := by
  rw [sp, reverse.map_mul, mul_assoc]; rfl

theorem sp_mul_right (x y z : Cl g) : sp (x * y) z = sp x (z * reverse y) := by
  rw [sp, reverse.map_mul, mul_assoc, scL_mul_comm, mul_assoc]; rfl

theorem sp_involute (x y : Cl g) : sp (involute x) (involute y) = sp x y := by
  rw [sp, reverse_involute, ← map_mul, scL_involute]; rfl

theorem sp_reverse (x y : Cl g) : sp (reverse x) (reverse y) = sp x y := by
  rw [sp, reverse_reverse, scL_mul_comm, sp_comm]; rfl

theorem sp_grades {j k : ℕ} (h : j ≠ k) {x y : Cl g} (hx : Homogeneous g j x) (hy : Homogeneous g k y) : sp x y = 0 := by
  refine sc_unique ?_
  rw [map_zero, (homogeneous_reverse hx).2, smul_mul_assoc, map_smul,
    grade_mul_homogeneous hx hy (fun i h1 h2 h3 => by omega), smul_zero]

/-- The two parts of a product with a vector are orthogonal. -/
theorem sp_con_wedge (v : Fin n → K) (x : Cl g) : sp (con g v x) (wedge g (vec g v) x) = 0 := by
  have e1 : (2 : K) • con g v x = vec g v * x - involute x * vec g v := by
    rw [mul_vec, involute_involute]; abel
  have e2 : (2 : K) • wedge g (vec g v) x = vec g v * x + involute x * vec g v := by
    rw [mul_vec, involute_involute, wedge_vec]; module
  have h2 : (2 : K) ≠ 0 := (isUnit_of_invertible (2 : K)).ne_zero
  have key : (2 : K) * ((2 : K) * sp (con g v x) (wedge g (vec g v) x)) = 0 := by
    rw [← sp_smul_right, ← sp_smul_left, e1, e2, sp_sub_left, sp_add_right, sp_add_right, sp_comm (involute x * vec g v) (vec g v * x)]
    have r : reverse (vec g v) = vec g v := reverse_ι v
    have q : vec g v * vec g v = algebraMap K _ (Q g v) := CliffordAlgebra.ι_sq_scalar _ v
    have a1 : sp (vec g v * x) (vec g v * x) = Q g v * sp x x := by
      rw [sp_mul_left, r, ← mul_assoc, q, ← Algebra.smul_def, sp_smul_right]
    have a2 : sp (involute x * vec g v) (involute x * vec g v) = Q g v * sp x x := by
      rw [sp_mul_right, r, mul_assoc, q, ← Algebra.commutes, ← Algebra.smul_def, sp_smul_right, sp_involute]
    rw [a1, a2]; ring
  exact (mul_eq_zero.mp ((mul_eq_zero.mp key).resolve_left h2)).resolve_left h2

theorem sp_vec_mul (v : Fin n → K) (x : Cl g) :
    sp (con g v x) (con g v x) + sp (wedge g (vec g v) x) (wedge g (vec g v) x) = Q g v * sp x x := by
  have r : reverse (vec g v) = vec g v := reverse_ι v
  have q : vec g v * vec g v = algebraMap K _ (Q g v) := CliffordAlgebra.ι_sq_scalar _ v
  have a1 : sp (vec g v * x) (vec g v * x) = Q g v * sp x x := by
    rw [sp_mul_left, r, ← mul_assoc, q, ← Algebra.smul_def, sp_smul_right]
  rw [← a1, vec_mul, sp_add_left, sp_add_right, sp_add_right, sp_comm (wedge g (vec g v) x) (con g v x), sp_con_wedge]
  ring

end Spec
