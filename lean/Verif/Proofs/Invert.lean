import Verif.Proofs.MvSpec

/-! The Clifford algebra over a field is finite dimensional; one-sided inverses are two-sided. -/

set_option linter.unusedSectionVars false

namespace GA
variable {n : ℕ} {K : Type*} [Field K] [Invertible (2 : K)]
  {g : Matrix (Fin n) (Fin n) K}

theorem Spec.finite (g : Matrix (Fin n) (Fin n) K) : Module.Finite K (Spec.Cl g) :=
  have : Module.Finite K (ExteriorAlgebra K (Fin n → K)) :=
    Module.Finite.of_basis (Pi.basisFun K (Fin n)).ExteriorAlgebra
  Module.Finite.equiv (Spec.toExt g).symm

/-- One-sided inverses are two-sided. -/
theorem Spec.mul_eq_one_symm {x y : Spec.Cl g} (h : x * y = 1) : y * x = 1 := by
  have := Spec.finite g
  have hinj : Function.Injective (LinearMap.mulLeft K y) := by
    intro a b hab
    simp only [LinearMap.mulLeft_apply] at hab
    rw [← one_mul a, ← one_mul b, ← h, mul_assoc, mul_assoc, hab]
  obtain ⟨z, hz⟩ := LinearMap.injective_iff_surjective.mp hinj 1
  simp only [LinearMap.mulLeft_apply] at hz
  have : x = z := by rw [← mul_one x, ← hz, ← mul_assoc, h, one_mul]
  rw [this, hz]

end GA
