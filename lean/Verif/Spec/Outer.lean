import Verif.Spec.Clifford
import Mathlib.LinearAlgebra.Matrix.ToLin

/-!
# Specification: outermorphisms

The extension of a linear map of the vector space to the whole algebra that preserves the exterior
product, defined from Mathlib's functor `ExteriorAlgebra.map`.
-/

namespace Spec
variable {R : Type*} [CommRing R] [Invertible (2 : R)] {n : ℕ}

/-- The outermorphism of the linear map with matrix `M` (column `j` is the image of `e_j`). -/
noncomputable def outer (g M : Matrix (Fin n) (Fin n) R) : Cl g →ₗ[R] Cl g :=
  (toExt g).symm.toLinearMap ∘ₗ (ExteriorAlgebra.map (Matrix.mulVecLin M)).toLinearMap ∘ₗ
    (toExt g).toLinearMap

end Spec
