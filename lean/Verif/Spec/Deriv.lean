import Verif.Spec.Clifford
import Mathlib.RingTheory.Derivation.Basic

/-!
# Derivatives of fields

`D` is a derivation of the ring of scalar functions.  The derivative of a vector field `v` with
components `v i` is the vector field with components `D (v j) + ∑ i, Γ j i * v i`, where column `i`
of `Γ` is the derivative of basis vector `i`.
-/

namespace Spec
variable {n : ℕ} {R : Type*} [CommRing R]

/-- The derivative of a vector field. -/
def dvec (D : Derivation ℤ R R) (Γ : Matrix (Fin n) (Fin n) R) (v : Fin n → R) : Fin n → R :=
  fun j => D (v j) + ∑ i, Γ j i * v i

/-- The basis vectors have derivatives that are compatible with the metric `g`: the product rule
holds for the inner products of basis vectors. -/
def Compatible (g : Matrix (Fin n) (Fin n) R) (D : Derivation ℤ R R) (Γ : Matrix (Fin n) (Fin n) R) :
    Prop :=
  ∀ i j, D (g i j) = (∑ k, Γ k i * g k j) + ∑ k, g i k * Γ k j

end Spec
