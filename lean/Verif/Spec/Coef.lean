import Verif.Spec.Clifford

/-!
# Specification: coefficients of basis blades

A set `s` of indices names the basis blade of the basis vectors with indices in `s`, in increasing
order.
-/

namespace Spec
variable {R : Type*} [CommRing R] {n : ℕ} [Invertible (2 : R)]

/-- The element with coefficient `c s` of the basis blade of every set `s` of indices. -/
noncomputable def ofCoefs (g : Matrix (Fin n) (Fin n) R) (c : Finset (Fin n) → R) : Cl g :=
  ∑ s : Finset (Fin n), c s • blade g (s.sort (· ≤ ·))

end Spec
