import Verif.Spec.Clifford
import Verif.Model.Expr

/-!
# Meaning of expressions

The element of the Clifford algebra of the metric `g` that an expression stands for.
-/

namespace GA
variable {n : ℕ} {R : Type*} [CommRing R] [DecidableEq R] [Invertible (2 : R)]

/-- Meaning of a symbol: a basis blade is the exterior product of its basis vectors, a base their
geometric product.  (`error` has no meaning; theorems always state separately that it does not
occur.) -/
noncomputable def symDen (g : Matrix (Fin n) (Fin n) R) : Sym n → Spec.Cl g
  | .blade l => Spec.blade g l
  | .base l => Spec.base g l
  | .error => 0

/-- Meaning of an expression: the linear combination of the meanings of its symbols. -/
noncomputable def den (g : Matrix (Fin n) (Fin n) R) (E : Expr R n) : Spec.Cl g :=
  (E.map fun t => t.1 • symDen g t.2).sum

end GA
