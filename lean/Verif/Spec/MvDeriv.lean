import Verif.Model.MvDeriv
import Verif.Spec.Deriv

/-! # Specification: symbols as coefficients -/

namespace GA
variable {n : ℕ} {V : Type*} {K : Type*} [Field K] [DecidableEq K] [Invertible (2 : K)]

/-- An algebra with constant metric tensor whose coefficients contain the symbols `V`.  `val v` is the
symbol `v` as a coefficient, `D v` the derivative by `v`: a derivation with `∂v/∂v = 1` and `∂w/∂v = 0`
for other symbols `w`. -/
structure SymbolFields [DecidableEq V] (X : Fields V K n) (D : V → Derivation ℤ K K) (val : V → K) : Prop where
  symm : X.g.IsSymm
  conn : X.conn = none
  diff : ∀ v, X.D v = D v
  const : ∀ v i j, D v (X.g i j) = 0
  val : ∀ v w, D v (val w) = if v = w then 1 else 0

/-- The multivector `A` does not depend on the symbol `v`. -/
def Mv.Const (X : Fields V K n) (v : V) (A : Mv K n) : Prop :=
  (A.diffN X v 1).eq X.g Mv.zero = true

/-- The terms of a vector with the symbols `s` as coefficients, `Ga.mv('x', 'vector')`. -/
def vectorTerms (s : Fin n → V) : List (V × Sym n) :=
  (List.finRange n).map fun i => (s i, .blade [i])

/-- The terms of a multivector with a symbol for every blade in `L`. -/
def bladeTerms (s : List (Fin n) → V) (L : List (List (Fin n))) : List (V × Sym n) :=
  L.map fun I => (s I, .blade I)

end GA
