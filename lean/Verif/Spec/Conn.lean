import Verif.Spec.Deriv
import Verif.Spec.Mv
import Verif.Model.Deriv

/-! # Connections: what the derivatives of the basis vectors stand for -/

namespace GA
variable {n : ℕ} {K : Type*} [Field K] [DecidableEq K] [Invertible (2 : K)]

/-- `conn` (the attribute `Ga.de`, `none` if the basis vectors are constant) describes the connection
`Γ`: the derivative of basis vector `j` by coordinate `i` is the vector with components
`Γ i k j`. -/
def IsConnection (g : Matrix (Fin n) (Fin n) K) (conn : Option (Fin n → Fin n → Expr K n))
    (Γ : Fin n → Matrix (Fin n) (Fin n) K) : Prop :=
  match conn with
  | none => Γ = 0
  | some de => ∀ i j, Valid (de i j) ∧ den g (de i j) = Spec.vec g fun k => Γ i k j

end GA
