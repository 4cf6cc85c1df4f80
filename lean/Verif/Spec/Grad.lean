import Verif.Model.Grad

/-! # The lengths of the coordinate basis vectors -/

namespace GA
variable {n : ℕ} {K : Type*} [Field K]

/-- The tangent vector of coordinate `i` is `scaleOf N i` times basis vector `i`: the basis vectors of
an algebra with `norm=True` are the tangent vectors divided by their norms. -/
def scaleOf (N : Option (Fin n → K)) : Fin n → K := N.getD 1

end GA
