import Verif.Model.Mv
import Mathlib.Data.Nat.Factorial.Basic

/-!
# Specification: the exponential series
-/

namespace GA
variable {n : ℕ} {K : Type*} [Field K] [DecidableEq K] [Invertible (2 : K)]

/-- `1 + A + A**2/2 + ... + A**(N-1)/(N-1)!`, calculated with multivectors. -/
def expSum (g : Matrix (Fin n) (Fin n) K) (A : Mv K n) : ℕ → Mv K n
  | 0 => Mv.zero
  | N + 1 => (expSum g A N).add g ((A.pow g N).smul (N.factorial : K)⁻¹)

end GA
