import Verif.Spec.Mlt
import Verif.Model.MltComps
import Mathlib.Algebra.BigOperators.Fin

/-!
# Components of multilinear functions
-/

namespace GA
variable {n : ℕ} {K : Type*} [Field K]

/-- The place of the index tuple `I` in the lexicographic order of all tuples, from `0` on: `I` read as a number in base
`n`. -/
def place {r : ℕ} (I : Fin r → Fin n) : ℕ := ∑ j : Fin r, (I j : ℕ) * n ^ (r - 1 - j)

/-- The arguments `e_(I 0), e_(I 1), ...`, as components. -/
def basisTuple {r : ℕ} (I : Fin r → Fin n) (i : ℕ) (k : Fin n) : K :=
  if h : i < r then (if k = I ⟨i, h⟩ then 1 else 0) else 0

end GA
