import Verif.Model.Deriv
import Mathlib.LinearAlgebra.Matrix.Adjugate
import Mathlib.LinearAlgebra.Matrix.NonsingularInverse

/-!
# `g_inv` and `Christoffel_symbols` of the class `Metric`

`Ga.g_inv` (`gInv`, ga.py:1922-1938) replaces `Metric.g_inv`; this file models the method of the base class, that
objects made with `Metric(...)` have.
-/

namespace GA
variable {n : ℕ} {K : Type*} [Field K] [DecidableEq K] [Invertible (2 : K)]

/-- metric.py:542-543 `Metric.g_adj`: SymPy's `Matrix.adjugate`. -/
def metricGAdj (g : Matrix (Fin n) (Fin n) K) : Matrix (Fin n) (Fin n) K := g.adjugate

/-- metric.py:528-538 `Metric.g_inv`; `none`: an exception.  `gsym` is the value of the determinant symbol
`Metric.detg` (metric.py:663-674) if the argument `gsym` is used.  In the orthogonal branch the loop over
`range(n)` calls the matrix `self.g`, which raises `TypeError` as soon as there is a basis vector.  SymPy's
`Matrix.inv` is Mathlib's inverse, with an exception if the determinant is zero. -/
noncomputable def metricGInv (g : Matrix (Fin n) (Fin n) K) (gsym : Option K) :
    Option (Matrix (Fin n) (Fin n) K) :=
  if isOrtho g then if n = 0 then some 1 else none
  else match gsym with
    | none => if g.det = 0 then none else some g⁻¹
    | some d => if d = 0 then none else some (d⁻¹ • metricGAdj g)

/-- metric.py:545-597 `Christoffel_symbols` of an object of class `Metric`; `some none` is Python's `None`, `none` an
exception. -/
noncomputable def metricChristoffel (D : Fin n → K → K) (g : Matrix (Fin n) (Fin n) K) (N : Option (Fin n → K))
    (mode : ℕ) : Option (Option (Fin n → Fin n → Fin n → K)) :=
  if connectFlg D g = false then some none
  else if mode = 1 then some (some (gamma1 D g))
  else if mode = 2 then
    (metricGInv (currentMetric N g) none).map fun gi => some fun i j k => ∑ l, gamma1 D g i j l * gi l k
  else none

end GA
