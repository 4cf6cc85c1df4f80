import Verif.Model.Mv
import Mathlib.Algebra.Order.Ring.Abs

/-!
# Norms and magnitudes
-/

namespace GA

variable {n : ℕ} {K : Type*} [Field K] [LinearOrder K] [Invertible (2 : K)]

/-- The tests on expressions by which the absolute value is simplified: SymPy's `expr.is_number`,
`(expr >= 0) == True` and `(expr <= 0) == True`. -/
structure SignTests (K : Type*) where
  isNumber : K → Bool
  ge0 : K → Bool
  le0 : K → Bool

/-- metric.py:117-143 `abs_with_hint`; `none` is the `ValueError` for an unknown hint. -/
def absWithHint (T : SignTests K) (hint : String) (x : K) : Option K :=
  if T.isNumber x then some |x|
  else if T.ge0 x then some x
  else if T.le0 x then some (-x)
  else if hint = "0" then some |x|
  else if hint = "+" then some x
  else if hint = "-" then some (-x)
  else none

variable (g : Matrix (Fin n) (Fin n) K)

/-- mv.py:1327-1347 `norm2`.  `posDef` is SymPy's `g.is_positive_definite` (`False` also when SymPy
cannot decide it). -/
def Mv.norm2 (T : SignTests K) (posDef : Bool) (hint : String) (A : Mv K n) : Option K :=
  if posDef then some (A.qform g) else absWithHint T hint (A.qform g)

/-- mv.py:1375-1388 `mag2`. -/
def Mv.mag2 (T : SignTests K) (posDef : Bool) (A : Mv K n) : Option K :=
  (List.range (n + 1)).foldlM
    (fun total k => ((A.getGrade k).norm2 g T posDef "0").map fun y => total + |y|) 0

end GA
