import Verif.Model.Norm
import Verif.Model.Deriv

/-!
# Model of the signature and of the normalisation of a metric (galgebra/metric.py)
-/

namespace GA

variable {n : ℕ} {K : Type*} [Field K] [LinearOrder K]

/-- The attribute `Metric.sig`: a hint given as an integer or a string, or a pair. -/
inductive Sig | int (k : ℤ) | str (s : String) | pair (p q : ℤ)
deriving DecidableEq, Repr

/-- metric.py:630-644: the loop over the diagonal of an orthogonal metric, which stops at the first entry
that is not a number; the numbers of positive and of other entries seen. -/
def countSigns (isNumber : K → Bool) : List K → ℕ × ℕ → ℕ × ℕ
  | [], pq => pq
  | x :: l, pq =>
    if isNumber x then countSigns isNumber l (if 0 < x then (pq.1 + 1, pq.2) else (pq.1, pq.2 + 1))
    else pq

/-- metric.py:645-661: the signature from the hint; `none`: `ValueError`. -/
def hintSig (n : ℕ) : Sig → Option Sig
  | .int k => if k ≤ n then some (.pair k (n - k)) else none
  | .str s =>
    if s = "e" then some (.pair n 0)
    else if s = "m+" then some (.pair (n - 1) 1)
    else if s = "m-" then some (.pair 1 (n - 1))
    else none
  | .pair _ _ => none

/-- metric.py:629-661 `Metric.signature()`: the new value of the attribute `sig`; `none`: `ValueError`. -/
def signature (isNumber : K → Bool) (g : Matrix (Fin n) (Fin n) K) (sig : Sig) : Option Sig :=
  let pq := countSigns isNumber ((List.finRange n).map fun i => g i i) (0, 0)
  if isOrtho g && decide (pq.1 + pq.2 = n) then some (.pair pq.1 pq.2) else hintSig n sig

/-- metric.py:815-820 `Metric.g_is_numeric` (the diagonal is not looked at). -/
def gIsNumeric (isNumber : K → Bool) (g : Matrix (Fin n) (Fin n) K) : Bool :=
  (List.finRange n).all fun i => (List.finRange n).all fun j => !decide (i < j) || isNumber (g i j)

/-- metric.py:837-840 `e_sq_sgn` from the signature: is it `'+'`?  (`none`: `sig` is not a pair.) -/
def eSqSgn (n : ℕ) : Sig → Option Bool
  | .pair _ q => some (!decide (((n * (n - 1) / 2 : ℕ) + q) % 2 = 1))
  | _ => none

/-- metric.py:835-840: the attributes `sig` and `e_sq_sgn` (`none`: not set) at the end of
`Metric.__init__`; the outer `none` is a `ValueError`.  `g` is the attribute `g`, after normalisation. -/
def initSig (isNumber : K → Bool) (g : Matrix (Fin n) (Fin n) K) (hint : Sig) :
    Option (Sig × Option Bool) :=
  if gIsNumeric isNumber g then some (hint, none)
  else (signature isNumber g hint).map fun s => (s, eSqSgn n s)

/-- SymPy's `sqrt` and `sqf_list` (square free factorisation: a coefficient, and factors with their
exponents). -/
structure RootFuns (K : Type*) where
  sqrt : K → K
  sqfList : K → K × List (K × ℕ)

/-- metric.py:167-174: the loop of `square_root_of_expr` over the factors of `x`. -/
def sqrtLoop (T : SignTests K) (F : RootFuns K) (hint : String) (x : K) : K → List (K × ℕ) → Option K
  | coef, [] => some coef
  | coef, (f, m) :: l =>
    if m % 2 ≠ 0 then (absWithHint T hint x).map F.sqrt else sqrtLoop T F hint x (coef * f ^ (m / 2)) l

/-- metric.py:146-175 `square_root_of_expr`; `none`: `ValueError` of `abs_with_hint`.  `trigsimp` does not
change the value.  The recursive call for a numeric coefficient is `sqrt(abs(coef))`, as is the other
branch. -/
def squareRootOfExpr (T : SignTests K) (F : RootFuns K) (hint : String) (x : K) : Option K :=
  if T.isNumber x then (absWithHint T hint x).map F.sqrt
  else
    let coef := (F.sqfList x).1
    sqrtLoop T F hint x (if coef ≠ 1 then F.sqrt |coef| else coef) (F.sqfList x).2

/-- metric.py:822-833: `Metric.e_norm`.  The outer `none`: `ValueError`, normalisation is only implemented
for orthogonal bases. -/
def eNorm (T : SignTests K) (F : RootFuns K) (norm : Bool) (g : Matrix (Fin n) (Fin n) K) :
    Option (Option (Fin n → K)) :=
  if norm then
    if isOrtho g then
      ((List.finRange n).mapM fun i => squareRootOfExpr T F "0" (g i i)).map fun l =>
        some fun i => l.getD i 0
    else none
  else some none

variable [Invertible (2 : K)]

/-- mv.py:1353-1370 `Mv.norm`; `isNonneg` is SymPy's `result.is_nonnegative`. -/
def Mv.norm (g : Matrix (Fin n) (Fin n) K) (T : SignTests K) (F : RootFuns K) (isNonneg : K → Bool)
    (posDef : Bool) (hint : String) (A : Mv K n) : Option K :=
  (A.norm2 g T posDef hint).bind fun x => (squareRootOfExpr T F "+" x).map fun y =>
    if isNonneg y then y else |y|

/-- mv.py:1392-1399 `Mv.mag`. -/
def Mv.mag (g : Matrix (Fin n) (Fin n) K) (T : SignTests K) (F : RootFuns K) (posDef : Bool)
    (A : Mv K n) : Option K :=
  (A.mag2 g T posDef).map F.sqrt

end GA
