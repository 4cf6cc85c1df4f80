import Mathlib.Algebra.Field.Basic
import Mathlib.Algebra.BigOperators.Group.List.Basic
import Mathlib.Data.Nat.Cast.Basic

/-!
# `correlation` of galgebra/mv.py
-/

namespace GA
variable {K : Type*} [Field K] [DecidableEq K]

/-- mv.py:2058-2063: `ulocal[i] -= uave` for the first `rows` entries. -/
def centreLoop (ave : K) : ℕ → List K → List K
  | 0, u => u
  | _, [] => []
  | k + 1, x :: u => (x - ave) :: centreLoop ave k u

/-- mv.py:2051-2063: a vector minus its average, which is the sum of the first `rows` entries over `rows`; a matrix is given by its entries and the number of rows, and
`u[i]` is the `i`-th entry. -/
def centre (rows : ℕ) (u : List K) : List K :=
  centreLoop ((u.take rows).foldl (· + ·) 0 / rows) rows u

/-- SymPy's `dot` of two vectors with the same number of entries. -/
def dotList (u v : List K) : K := (List.zipWith (· * ·) u v).sum

/-- mv.py:2050-2064 `correlation(u, v)`; `column` says that the vectors are column vectors, and otherwise they
are row vectors.  `none`: the vectors do not have the same number of entries, or a vector is constant (the
denominator is zero).  Simplification: the arithmetic is exact; `evalf(dec)` rounds the denominator. -/
def correlation (sqrt : K → K) (column : Bool) (u v : List K) : Option K :=
  if u.length = v.length then
    let rows := if column then u.length else 1
    let ulocal := centre rows u
    let vlocal := centre rows v
    let d := sqrt (dotList ulocal ulocal) * sqrt (dotList vlocal vlocal)
    if d = 0 then none else some (dotList ulocal vlocal / d)
  else none

end GA
