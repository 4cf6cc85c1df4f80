import Verif.Model.Dop
import Verif.Model.SymEq

/-!
# Simplification of differential operators (galgebra/dop.py and class `Dop` of galgebra/mv.py)

As in `Model/SymEq`, `R` is the ring of SymPy expressions up to `expand`.
-/

namespace GA

section sdop
variable {V : Type*} {R : Type*}

/-- dop.py:107-111 `Sdop.simplify(modes)`, metric.py:22-29 `apply_function_list`. -/
def Sdop.simplify (modes : List (R → R)) (s : Sdop R V) : Sdop R V :=
  s.map fun t => (modes.foldl (fun c f => f c) t.1, t.2)

/-- dop.py:92-95 `Sdop.TSimplify`, metric.py:308-313 `Simp.apply` with the global list `modes`: the terms of a coefficient
without basis blades are one term with base 1, also if the coefficient is zero. -/
def Sdop.tSimplify [CommRing R] (modes : List (R → R)) (s : Sdop R V) : Sdop R V :=
  s.map fun t => (0 + modes.foldl (fun c f => f c) t.1 * 1, t.2)

end sdop

section dop
variable {V : Type*} {n : ℕ} {R : Type*} [CommRing R] [DecidableEq R] [Invertible (2 : R)]

/-- mv.py:1689-1696 `Dop.simplify(modes)`. -/
def Dop.simplify (modes : List (R → R)) (d : Dop V R n) : Dop V R n :=
  ⟨d.terms.map fun t => (t.1.simplify modes, t.2), d.cmpflg⟩

/-- mv.py:1804-1807 `Dop.TSimplify`: `Simp.apply` is called with a multivector, which is not a SymPy expression
(metric.py:40-41), `none`: `TypeError`.  The complement flag is not passed on. -/
def Dop.tSimplify (d : Dop V R n) : Option (Dop V R n) :=
  if d.terms = [] then some ⟨[], false⟩ else none

end dop

end GA
