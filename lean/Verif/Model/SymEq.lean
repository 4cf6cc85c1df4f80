import Verif.Model.Coef

/-!
# Equality of multivectors with SymPy coefficients

`Mv.eq` of `Model/Mv` compares coefficients as elements of a ring.  SymPy compares expressions: two
expressions with the same value may be different, such as `sin(x)**2 + cos(x)**2` and `1`.  Here `R` is
the ring of expressions up to SymPy's `expand`, with the functions and roots that occur as
indeterminates, and the simplification that the library applies before it compares is explicit.
-/

namespace GA
variable {n : ℕ} {R : Type*} [CommRing R] [DecidableEq R] [Invertible (2 : R)]
  (g : Matrix (Fin n) (Fin n) R)

/-- mv.py:479-485 `__eq__` of two multivectors: `(self - A).expand().simplify()` is compared with zero.
`modes` are the functions that `simplify` applies (mv.py:1498-1512); here it is SymPy's `simplify`. -/
def Mv.eqModes (modes : List (R → R)) (A B : Mv R n) : Bool :=
  decide (((A.sub g B).expandMv.simplify modes).obj = [])

/-- metric.py:308-313 `Simp.apply` and metric.py:22-29 `apply_function_list`: every mode is applied to the
coefficient of every basis blade.  metric.py:315-317 `Simp.applymv` makes a multivector of the result; its
name `Mv` is not defined in `metric.py`, so that it raises a `NameError` when called. -/
def simpApply (modes : List (R → R)) (E : Expr R n) : Expr R n :=
  (linearExpand E).foldl (fun obj t => addE obj [(modes.foldl (fun c f => f c) t.1, t.2)]) []

end GA
