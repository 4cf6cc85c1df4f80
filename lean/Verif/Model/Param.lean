import Verif.Model.Deriv
import Verif.Model.Dict

/-!
# Model of `Mv.diff` and `Ga.parametric` (galgebra/mv.py, ga.py)

`V` is the type of SymPy symbols, `D x` is SymPy's `diff` by the symbol `x` on coefficients.
-/

namespace GA
variable {n : ℕ} {K V : Type*} [Field K] [DecidableEq K] [Invertible (2 : K)] [DecidableEq V]

/-- The attributes of an algebra that `Mv.diff` reads: `coords`, `par_coords`, the metric and the
connection. -/
structure DiffGa (n : ℕ) (K V : Type*) where
  g : Matrix (Fin n) (Fin n) K
  conn : Option (Fin n → Fin n → Expr K n)
  coords : Option (Fin n → V)
  parCoords : Option (Dict V K)

/-- ga.py:1008-1019 `parametric(coords)`; `none`: `ValueError` for a list of another length, or
`TypeError` for an algebra without coordinates (`zip(None, ...)`). -/
def DiffGa.parametric (X : DiffGa n K V) (fs : List K) : Option (DiffGa n K V) :=
  if fs.length ≠ n then none
  else match X.coords with
    | none => none
    | some cs => some { X with
        parCoords := some (((List.ofFn cs).zip fs).foldl (fun d p => d.set p.1 p.2) []) }

/-- SymPy `diff(self.obj, coord)`. -/
def diffE (D : K → K) (E : Expr K n) : Expr K n := E.map fun t => (D t.1, t.2)

/-- ga.py:2040-2059 `Ga.pDiff(A.obj, coord)`, with the SymPy expression `A.obj` instead of the
multivector `A`, for `dslot == -1`.  Without connection this differentiates the coefficients.  With
connection line 2045 calls `A.obj.is_scalar()`, which is not a method of SymPy expressions: `none`. -/
def pDiffObj (conn : Option (Fin n → Fin n → Expr K n)) (D : K → K) (E : Expr K n) :
    Option (Mv K n) :=
  match conn with
  | none => some (Mv.ofExpr (expand (diffE D E)))
  | some _ => none

/-- mv.py:1200-1201 `Mv.pdiff(var)` for a symbol. -/
def Mv.pdiff (X : DiffGa n K V) (D : V → K → K) (x : V) (A : Mv K n) : Option (Mv K n) :=
  pDiffObj X.conn (D x) A.obj

/-- mv.py:1189-1195: one round of the loop over the coordinates in the branch for parameters. -/
def diffParamStep (X : DiffGa n K V) (D : V → K → K) (x : V) (d : Dict V K) (A : Mv K n)
    (obj : Option (Expr K n)) (xc : V) : Option (Expr K n) :=
  match obj, d.get? xc with
  | some obj, some f =>
    if f ≠ 0 then
      (pDiffObj X.conn (D xc) A.obj).map fun tmp1 => addE obj (smulE (D x f) tmp1.obj)
    else some obj
  | _, _ => none

/-- mv.py:1180-1198 `Mv.diff(coord)`; `none` is an exception of `pDiff`. -/
def Mv.diff (X : DiffGa n K V) (D : V → K → K) (x : V) (A : Mv K n) : Option (Mv K n) :=
  match X.coords with
  | none => some (Mv.ofExpr (diffE (D x) A.obj))
  | some cs =>
    if x ∈ List.ofFn cs then pDiffObj X.conn (D x) A.obj
    else match X.parCoords with
      | none => some (Mv.ofExpr (diffE (D x) A.obj))
      | some d =>
        if (d.get? x).isNone then some (Mv.ofExpr (diffE (D x) A.obj))
        else ((List.ofFn cs).foldl (diffParamStep X D x d A) (some (diffE (D x) A.obj))).map Mv.ofExpr

end GA
