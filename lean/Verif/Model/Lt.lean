import Verif.Model.Pseudo
import Mathlib.LinearAlgebra.Matrix.Adjugate

/-!
# Model of linear transformations (galgebra/lt.py, class `Lt`)

A transformation is its dictionary `lt_dict`, from the symbols of basis vectors to expressions.
The attribute `versor` is always `False` (lt.py:301), so the branches that test it are not modelled.
SymPy's `simplify` of coefficients does not change values and is left out.
-/

namespace GA

variable {n : ℕ} {R : Type*} [CommRing R] [DecidableEq R]

/-- lt.py:299: `Lt.lt_dict`. -/
abbrev Lt (R : Type*) (n : ℕ) := Dict (Sym n) (Expr R n)

/-- metric.py:85-114 `collect(A, nc_list)`: the entries for the symbols in `ncList`, in that order,
then what is left.  SymPy drops terms with coefficient zero from the sum. -/
def collect (A : Expr R n) (ncList : List (Sym n)) : Expr R n :=
  let terms := linearExpand A
  expand ((ncList.flatMap fun x => terms.filter fun t => decide (t.2 = x)) ++
    terms.filter fun t => decide (t.2 ∉ ncList))

/-- metric.py:682, ga.py:1045: `Ga.basis`, the symbols of the basis vectors. -/
def basis (n : ℕ) : List (Sym n) := (List.finRange n).map fun i => .blade [i]

/-- lt.py:304-306: `Lt(dict)`. -/
def Lt.ofDict (d : Dict (Sym n) (Expr R n)) : Lt R n :=
  d.foldl (fun acc kv => Dict.set acc kv.1 kv.2) []

/-- lt.py:314-320: `Lt([[...],...])`, a list of lists: row `i` has the coefficients of the image of
basis vector `i`.  SymPy drops the zero terms of the sum. -/
def Lt.ofLists (rows : List (List R)) : Lt R n :=
  Dict.ofItems ((rows.zip (basis n)).map fun p =>
    (p.2, expand ((p.1.zip (basis n)).map fun q => (q.1, q.2))))

/-- lt.py:1016-1025 `sym(v)`: the coefficients of the basis vectors (mv.py:1069-1090 `blade_coefs`
with a list of blades) times their symbols. -/
def symOf (v : Mv R n) : Expr R n :=
  expand ((basis n).map fun b =>
    (match (linearExpand v.obj).find? fun t => decide (t.2 = b) with
      | some t => t.1
      | none => 0, b))

/-- lt.py:309-313: `Lt([v1,...,vn])`, a list of vectors, the images of the basis vectors. -/
def Lt.ofVectors (vs : List (Mv R n)) : Lt R n :=
  Dict.ofItems ((vs.zip (basis n)).map fun p => (p.2, symOf p.1))

/-- lt.py:125-136 `Matrix_to_dictionary` and lt.py:323-324: `Lt(Matrix)` with a square matrix of the
right size. -/
def Lt.ofMatrix (M : Matrix (Fin n) (Fin n) R) : Lt R n :=
  Dict.ofItems ((List.finRange n).map fun col =>
    (.blade [col], expand ((List.finRange n).map fun row => (M row col, .blade [row]))))

/-- lt.py:140-157 `Dictionary_to_Matrix` and `Lt.matrix`: one column of the matrix.  `none`: the
`ValueError` of `ga.basis.index(base)`. -/
def columnOf (E : Expr R n) : Option (Fin n → R) :=
  if E = [] then some 0
  else (linearExpand E).foldlM (fun col t =>
    match t.2 with
    | .blade [i] => some (Function.update col i t.1)
    | _ => none) 0

/-- lt.py:140-157 `Dictionary_to_Matrix` and lt.py:607-617 `Lt.matrix`.  `none`: a `KeyError` or
`ValueError`. -/
def Lt.matrix (L : Lt R n) : Option (Matrix (Fin n) (Fin n) R) :=
  ((basis n).mapM fun b => (L.get? b).bind columnOf).map fun cols =>
    Matrix.of fun i j => (cols.getD j 0) i

/-- lt.py:372-385 `mv_dict`. -/
def Lt.mvDict (L : Lt R n) : Dict (Sym n) (Expr R n) :=
  Dict.ofItems ((indexesToBlades n).fwd.map fun p =>
    (p.2, p.1.foldl (fun E i => wedge E (subsE [(1, .blade [i])] L)) (scalarE 1)))

/-- lt.py:387-438 `__call__(M, obj=True)` with an expression `M`. -/
def Lt.callE (L : Lt R n) (E : Expr R n) : Expr R n := subsE (Mv.ofExpr E).obj L.mvDict

section half
variable [Invertible (2 : R)] (g : Matrix (Fin n) (Fin n) R)

/-- lt.py:387-438 `__call__` with a multivector of the same algebra. -/
def Lt.call (L : Lt R n) (M : Mv R n) : Mv R n :=
  if M.isVector g then Mv.ofExpr (subsE M.obj L) else Mv.ofExpr (subsE M.obj L.mvDict)

/-- lt.py:355-369: `Lt(F)` with a Python function `F`.  Its test of additivity on two generic vectors
is the argument `additive`, the result of `F(a + b) == F(a) + F(b)`.  `none`: a `ValueError`. -/
def Lt.ofFunction (F : Mv R n → Mv R n) (additive : Bool) : Option (Lt R n) :=
  if additive then
    ((List.finRange n).mapM fun i =>
      let out := F (Mv.ofExpr [(1, .blade [i])])
      if !out.isVector g && !out.isZero then none else some (Sym.blade [i], out.obj)).map
        Dict.ofItems
  else none

end half

/-- lt.py:440-451 `__add__`. -/
def Lt.add (L L' : Lt R n) : Lt R n :=
  L'.foldl (fun d kv => match d.get? kv.1 with
    | some v => d.set kv.1 (collect (addE v kv.2) (basis n))
    | none => d.set kv.1 kv.2) L

/-- lt.py:453-464 `__sub__`. -/
def Lt.sub (L L' : Lt R n) : Lt R n :=
  L'.foldl (fun d kv => match d.get? kv.1 with
    | some v => d.set kv.1 (collect (subE v kv.2) (basis n))
    | none => d.set kv.1 (negE kv.2)) L

/-- lt.py:466-478 `__mul__` of two transformations. -/
def Lt.mul (L L' : Lt R n) : Lt R n :=
  L'.map fun kv => (kv.1, collect (expand (L.callE (L'.callE [(1, kv.1)]))) (basis n))

/-- lt.py:479-483, 485-493 `__mul__` and `__rmul__` with a scalar. -/
def Lt.smul (c : R) (L : Lt R n) : Lt R n := L.map fun kv => (kv.1, expand (smulE c kv.2))

/-- lt.py:570-582 `_sympystr` and lt.py:587-601 `_latex`: the image that is printed for basis vector
`i`. -/
def Lt.shown (L : Lt R n) (i : Fin n) : Mv R n :=
  match L.get? (.blade [i]) with
  | some E => Mv.ofExpr E
  | none => Mv.ofExpr []

section field
variable {K : Type*} [Field K] [DecidableEq K] [Invertible (2 : K)]
  (g : Matrix (Fin n) (Fin n) K)

/-- lt.py:495-502 `det`.  `none`: `E.inv()` fails. -/
def Lt.det (L : Lt K n) : Option K :=
  ((pseudoE : Mv K n).inv g).map fun Einv => ((L.call g pseudoE).mul g Einv).scalar

/-- lt.py:539-547 `adj`.  `none`: the matrix or the inverse metric cannot be computed. -/
def Lt.adj (L : Lt K n) : Option (Lt K n) :=
  (gInv g).bind fun gi => L.matrix.map fun M => Lt.ofMatrix (gi * M.transpose * g)

/-- lt.py:551-554 `is_singular`.  `none`: `E.inv()` fails. -/
def Lt.isSingular (L : Lt K n) : Option Bool :=
  ((pseudoE : Mv K n).inv g).map fun Einv =>
    decide (((L.call g pseudoE).left g Einv).scalar = 0)

/-- SymPy's `Matrix.inv`, by the adjugate; `none`: the matrix is singular. -/
def matInv (M : Matrix (Fin n) (Fin n) K) : Option (Matrix (Fin n) (Fin n) K) :=
  if M.det = 0 then none else some ((M.det)⁻¹ • M.adjugate)

/-- lt.py:558-567 `inv`.  `none`: an exception. -/
def Lt.inv (L : Lt K n) : Option (Lt K n) :=
  (L.isSingular g).bind fun s =>
    if s then none else L.matrix.bind fun M => (matInv M).map Lt.ofMatrix

/-- lt.py:328-343: `Lt(V)` with a versor `V` (the test `if not mat_rep.is_versor` never fails: it is
the truth value of a method).  `none`: an exception. -/
def Lt.ofVersor (V : Mv K n) : Option (Lt K n) :=
  (V.inv g).bind fun Vinv =>
    Lt.ofFunction g (fun x => ((V.gInvol g).mul g x).mul g Vinv) true

end field

end GA
