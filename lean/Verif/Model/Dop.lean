import Verif.Model.Dict
import Verif.Model.Deriv
import Mathlib.Logic.Function.Iterate

/-!
# Model of differential operators (galgebra/dop.py and class `Dop` of galgebra/mv.py)

`V` is the type of SymPy symbols one can differentiate by.  The functions on lists of terms are
shared by scalar (`Sdop`) and multivector (`Dop`) operators, so they take the operations of the
coefficients as arguments: `isZero c` is the negation of `c != S.Zero` (or `c != 0`), `add` is `+`.
-/

namespace GA

section pdop
variable {V : Type*} [DecidableEq V]

/-- Equality of Python dictionaries: the same keys with the same values, in any order. -/
def Dict.eqv {W : Type*} [DecidableEq W] (d d' : Dict V W) : Bool :=
  decide (d.length = d'.length) && d.all fun kv => decide (d'.get? kv.1 = some kv.2)

/-- dop.py:271-334 `Pdop`: the dictionary `pdiffs`, number of differentiations by each symbol. -/
abbrev Pdop (V : Type*) := Dict V ℕ

/-- dop.py:307-313 `Pdop.__eq__` of two operators. -/
def Pdop.eqv (p q : Pdop V) : Bool := Dict.eqv p q

/-- dop.py:329-330 `Pdop(symbol)`. -/
def Pdop.single (x : V) : Pdop V := [(x, 1)]

/-- dop.py:334 attribute `order`. -/
def Pdop.order (p : Pdop V) : ℕ := (p.map Prod.snd).sum

/-- dop.py:336-343 `Pdop._eval_derivative_n_times`. -/
def Pdop.diff (x : V) (n : ℕ) (p : Pdop V) : Pdop V :=
  match p.get? x with
  | some k => p.set x (k + n)
  | none => p.set x n

/-- dop.py:345-352 `Pdop.__call__`; `d x n` is `_basic_diff(·, x, n)` (dop.py:260-268) for the type of
the argument. -/
def Pdop.call {β : Type*} (d : V → ℕ → β → β) (p : Pdop V) (arg : β) : β :=
  p.foldl (fun arg xn => d xn.1 xn.2 arg) arg

/-- dop.py:354-355 `Pdop * Pdop`. -/
def Pdop.mul (p q : Pdop V) : Pdop V := p.call Pdop.diff q

/-- `_basic_diff` of a SymPy expression: SymPy's `diff(f, x, n)`. -/
def basicDiff {R : Type*} (D : V → R → R) (x : V) (n : ℕ) (f : R) : R := (D x)^[n] f

end pdop

section terms
variable {V : Type*} [DecidableEq V] {α : Type*}

/-- `index = pdiffs.index(pd); coefs[index] += coef`, or two `append`s if `pd` is not present
(dop.py:25-31, 43-49). -/
def accum (add : α → α → α) : List (α × Pdop V) → α → Pdop V → List (α × Pdop V)
  | [], coef, pd => [(coef, pd)]
  | t :: ts, coef, pd =>
    if t.2.eqv pd then (add t.1 coef, t.2) :: ts else t :: accum add ts coef pd

/-- dop.py:18-32 `_consolidate_terms`. -/
def consolidateTerms (isZero : α → Bool) (add : α → α → α) (terms : List (α × Pdop V)) :
    List (α × Pdop V) :=
  terms.foldl (fun new t => if isZero t.1 then new else accum add new t.1 t.2) []

/-- dop.py:35-52 `_merge_terms`.  Simplification: `S.Zero`, the initial coefficient, is the zero of
the type of coefficients. -/
def mergeTerms (isZero : α → Bool) (add : α → α → α) (zero : α)
    (terms1 terms2 : List (α × Pdop V)) : List (α × Pdop V) :=
  let pdiffs1 := terms1.map Prod.snd
  let pdiffs2 := terms2.map Prod.snd
  let pdiffs := pdiffs1 ++ pdiffs2.filter fun x => !(pdiffs1.any fun y => y.eqv x)
  let init := pdiffs.map fun p => (zero, p)
  let acc1 := terms1.foldl (fun a t => accum add a t.1 t.2) init
  let acc2 := terms2.foldl (fun a t => accum add a t.1 t.2) acc1
  acc2.filter fun t => !isZero t.1

/-- dop.py:57-67: one round of `_eval_derivative_n_times_terms`.  (A `Pdop` is never equal to 0.) -/
def diffTermsOnce (isZero : α → Bool) (d : V → ℕ → α → α) (x : V) (terms : List (α × Pdop V)) :
    List (α × Pdop V) :=
  terms.flatMap fun t =>
    (if isZero (d x 1 t.1) then [] else [(d x 1 t.1, t.2)]) ++ [(t.1, t.2.diff x 1)]

/-- dop.py:55-68 `_eval_derivative_n_times_terms`. -/
def diffTerms (isZero : α → Bool) (add : α → α → α) (d : V → ℕ → α → α) (x : V) (n : ℕ)
    (terms : List (α × Pdop V)) : List (α × Pdop V) :=
  consolidateTerms isZero add ((diffTermsOnce isZero d x)^[n] terms)

end terms

/-! ### Scalar operators -/

section sdop
variable {V : Type*} [DecidableEq V] {R : Type*} [CommRing R] [DecidableEq R]

/-- dop.py:77-90 `Sdop`: the attribute `terms`. -/
abbrev Sdop (R V : Type*) := List (R × Pdop V)

/-- dop.py:202-208 `Sdop.__call__` on an expression.  (Without terms it adds one term with coefficient
zero: the value is zero.) -/
def Sdop.call (D : V → R → R) (s : Sdop R V) (f : R) : R :=
  (s.map fun t => t.1 * t.2.call (basicDiff D) f).foldl (· + ·) 0

/-- dop.py:97-105 `Sdop.consolidate_coefs`. -/
def Sdop.consolidate (s : Sdop R V) : Sdop R V :=
  consolidateTerms (fun c => decide (c = 0)) (· + ·) s

/-- dop.py:210-211 `Sdop.__neg__`. -/
def Sdop.neg (s : Sdop R V) : Sdop R V := s.map fun t => (-t.1, t.2)

/-- dop.py:213-225 `Sdop.Add` of two operators. -/
def Sdop.add (s t : Sdop R V) : Sdop R V := mergeTerms (fun c => decide (c = 0)) (· + ·) 0 s t

/-- dop.py:217-225: `D + c` for a scalar `c`. -/
def Sdop.addScalar (s : Sdop R V) (c : R) : Sdop R V := Sdop.add s [(c, [])]

/-- dop.py:217-225: `c + D` for a scalar `c`. -/
def Sdop.scalarAdd (c : R) (s : Sdop R V) : Sdop R V := Sdop.add [(c, [])] s

/-- dop.py:240-241 `Sdop.__sub__`. -/
def Sdop.sub (s t : Sdop R V) : Sdop R V := Sdop.add s t.neg

/-- dop.py:243-244 `Sdop.__rsub__`: `c - D` for a scalar `c`, computed as `-D + c`. -/
def Sdop.scalarSub (c : R) (s : Sdop R V) : Sdop R V := Sdop.addScalar s.neg c

/-- dop.py:227-232 `Sdop.__eq__`. -/
def Sdop.eq (s t : Sdop R V) : Bool := decide ((Sdop.sub s t).length = 0)

/-- dop.py:250-251 `Sdop.__rmul__`: `c * D`. -/
def Sdop.smul (c : R) (s : Sdop R V) : Sdop R V := s.map fun t => (c * t.1, t.2)

/-- dop.py:253-254 `Sdop._eval_derivative_n_times`. -/
def Sdop.diff (D : V → R → R) (x : V) (n : ℕ) (s : Sdop R V) : Sdop R V :=
  diffTerms (fun c => decide (c = 0)) (· + ·) (basicDiff D) x n s

/-- dop.py:202-208, 246-248: `Sdop * Sdop`, i.e. `__call__` on an operator; `sum` starts with
`0 + first`, which is `Sdop.Add(0, first)`.  (Without terms the added term with coefficient zero has
coefficients zero, which the sum removes.) -/
def Sdop.mul (D : V → R → R) (s t : Sdop R V) : Sdop R V :=
  match s.map fun c => Sdop.smul c.1 (c.2.call (Sdop.diff D) t) with
  | [] => []
  | u :: us => us.foldl Sdop.add (Sdop.scalarAdd 0 u)

end sdop

/-! ### Multivector operators -/

section dop
variable {V : Type*} [DecidableEq V] {n : ℕ} {K : Type*} [Field K] [DecidableEq K]
  [Invertible (2 : K)]

/-- The products `'*'`, `'^'`, `'|'`, `'<'`, `'>'`. -/
inductive ProdOp | geo | outer | inner | left | right
deriving DecidableEq, Repr

/-- mv.py:94-115 `Mv.Mul`. -/
def Mv.mulOp (g : Matrix (Fin n) (Fin n) K) : ProdOp → Mv K n → Mv K n → Mv K n
  | .geo => Mv.mul g
  | .outer => Mv.wedge g
  | .inner => Mv.dot g
  | .left => Mv.left g
  | .right => Mv.right g

/-- What derivatives of multivector fields depend on: the metric tensor, the derivatives `conn` of
the basis vectors (`Ga.de`, `none` if `connect_flg` is false), SymPy's `diff` by each symbol and the
position of each symbol in `Ga.coords` (`none`: the symbol is not a coordinate). -/
structure Fields (V K : Type*) (n : ℕ) where
  g : Matrix (Fin n) (Fin n) K
  conn : Option (Fin n → Fin n → Expr K n)
  D : V → K → K
  idx : V → Option (Fin n)

/-- The algebra with coordinates `Fin n`, metric tensor `g0` (normalised by `e_norm` if `N = some e_norm`)
and derivatives `conn` of its basis vectors (ga.py:655-725, metric.py:676-843). -/
def Fields.ofMetric (D : Fin n → K → K) (g0 : Matrix (Fin n) (Fin n) K) (N : Option (Fin n → K))
    (conn : Option (Fin n → Fin n → Expr K n)) : Fields (Fin n) K n :=
  ⟨currentMetric N g0, conn, D, some⟩

/-- mv.py:1543-1546 `Mv._eval_derivative_n_times`.  Simplification: if `pDiff` raises, the result is a
multivector with the symbol `error`. -/
def Mv.diffN (X : Fields V K n) (x : V) (k : ℕ) (A : Mv K n) : Mv K n :=
  (fun A => ((A.pDiff X.g X.conn (X.D x) (X.idx x)).getD (Mv.ofExpr errorE)))^[k] A

/-- mv.py:1583-1687 `Dop`: the attributes `terms` and `cmpflg`. -/
structure Dop (V K : Type*) (n : ℕ) where
  terms : List (Mv K n × Pdop V)
  cmpflg : Bool

/-- The negation of `coef != S.Zero` for a multivector (mv.py:479-485). -/
def Mv.eqZero (g : Matrix (Fin n) (Fin n) K) (A : Mv K n) : Bool :=
  A.isScalar g && decide (A.obj = [])

/-- mv.py:1698-1702 `Dop.consolidate_coefs`. -/
def Dop.consolidate (X : Fields V K n) (d : Dop V K n) : Dop V K n :=
  ⟨consolidateTerms (Mv.eqZero X.g) (Mv.add X.g) d.terms, d.cmpflg⟩

/-- mv.py:1704-1714 `Dop.Add` of two operators of one algebra; `none`: `ValueError`, the complement
flags differ. -/
def Dop.add (X : Fields V K n) (d e : Dop V K n) : Option (Dop V K n) :=
  if d.cmpflg = e.cmpflg then
    some ⟨mergeTerms (Mv.eqZero X.g) (Mv.add X.g) Mv.zero d.terms e.terms, d.cmpflg⟩
  else none

/-- mv.py:1715-1727 `Dop.Add` of an operator and a multivector, `D + A`. -/
def Dop.addMv (X : Fields V K n) (d : Dop V K n) (A : Mv K n) : Option (Dop V K n) :=
  d.add X ⟨[(A, [])], d.cmpflg⟩

/-- mv.py:1715-1727 `Dop.Add` of a multivector and an operator, `A + D`. -/
def Dop.mvAdd (X : Fields V K n) (A : Mv K n) (d : Dop V K n) : Option (Dop V K n) :=
  Dop.add X ⟨[(A, [])], d.cmpflg⟩ d

/-- mv.py:1735-1739 `Dop.__neg__`. -/
def Dop.neg (d : Dop V K n) : Dop V K n := ⟨d.terms.map fun t => (t.1.neg, t.2), d.cmpflg⟩

/-- mv.py:1741-1742 `Dop.__sub__`. -/
def Dop.sub (X : Fields V K n) (d e : Dop V K n) : Option (Dop V K n) := d.add X e.neg

/-- mv.py:1840-1848 `Dop.__eq__`; `none`: `ValueError` of the subtraction. -/
def Dop.eq (X : Fields V K n) (d e : Dop V K n) : Option Bool :=
  (d.sub X e).map fun f => decide (f.terms.length = 0)

/-- mv.py:1977-1978 `Dop._eval_derivative_n_times`. -/
def Dop.diff (X : Fields V K n) (x : V) (k : ℕ) (d : Dop V K n) : Dop V K n :=
  ⟨diffTerms (Mv.eqZero X.g) (Mv.add X.g) (Mv.diffN X) x k d.terms, d.cmpflg⟩

/-- mv.py:1770-1787 `Dop.Mul(A, D)` of a multivector and an operator: an operator if `D` operates on
the right, a multivector if it operates on the left. -/
def Dop.mvMul (X : Fields V K n) (op : ProdOp) (A : Mv K n) (d : Dop V K n) : Mv K n ⊕ Dop V K n :=
  if d.cmpflg = false then
    .inr (Dop.consolidate X ⟨d.terms.map fun t => (Mv.mulOp X.g op A t.1, t.2), false⟩)
  else
    .inl ((d.terms.map fun t => Mv.mulOp X.g op (t.2.call (Mv.diffN X) A) t.1).foldl (Mv.add X.g)
      (Mv.scalarMv 0))

/-- mv.py:1788-1802 `Dop.Mul(D, A)` of an operator and a multivector: a multivector if `D` operates on
the right, an operator if it operates on the left. -/
def Dop.mulMv (X : Fields V K n) (op : ProdOp) (d : Dop V K n) (A : Mv K n) : Mv K n ⊕ Dop V K n :=
  if d.cmpflg = false then
    .inl ((d.terms.map fun t => Mv.mulOp X.g op t.1 (t.2.call (Mv.diffN X) A)).foldl (Mv.add X.g)
      (Mv.scalarMv 0))
  else
    .inr (Dop.consolidate X ⟨d.terms.map fun t => (Mv.mulOp X.g op t.1 A, t.2), true⟩)

/-- `sum` of results of `Dop.Mul` with an initial operator; `none`: an exception, or a sum of
operators and multivectors (which does not occur). -/
def Dop.sum (X : Fields V K n) (init : Dop V K n) (l : List (Mv K n ⊕ Dop V K n)) :
    Option (Dop V K n) :=
  l.foldlM (fun acc s => match s with
    | .inr d => acc.add X d
    | .inl _ => none) init

/-- mv.py:1747-1769, 1802 `Dop.Mul` of two operators; `none`: `ValueError`, the complement flags
differ. -/
def Dop.mul (X : Fields V K n) (op : ProdOp) (d e : Dop V K n) : Option (Dop V K n) :=
  if d.cmpflg = e.cmpflg then
    (if d.cmpflg = false then
      Dop.sum X ⟨[], false⟩ (d.terms.map fun t => Dop.mvMul X op t.1 (t.2.call (Dop.diff X) e))
    else
      Dop.sum X ⟨[], true⟩ (e.terms.map fun t => Dop.mulMv X op (t.2.call (Dop.diff X) d) t.1)).map
        (Dop.consolidate X)
  else none

/-- mv.py:1809-1814 `Dop.__truediv__` by a scalar; `none`: division by zero. -/
def Dop.divScalar (d : Dop V K n) (c : K) : Option (Dop V K n) :=
  if c = 0 then none else some ⟨d.terms.map fun t => (t.1.smul c⁻¹, t.2), d.cmpflg⟩

end dop

end GA
