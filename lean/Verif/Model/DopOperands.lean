import Verif.Model.Dop
import Verif.Model.Operands

/-!
# Model of the binary operators of differential operators, with Python's dispatch

An operand is a number or SymPy expression, a multivector, a `Pdop`, an `Sdop` or a `Dop`.  In `x op y`
Python calls the method of `x`; if it returns `NotImplemented`, or if there is none, it calls the
reflected method of `y` (for `<` this is `>`), and if this fails too it raises `TypeError`.  Numbers and
SymPy expressions return `NotImplemented` for all the other classes.

Simplifications: all operands belong to one geometric algebra; all exceptions are one value `raised`;
`S(x)` of an operator, in `Mv(x)` (mv.py:375-376), raises `SympifyError`.
-/

namespace GA

/-- The result of a method. -/
inductive Res (α : Type*)
  | notImplemented
  | raised
  | ok (x : α)

/-- `f` of a result; exceptions pass through. -/
def Res.bind {α β : Type*} : Res α → (α → Res β) → Res β
  | .notImplemented, _ => .notImplemented
  | .raised, _ => .raised
  | .ok x, f => f x

/-- An optional value, where `none` is an exception. -/
def Res.ofOption {α : Type*} : Option α → Res α
  | none => .raised
  | some x => .ok x

section values
variable {n : ℕ} {K : Type*} [Field K] [DecidableEq K] [Invertible (2 : K)] {V : Type*} [DecidableEq V]

/-- `x + y` of numbers, expressions and multivectors (`Verif.Model.Operands`). -/
def Operand.add (g : Matrix (Fin n) (Fin n) K) : Operand K n → Operand K n → Operand K n
  | .scalar a, .scalar b => .scalar (a + b)
  | .scalar a, .mv B => .mv (BinOp.add.scalarMv g a B)
  | .mv A, .scalar b => .mv (BinOp.add.mvScalar g A b)
  | .mv A, .mv B => .mv (A.add g B)

/-- `x - y` of numbers, expressions and multivectors. -/
def Operand.sub (g : Matrix (Fin n) (Fin n) K) : Operand K n → Operand K n → Operand K n
  | .scalar a, .scalar b => .scalar (a - b)
  | .scalar a, .mv B => .mv (BinOp.sub.scalarMv g a B)
  | .mv A, .scalar b => .mv (BinOp.sub.mvScalar g A b)
  | .mv A, .mv B => .mv (A.sub g B)

/-- `x * y` of numbers, expressions and multivectors. -/
def Operand.mul (g : Matrix (Fin n) (Fin n) K) : Operand K n → Operand K n → Operand K n
  | .scalar a, .scalar b => .scalar (a * b)
  | .scalar a, .mv B => .mv (BinOp.mul.scalarMv g a B)
  | .mv A, .scalar b => .mv (BinOp.mul.mvScalar g A b)
  | .mv A, .mv B => .mv (A.mul g B)

/-- `-x` of numbers, expressions and multivectors. -/
def Operand.neg : Operand K n → Operand K n
  | .scalar a => .scalar (-a)
  | .mv A => .mv A.neg

/-- The negation of `x != S.Zero`. -/
def Operand.isZero (g : Matrix (Fin n) (Fin n) K) : Operand K n → Bool
  | .scalar a => decide (a = 0)
  | .mv A => A.eqZero g

/-- dop.py:260-268 `_basic_diff` of an expression or a multivector. -/
def Operand.diff (X : Fields V K n) (x : V) (k : ℕ) : Operand K n → Operand K n
  | .scalar a => .scalar (basicDiff X.D x k a)
  | .mv A => .mv (A.diffN X x k)

end values

section objects
variable {n : ℕ} {K : Type*} [Field K] [DecidableEq K] [Invertible (2 : K)] {V : Type*} [DecidableEq V]

/-- dop.py:77-90: the attribute `terms` of an `Sdop` made with the operators of Python; the coefficients
are expressions, or multivectors as in `A * Pdop(x)`. -/
abbrev Osdop (V K : Type*) (n : ℕ) := List (Operand K n × Pdop V)

/-- The operands of the binary operators. -/
inductive DObj (V K : Type*) (n : ℕ)
  | val (o : Operand K n)
  | pdop (p : Pdop V)
  | sdop (s : Osdop V K n)
  | dop (d : Dop V K n)

/-- dop.py:210-211 `Sdop.__neg__`. -/
def Osdop.neg (s : Osdop V K n) : Osdop V K n := s.map fun t => (t.1.neg, t.2)

/-- dop.py:216, 35-52: the sum of two `Sdop`s. -/
def Osdop.add (X : Fields V K n) (s t : Osdop V K n) : Osdop V K n :=
  mergeTerms (Operand.isZero X.g) (Operand.add X.g) (.scalar 0) s t

/-- dop.py:250-251 `Sdop.__rmul__`. -/
def Osdop.smul (X : Fields V K n) (o : Operand K n) (s : Osdop V K n) : Osdop V K n :=
  s.map fun t => (o.mul X.g t.1, t.2)

/-- dop.py:253-254 `Sdop._eval_derivative_n_times`. -/
def Osdop.diff (X : Fields V K n) (x : V) (k : ℕ) (s : Osdop V K n) : Osdop V K n :=
  diffTerms (Operand.isZero X.g) (Operand.add X.g) (Operand.diff X) x k s

/-- dop.py:213-225 `Sdop.Add`. -/
def sdopAdd (X : Fields V K n) : DObj V K n → DObj V K n → Res (DObj V K n)
  | .sdop s, .sdop t => .ok (.sdop (s.add X t))
  | .sdop s, .val o => .ok (.sdop (s.add X [(o, [])]))
  | .val o, .sdop t => .ok (.sdop (Osdop.add X [(o, [])] t))
  | _, _ => .notImplemented

/-- mv.py:1704-1727 `Dop.Add`. -/
def dopAdd (X : Fields V K n) : DObj V K n → DObj V K n → Res (DObj V K n)
  | .dop d, .dop e => .ofOption ((d.add X e).map .dop)
  | .dop d, .val o => .ofOption ((d.addMv X o.toMv).map .dop)
  | .val o, .dop e => .ofOption ((Dop.mvAdd X o.toMv e).map .dop)
  | _, _ => .raised

/-- The multivector or operator that `Dop.Mul` returns. -/
def DObj.ofSum : Mv K n ⊕ Dop V K n → DObj V K n
  | .inl A => .val (.mv A)
  | .inr d => .dop d

/-- mv.py:1788-1802 `Dop.Mul(D, c)` of an operator and a number, an expression or a multivector. -/
def Dop.mulVal (X : Fields V K n) (op : ProdOp) (d : Dop V K n) (o : Operand K n) : DObj V K n :=
  if d.cmpflg = false then
    .val (.mv ((d.terms.map fun t => Mv.mulOp X.g op t.1 (t.2.call (Operand.diff X) o).toMv).foldl
      (Mv.add X.g) (Mv.scalarMv 0)))
  else .ofSum (d.mulMv X op o.toMv)

/-- mv.py:1747-1802 `Dop.Mul`.  A `Pdop` or `Sdop` is converted to a multivector, which raises an exception,
at once on the left (1772) and in each term on the right (1793, 1799; mv.py:100-101). -/
def dopMul (X : Fields V K n) (op : ProdOp) : DObj V K n → DObj V K n → Res (DObj V K n)
  | .dop d, .dop e => .ofOption ((d.mul X op e).map .dop)
  | .val o, .dop e => .ok (.ofSum (Dop.mvMul X op o.toMv e))
  | .dop d, .val o => .ok (d.mulVal X op o)
  | .dop d, _ =>
    if d.terms.isEmpty then
      .ok (if d.cmpflg = false then .val (.mv (Mv.scalarMv 0)) else .dop ⟨[], true⟩)
    else .raised
  | _, _ => .raised

/-! ### Sums and differences -/

/-- `x.__add__(y)`: mv.py:516-539 (`Mv`), dop.py:234-235 (`Sdop`), mv.py:1729-1730 (`Dop`); `Pdop` has no
such method. -/
def addMeth (X : Fields V K n) : DObj V K n → DObj V K n → Res (DObj V K n)
  | .val o, .val o' => .ok (.val (o.add X.g o'))
  | .val _, _ => .notImplemented
  | .pdop _, _ => .notImplemented
  | .sdop s, y => sdopAdd X (.sdop s) y
  | .dop d, y => dopAdd X (.dop d) y

/-- `y.__radd__(x)`: mv.py:541-542, dop.py:237-238, mv.py:1732-1733. -/
def raddMeth (X : Fields V K n) (x : DObj V K n) : DObj V K n → Res (DObj V K n)
  | .val _ => .notImplemented
  | .pdop _ => .notImplemented
  | .sdop t => sdopAdd X x (.sdop t)
  | .dop e => dopAdd X x (.dop e)

/-- `-x`: dop.py:210-211, mv.py:1735-1739, mv.py:513-514; `Pdop` has no such method. -/
def DObj.neg : DObj V K n → Res (DObj V K n)
  | .val o => .ok (.val o.neg)
  | .pdop _ => .raised
  | .sdop s => .ok (.sdop s.neg)
  | .dop d => .ok (.dop d.neg)

/-- `x.__sub__(y)`: mv.py:544-545, dop.py:240-241, mv.py:1741-1742. -/
def subMeth (X : Fields V K n) : DObj V K n → DObj V K n → Res (DObj V K n)
  | .val o, .val o' => .ok (.val (o.sub X.g o'))
  | .val _, _ => .notImplemented
  | .pdop _, _ => .notImplemented
  | .sdop s, y => y.neg.bind fun y' => sdopAdd X (.sdop s) y'
  | .dop d, y => y.neg.bind fun y' => dopAdd X (.dop d) y'

/-- `y.__rsub__(x)`: mv.py:547-548, dop.py:243-244, mv.py:1744-1745. -/
def rsubMeth (X : Fields V K n) (x : DObj V K n) : DObj V K n → Res (DObj V K n)
  | .val _ => .notImplemented
  | .pdop _ => .notImplemented
  | .sdop t => sdopAdd X (.sdop t.neg) x
  | .dop e => dopAdd X x (.dop e.neg)

/-- Python's binary operator: the method of the left operand, then the reflected method of the right
one, then `TypeError`. -/
def Res.orElse {α : Type*} : Res α → Res α → Res α
  | .notImplemented, .notImplemented => .raised
  | .notImplemented, r => r
  | r, _ => r

/-- The expression `x + y`. -/
def DObj.add (X : Fields V K n) (x y : DObj V K n) : Res (DObj V K n) :=
  (addMeth X x y).orElse (raddMeth X x y)

/-- The expression `x - y`. -/
def DObj.sub (X : Fields V K n) (x y : DObj V K n) : Res (DObj V K n) :=
  (subMeth X x y).orElse (rsubMeth X x y)

/-! ### Products -/

/-- dop.py:260-268 `_basic_diff`: derivatives of all operands (dop.py:253-254, 336-343, mv.py:1543-1546,
1977-1978). -/
def DObj.diff (X : Fields V K n) (x : V) (k : ℕ) : DObj V K n → DObj V K n
  | .val o => .val (o.diff X x k)
  | .pdop p => .pdop (p.diff x k)
  | .sdop s => .sdop (s.diff X x k)
  | .dop d => .dop (d.diff X x k)

/-- `c * y` for a number, expression or multivector `c`: mv.py:550-590, dop.py:357-359
(`Pdop.__rmul__`), dop.py:250-251 (`Sdop.__rmul__`), mv.py:1819-1820 (`Dop.__rmul__`). -/
def valMul (X : Fields V K n) (o : Operand K n) : DObj V K n → Res (DObj V K n)
  | .val o' => .ok (.val (o.mul X.g o'))
  | .pdop p => .ok (.sdop [(o, p)])
  | .sdop s => .ok (.sdop (s.smul X o))
  | .dop d => dopMul X .geo (.val o) (.dop d)

/-- dop.py:202-208 `Sdop.__call__`, the value for an operator without terms: zero times the derivative of
the argument by an unused symbol. -/
def zeroLike : DObj V K n → DObj V K n
  | .val (.scalar _) => .val (.scalar 0)
  | .val (.mv _) => .val (.mv Mv.zero)
  | .pdop _ => .sdop []
  | .sdop _ => .sdop []
  | .dop d => if d.cmpflg = false then .dop ⟨[], false⟩ else .val (.mv Mv.zero)

/-- dop.py:208: adding `coef * pdiff(arg)` to the sum. -/
def sdopStep (X : Fields V K n) (y : DObj V K n) (acc : Res (DObj V K n)) (t : Operand K n × Pdop V) :
    Res (DObj V K n) :=
  acc.bind fun a => (valMul X t.1 (t.2.call (DObj.diff X) y)).bind fun b => a.add X b

/-- dop.py:202-208, 246-248 `Sdop.__mul__` and `Sdop.__call__`: the `sum` of `coef * pdiff(arg)`, which
starts with `0`. -/
def sdopCall (X : Fields V K n) (s : Osdop V K n) (y : DObj V K n) : Res (DObj V K n) :=
  if s.isEmpty then .ok (zeroLike y)
  else s.foldl (sdopStep X y) (.ok (.val (.scalar 0)))

/-- The expression `x * y`: the methods above, dop.py:354-355 (`Pdop.__mul__`) and mv.py:1816-1817
(`Dop.__mul__`). -/
def DObj.mul (X : Fields V K n) : DObj V K n → DObj V K n → Res (DObj V K n)
  | .val o, y => valMul X o y
  | .pdop p, y => .ok (p.call (DObj.diff X) y)
  | .sdop s, y => sdopCall X s y
  | .dop d, y => dopMul X .geo (.dop d) y

/-- The expressions `x ^ y`, `x | y`, `x < y` and `x > y` (`op` not `.geo`): `Pdop` and `Sdop` have no such
methods; mv.py:785-826, 1822-1832 for `^` and `|`; mv.py:852-890 and 1834-1838 for `<` and `>`, where Python
calls `y > x` for `x < y` if `x` is a number or an expression, or a `Pdop` or `Sdop`. -/
def DObj.prod (X : Fields V K n) (op : ProdOp) : DObj V K n → DObj V K n → Res (DObj V K n)
  | .val (.mv A), .val o => .ok (.val (.mv (match o, op with
    | .mv B, op => Mv.mulOp X.g op A B
    | .scalar c, .outer => BinOp.wedge.mvScalar X.g A c
    | .scalar c, .inner => BinOp.dot.mvScalar X.g A c
    | .scalar c, .left => BinOp.left.mvScalar X.g A c
    | .scalar c, .right => BinOp.right.mvScalar X.g A c
    | .scalar c, .geo => BinOp.mul.mvScalar X.g A c)))
  | .val (.scalar c), .val (.mv B) => .ok (.val (.mv (match op with
    | .outer => BinOp.wedge.scalarMv X.g c B
    | .inner => BinOp.dot.scalarMv X.g c B
    | .left => BinOp.left.scalarMv X.g c B
    | .right => BinOp.right.scalarMv X.g c B
    | .geo => BinOp.mul.scalarMv X.g c B)))
  | .val (.mv A), .dop d => dopMul X op (.val (.mv A)) (.dop d)
  | .dop d, y => dopMul X op (.dop d) y
  | x, .dop d => match op with
    | .left => dopMul X .right (.dop d) x
    | .right => dopMul X .left (.dop d) x
    | op => dopMul X op x (.dop d)
  | _, _ => .raised

end objects

end GA
