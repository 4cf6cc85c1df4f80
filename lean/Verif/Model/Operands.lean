import Verif.Model.Mv

/-!
# Model of the binary operators of multivectors and scalars (mv.py), with Python's dispatch

In `x op y` one operand may be a number or a SymPy expression without blades.  If it is the left one,
Python calls the reflected method of the right operand; for `<` and `>` this is the other comparison.
Simplification: the scalar is an element of `R`, which leaves the operation to the multivector, as
Python's numbers and SymPy's expressions do here.
-/

namespace GA
variable {n : ℕ} {R : Type*} [CommRing R] [DecidableEq R]

/-- An operand of a binary operator. -/
inductive Operand (R : Type*) (n : ℕ)
  | scalar (c : R)
  | mv (A : Mv R n)

/-- The binary operators of `Mv`. -/
inductive BinOp
  | add | sub | mul | wedge | dot | left | right | antiComm | comm
deriving DecidableEq, Repr

/-- The operand as a multivector, `Mv(c)` for a scalar. -/
def Operand.toMv : Operand R n → Mv R n
  | .scalar c => Mv.scalarMv c
  | .mv A => A

section half
variable [Invertible (2 : R)] (g : Matrix (Fin n) (Fin n) R)

/-- The operators with two multivectors (`Verif.Model.Mv`). -/
def BinOp.onMvs : BinOp → Mv R n → Mv R n → Mv R n
  | .add, A, B => A.add g B
  | .sub, A, B => A.sub g B
  | .mul, A, B => A.mul g B
  | .wedge, A, B => A.wedge g B
  | .dot, A, B => A.dot g B
  | .left, A, B => A.left g B
  | .right, A, B => A.right g B
  | .antiComm, A, B => A.antiComm g B
  | .comm, A, B => A.comm g B

/-- mv.py:861-862, in `__lt__`: `Mv(A * self.scalar())`. -/
def Mv.leftScalar (A : Mv R n) (c : R) : Mv R n := Mv.ofExpr (scalarE (c * A.scalar))

/-- mv.py:789-790, 802-806, 881-882, in `__xor__`, `__rxor__` and `__gt__`: `Mv(A * self.obj)`. -/
def Mv.timesScalar (A : Mv R n) (c : R) : Mv R n := Mv.ofExpr (smulE c A.obj)

/-- The operators with a multivector on the left and a scalar on the right: mv.py:521-522 (`+`, `-`),
554-555 (`*`), 789-790 (`^`), 812-813 (`|`), 861-862 (`<`), 881-882 (`>`), 840-841 (`<<`),
843-844 (`>>`). -/
def BinOp.mvScalar : BinOp → Mv R n → R → Mv R n
  | .add, A, c => A.addScalar c
  | .sub, A, c => Mv.ofExpr (subE A.obj (scalarE c))
  | .mul, A, c => A.smul c
  | .wedge, A, c => A.timesScalar c
  | .dot, _, _ => Mv.zero
  | .left, A, c => A.leftScalar c
  | .right, A, c => A.timesScalar c
  | .antiComm, A, c => Mv.smul ⅟2 ((A.smul c).add g (A.smul c))
  | .comm, A, c => Mv.smul ⅟2 ((A.smul c).sub g (A.smul c))

/-- The operators with a scalar on the left and a multivector on the right: mv.py:541-542, 547-548
(`__radd__`, `__rsub__`), 587-590 (`__rmul__`), 802-806 (`__rxor__`), 822-826 (`__ror__`), `A > c` and
`A < c` for `c < A` and `c > A`, 846-850 (`__rlshift__`, `__rrshift__`). -/
def BinOp.scalarMv : BinOp → R → Mv R n → Mv R n
  | .add, c, A => A.addScalar c
  | .sub, c, A => Mv.scalarSub c A
  | .mul, c, A => A.smul c
  | .wedge, c, A => A.timesScalar c
  | .dot, _, _ => Mv.zero
  | .left, c, A => A.timesScalar c
  | .right, c, A => A.leftScalar c
  | .antiComm, c, A => Mv.smul ⅟2 ((A.smul c).add g (A.smul c))
  | .comm, c, A => Mv.smul ⅟2 ((A.smul c).sub g (A.smul c))

/-- The expression `x op y`; `none`: neither operand is a multivector. -/
def BinOp.apply (op : BinOp) : Operand R n → Operand R n → Option (Mv R n)
  | .mv A, .mv B => some (op.onMvs g A B)
  | .mv A, .scalar c => some (op.mvScalar g A c)
  | .scalar c, .mv A => some (op.scalarMv g c A)
  | .scalar _, .scalar _ => none

end half

/-- mv.py:592-596 `__truediv__` and mv.py:598-600 `__rtruediv__`: `x / y`.  `none`: neither operand is a multivector,
there is no inverse, or a division by zero. -/
def divide {K : Type*} [Field K] [DecidableEq K] [Invertible (2 : K)]
    (g : Matrix (Fin n) (Fin n) K) : Operand K n → Operand K n → Option (Mv K n)
  | .mv A, .mv B => (B.inv g).map fun Binv => A.mul g Binv
  | .mv A, .scalar c => A.divScalar c
  | .scalar c, .mv A => (A.inv g).map fun Ainv => (Mv.scalarMv c).mul g Ainv
  | .scalar _, .scalar _ => none

end GA
