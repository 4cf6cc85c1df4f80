import Verif.Model.Ga
import Mathlib.Algebra.Field.Defs

/-!
# Model of the class `Mv` (galgebra/mv.py)

A multivector is its expression `obj` and the flag `is_blade_rep`.  The algebra (metric tensor `g`)
is an explicit argument; multivectors of different algebras are not modelled here.
Simplification: the constructor and the conversions store the expanded expression.  In Python `obj` may be unexpanded,
but every reader of `obj` expands it first (`linear_expand`, `expand`, `Ga.grades`, ...).
Caches (`grades`, `i_grade`, `blade_flg`, `versor_flg`) are the subject of `Verif/Model/Cache`.
-/

namespace GA

variable {n : ℕ} {R : Type*} [CommRing R] [DecidableEq R]

/-- mv.py:45-60, 361-371: fields `obj` and `is_blade_rep`. -/
structure Mv (R : Type*) (n : ℕ) where
  obj : Expr R n
  isBladeRep : Bool
deriving DecidableEq, Repr

/-- mv.py:384-392 with mv.py:117-169 `characterise_Mv`: `Mv(expr)`.  The flag is recomputed from the
symbols of the expanded expression: true unless some symbol is not in `Ga.blades.flat`. -/
def Mv.ofExpr (E : Expr R n) : Mv R n :=
  ⟨expand E, (expand E).all fun t => decide (t.2 ∈ flat (blades n))⟩

/-- mv.py:370-373: `Mv(ga=...)`, the zero multivector. -/
def Mv.zero : Mv R n := ⟨[], true⟩

/-- mv.py:215-223: `Mv(c, 'scalar')`. -/
def Mv.scalarMv (c : R) : Mv R n := Mv.ofExpr (scalarE c)

/-- mv.py:180-213, 225-228: `Mv([v1,...,vn], 'vector')`, the coefficients times the blades of grade
one. -/
def vecE (v : Fin n → R) : Expr R n := (List.finRange n).map fun i => (v i, .blade [i])

/-- mv.py:225-228 `_make_vector` with a list of coefficients. -/
def Mv.vector (v : Fin n → R) : Mv R n := Mv.ofExpr (vecE v)

/-- The expression of a single basis blade (`Ga.blades[r][i]`). -/
def bladeE (l : List (Fin n)) : Expr R n := [(1, .blade l)]

/-- mv.py:180-213 `_make_grade` with a list of coefficients: `none` is
`ValueError("Too many coefficients")`. -/
def makeGrade (coeffs : List R) (r : ℕ) : Option (Expr R n) :=
  let bl := (blades n).getD r []
  if coeffs.length ≤ bl.length then some (coeffs.zip bl) else none

section half
variable [Invertible (2 : R)] (g : Matrix (Fin n) (Fin n) R)

/-- mv.py:452-460 `Mv.base_rep`. -/
def Mv.baseRep (A : Mv R n) : Mv R n :=
  if A.isBladeRep then ⟨expand (bladeToBaseRep g A.obj), false⟩ else A

/-- mv.py:462-470 `Mv.blade_rep`. -/
def Mv.bladeRep (A : Mv R n) : Mv R n :=
  if A.isBladeRep then A else ⟨expand (baseToBladeRep g A.obj), true⟩

/-- mv.py:513-514 `__neg__`. -/
def Mv.neg (A : Mv R n) : Mv R n := Mv.ofExpr (negE A.obj)

/-- mv.py:516-537 `_arithmetic_op` with two multivectors. -/
def Mv.arith (op : Expr R n → Expr R n → Expr R n) (A B : Mv R n) : Mv R n :=
  if A.isBladeRep = B.isBladeRep then Mv.ofExpr (op A.obj B.obj)
  else if A.isBladeRep then Mv.ofExpr (op A.obj (B.bladeRep g).obj)
  else Mv.ofExpr (op (A.bladeRep g).obj B.obj)

/-- mv.py:538-539 `__add__`. -/
def Mv.add (A B : Mv R n) : Mv R n := Mv.arith g addE A B

/-- mv.py:544-545 `__sub__`. -/
def Mv.sub (A B : Mv R n) : Mv R n := Mv.arith g subE A B

/-- mv.py:521-522, 538-542: addition of a scalar, `A + c` and `c + A`. -/
def Mv.addScalar (A : Mv R n) (c : R) : Mv R n := Mv.ofExpr (addE A.obj (scalarE c))

/-- mv.py:521-522, 547-548: `c - A`. -/
def Mv.scalarSub (c : R) (A : Mv R n) : Mv R n := Mv.ofExpr (subE (scalarE c) A.obj)

/-- mv.py:554-555, 587-590: `A * c` and `c * A` with a scalar `c`. -/
def Mv.smul (c : R) (A : Mv R n) : Mv R n := Mv.ofExpr (expand (smulE c A.obj))

/-- mv.py:920-922 `is_scalar`. -/
def Mv.isScalar (A : Mv R n) : Bool := decide (grades g A.obj = some [0])

/-- mv.py:924-926 `is_vector`. -/
def Mv.isVector (A : Mv R n) : Bool := decide (grades g A.obj = some [1])

/-- mv.py:560-561: `Mv(self.obj * A)` for a scalar `self`; SymPy defers to `__rmul__`
(mv.py:587-590).  A product of two blade symbols, which would not be evaluated, is an error. -/
def Mv.scalarTimes (A B : Mv R n) : Mv R n :=
  Mv.ofExpr (expand (A.obj.flatMap fun t =>
    if t.2 = .blade [] then smulE t.1 B.obj else errorE))

/-- mv.py:550-585 `__mul__` of two multivectors. -/
def Mv.mul (A B : Mv R n) : Mv R n :=
  if A.isScalar g then Mv.scalarTimes A B
  else if A.isBladeRep && B.isBladeRep then
    let p := Mv.ofExpr (GA.mul g (A.baseRep g).obj (B.baseRep g).obj)
    Mv.bladeRep g ⟨p.obj, false⟩
  else if A.isBladeRep then
    let p := Mv.ofExpr (GA.mul g (A.baseRep g).obj B.obj)
    Mv.bladeRep g ⟨p.obj, false⟩
  else if B.isBladeRep then
    let p := Mv.ofExpr (GA.mul g A.obj (B.baseRep g).obj)
    Mv.bladeRep g ⟨p.obj, false⟩
  else Mv.ofExpr (GA.mul g A.obj B.obj)

/-- mv.py:785-800 `__xor__`. -/
def Mv.wedge (A B : Mv R n) : Mv R n :=
  if A.isScalar g then A.mul g B
  else Mv.ofExpr (GA.wedge (A.bladeRep g).obj (B.bladeRep g).obj)

/-- mv.py:808-820 `__or__`. -/
def Mv.dot (A B : Mv R n) : Mv R n :=
  Mv.ofExpr (GA.hestenesDot g (A.bladeRep g).obj (B.bladeRep g).obj)

/-- mv.py:852-870 `__lt__`: left contraction. -/
def Mv.left (A B : Mv R n) : Mv R n :=
  Mv.ofExpr (GA.leftContract g (A.bladeRep g).obj (B.bladeRep g).obj)

/-- mv.py:872-890 `__gt__`: right contraction. -/
def Mv.right (A B : Mv R n) : Mv R n :=
  Mv.ofExpr (GA.rightContract g (A.bladeRep g).obj (B.bladeRep g).obj)

/-- mv.py:479-485 `__eq__` of two multivectors: `(self - A).expand().simplify()` is zero. -/
def Mv.eq (A B : Mv R n) : Bool := decide ((A.sub g B).obj = [])

/-- mv.py:828-838 `__pow__` for a non-negative exponent. -/
def Mv.pow (A : Mv R n) : ℕ → Mv R n
  | 0 => Mv.scalarMv 1
  | k + 1 => (Mv.pow A k).mul g A

/-- mv.py:840-841 `__lshift__`, the anti-commutator. -/
def Mv.antiComm (A B : Mv R n) : Mv R n := Mv.smul ⅟2 ((A.mul g B).add g (B.mul g A))

/-- mv.py:843-844 `__rshift__`, the commutator. -/
def Mv.comm (A B : Mv R n) : Mv R n := Mv.smul ⅟2 ((A.mul g B).sub g (B.mul g A))

/-- mv.py:1031-1033 `scalar`. -/
def Mv.scalar (A : Mv R n) : R := scalarPart A.obj

/-- mv.py:1035-1037 `get_grade`. -/
def Mv.getGrade (A : Mv R n) (r : ℕ) : Mv R n := Mv.ofExpr (GA.getGrade A.obj r)

/-- mv.py:1127-1129 `even`. -/
def Mv.even (A : Mv R n) : Mv R n := Mv.ofExpr (evenOdd A.obj true)

/-- mv.py:1131-1133 `odd`. -/
def Mv.odd (A : Mv R n) : Mv R n := Mv.ofExpr (evenOdd A.obj false)

/-- mv.py:1136-1142 `g_invol`. -/
def Mv.gInvol (A : Mv R n) : Mv R n := A.even.sub g A.odd

/-- mv.py:1145-1147 `rev`. -/
def Mv.rev (A : Mv R n) : Mv R n := Mv.ofExpr (reverse (A.bladeRep g).obj)

/-- mv.py:1152-1159 `ccon`. -/
def Mv.ccon (A : Mv R n) : Mv R n := (A.gInvol g).rev g

/-- mv.py:1162-1178 `sp` with `switch = ''`. -/
def Mv.sp (A B : Mv R n) : R := (A.mul g B).scalar

/-- mv.py:1162-1178 `sp` with `switch = 'rev'`. -/
def Mv.spRev (A B : Mv R n) : R := ((A.rev g).mul g B).scalar

/-- mv.py:1316-1323 `qform`. -/
def Mv.qform (A : Mv R n) : R := ((A.rev g).mul g A).scalar

/-- mv.py:1028-1029 `is_zero`. -/
def Mv.isZero (A : Mv R n) : Bool := decide (A.obj = [])

end half

/-- mv.py:1069-1090 `blade_coefs()` of all basis blades. -/
def Mv.bladeCoefs (A : Mv R n) : List R :=
  (flat (blades n)).map fun b =>
    match (linearExpand A.obj).find? fun t => decide (t.2 = b) with
    | some t => t.1
    | none => 0

section field
variable {K : Type*} [Field K] [DecidableEq K] [Invertible (2 : K)]
  (g : Matrix (Fin n) (Fin n) K)

/-- mv.py:592-596 `__truediv__` by a scalar; `none` is a division by zero (`zoo`). -/
def Mv.divScalar (A : Mv K n) (c : K) : Option (Mv K n) :=
  if c = 0 then none else some (A.smul c⁻¹)

/-- mv.py:1402-1420 `inv`.  `none`: `TypeError`, or a division by zero, for which SymPy returns
the undefined value `zoo`. -/
def Mv.inv (A : Mv K n) : Option (Mv K n) :=
  if A.isScalar g then
    if scalarPart A.obj = 0 then none else some (Mv.scalarMv (scalarPart A.obj)⁻¹)
  else
    let sq := A.mul g A
    if sq.isScalar g then
      if scalarPart sq.obj = 0 then none else some (A.smul (scalarPart sq.obj)⁻¹)
    else
      let r := A.rev g
      let s := A.mul g r
      if s.isScalar g then
        if scalarPart s.obj = 0 then none else some (r.smul (scalarPart s.obj)⁻¹)
      else none

/-- mv.py:828-838 `__pow__`; a negative exponent inverts the positive power. -/
def Mv.zpow (A : Mv K n) (k : ℤ) : Option (Mv K n) :=
  if k < 0 then (A.pow g (-k).toNat).inv g else some (A.pow g k.toNat)

end field

end GA
