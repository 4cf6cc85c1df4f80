import Verif.Model.Mlt
import Verif.Model.Operands
import Verif.Model.Coef

/-!
# Model of multilinear functions with multivector values (galgebra/lt.py, class `Mlt`)

`fvalue` is a SymPy expression or a multivector; `Verif.Model.Mlt` has the first case only.
-/

namespace GA
open MvPolynomial
variable {n : ℕ} {K : Type*} [Field K] [DecidableEq K] [Invertible (2 : K)]

/-- `subs` of an expression (SymPy) or of a multivector (mv.py:1514-1519); `φ` is the substitution. -/
def Operand.subs {R S : Type*} [CommRing R] [DecidableEq R] [CommRing S] [DecidableEq S] (φ : R → S) :
    Operand R n → Operand S n
  | .scalar c => .scalar (φ c)
  | .mv A => .mv (A.subs φ)

/-- lt.py:803-852: the attributes `nargs`, `fvalue` and `f` (`none` for Python's `None`). -/
structure MltM (K : Type*) [Field K] (n : ℕ) where
  nargs : ℕ
  fvalue : Operand (SlotPoly K n) n
  f : Option (List (Mv (SlotPoly K n) n) → Operand (SlotPoly K n) n)

/-- lt.py:810-819, 847-852 `Mlt(value, Ga, nargs)` for a value with slot symbols: if it is a vector, then
the new function has one argument and the value `value | a_1`. -/
noncomputable def MltM.ofValue (g : Matrix (Fin n) (Fin n) K) (nargs : ℕ) :
    Operand (SlotPoly K n) n → MltM K n
  | .scalar p => ⟨nargs, .scalar p, none⟩
  | .mv A =>
    if A.isVector (liftG g) then ⟨1, .scalar (A.dot (liftG g) (slotVec K n 0)).scalar, none⟩
    else ⟨nargs, .mv A, none⟩

/-- lt.py:841-846 `Mlt(f)` with a Python function of `nargs` arguments. -/
noncomputable def MltM.ofFunction (nargs : ℕ)
    (f : List (Mv (SlotPoly K n) n) → Operand (SlotPoly K n) n) : MltM K n :=
  ⟨nargs, f ((List.range nargs).map (slotVec K n)), some f⟩

/-- lt.py:854-868 `__call__`; `rb` is `Ga.r_basis_mv` and `slots` the number of generic vectors. -/
noncomputable def MltM.call (g : Matrix (Fin n) (Fin n) K) (rb : List (Mv K n)) (slots : ℕ) (T : MltM K n)
    (args : List (Mv (SlotPoly K n) n)) : Operand (SlotPoly K n) n :=
  if args.length = 0 then T.fvalue
  else match T.f with
    | some f => f args
    | none =>
      T.fvalue.subs (bind₁ (fun ik : ℕ × Fin n =>
        if ik.1 < args.length ∧ ik.1 < slots then
          ((liftMv (rb.getD ik.2 Mv.zero)).dot (liftG g) (args.getD ik.1 Mv.zero)).scalar
        else X ik))

/-- `x op y` of two values.  `none`: SymPy has no `^` and `|` for expressions (for symbols they are the
operators of logic, which do not give a number). -/
noncomputable def valOp (g : Matrix (Fin n) (Fin n) K) (op : BinOp) :
    Operand (SlotPoly K n) n → Operand (SlotPoly K n) n → Option (Operand (SlotPoly K n) n)
  | .scalar p, .scalar q => match op with
    | .add => some (.scalar (p + q))
    | .sub => some (.scalar (p - q))
    | .mul => some (.scalar (p * q))
    | _ => none
  | x, y => (op.apply (liftG g) x y).map .mv

/-- lt.py:870-886 `__add__`, `__sub__`; `none`: `ValueError`. -/
noncomputable def MltM.addSub (g : Matrix (Fin n) (Fin n) K) (op : BinOp) (S T : MltM K n) :
    Option (MltM K n) :=
  if S.nargs = T.nargs then (valOp g op S.fvalue T.fvalue).map (MltM.ofValue g S.nargs) else none

/-- `expand` of a value (mv.py:1521-1525). -/
def Operand.expand {R : Type*} [CommRing R] [DecidableEq R] : Operand R n → Operand R n
  | .scalar p => .scalar p
  | .mv A => .mv A.expandMv

/-- lt.py:888-895 `__mul__`, 899-904 `__xor__` and 908-913 `__or__` of two multilinear functions, in an
algebra with `slots` generic vectors before the call; `__mul__` expands the product. -/
noncomputable def MltM.product (g : Matrix (Fin n) (Fin n) K) (rb : List (Mv K n)) (op : BinOp) (slots : ℕ)
    (S T : MltM K n) : Option (MltM K n) :=
  let nargs := S.nargs + T.nargs
  let slots := incrementSlots nargs slots
  let a := (List.range slots).map (slotVec K n)
  (valOp g op (S.call g rb slots (a.take S.nargs)) (T.call g rb slots ((a.take nargs).drop S.nargs))).map
    fun z => MltM.ofValue g nargs (if op = .mul then z.expand else z)

/-- An operand without slot symbols, among the values with slot symbols. -/
noncomputable def liftOperand : Operand K n → Operand (SlotPoly K n) n
  | .scalar c => .scalar (C c)
  | .mv A => .mv (A.subs C)

/-- lt.py:896-897, 905-906, 914-915: `T * X`, `T ^ X` and `T | X` for an `X` that is not a multilinear
function are all `Mlt(X * T.fvalue)`. -/
noncomputable def MltM.operand (g : Matrix (Fin n) (Fin n) K) (T : MltM K n) (X : Operand K n) :
    Option (MltM K n) :=
  (valOp g .mul (liftOperand X) T.fvalue).map (MltM.ofValue g T.nargs)

/-- lt.py:917-920 `dd` of a multilinear function whose value is an expression, in an algebra with the vectors `vecs` of
`Ga.grad`; the derivative of an expression does not use the connection.  The value is passed to the constructor as a
multivector. -/
noncomputable def Mlt.dd (D : Fin n → K → K) (g : Matrix (Fin n) (Fin n) K) (vecs : List (Mv K n)) (T : Mlt K n) :
    MltM K n :=
  MltM.ofValue g (T.nargs + 1) (.mv (slotAgrad g none D vecs (slotVec K n T.nargs) (Mv.scalarMv T.fvalue)))

end GA
