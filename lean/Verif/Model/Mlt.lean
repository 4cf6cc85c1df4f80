import Verif.Model.Grad
import Mathlib.Algebra.MvPolynomial.Basic
import Mathlib.Algebra.MvPolynomial.Eval
import Mathlib.Algebra.MvPolynomial.Monad
import Mathlib.Algebra.MvPolynomial.CommRing

/-!
# Model of multilinear functions (galgebra/lt.py, class `Mlt`)

The value of a multilinear function is a polynomial in the symbols `a_{i+1}__k`, the coefficients of the
generic vectors that stand for the arguments.  Simplification: functions with scalar values only.
-/

namespace GA
open MvPolynomial
variable {n : ℕ} {K : Type*} [Field K] [DecidableEq K] [Invertible (2 : K)]

/-- Scalar expressions with slot symbols: `X (i, k)` is the symbol `Ga._mlt_pdiffs[i][k]`
(lt.py:682-696). -/
abbrev SlotPoly (K : Type*) [Field K] (n : ℕ) := MvPolynomial (ℕ × Fin n) K

noncomputable instance : DecidableEq (SlotPoly K n) := Classical.decEq _

noncomputable instance : Invertible (2 : SlotPoly K n) where
  invOf := C ⅟2
  invOf_mul_self := by
    rw [show (2 : SlotPoly K n) = C 2 from (map_ofNat C 2).symm, ← C_mul, invOf_mul_self, C_1]
  mul_invOf_self := by
    rw [show (2 : SlotPoly K n) = C 2 from (map_ofNat C 2).symm, ← C_mul, mul_invOf_self, C_1]

/-- A multivector without slot symbols among multivectors with slot symbols. -/
noncomputable def liftMv (A : Mv K n) : Mv (SlotPoly K n) n :=
  ⟨A.obj.map fun t => (C t.1, t.2), A.isBladeRep⟩

/-- A transformation without slot symbols. -/
noncomputable def liftLt (L : Lt K n) : Lt (SlotPoly K n) n :=
  L.map fun kv => (kv.1, kv.2.map fun t => (C t.1, t.2))

/-- The metric tensor. -/
noncomputable def liftG (g : Matrix (Fin n) (Fin n) K) : Matrix (Fin n) (Fin n) (SlotPoly K n) :=
  Matrix.of fun i j => C (g i j)

/-- lt.py:682-696: the generic vector `Ga._mlt_a[i]`. -/
noncomputable def slotVec (K : Type*) [Field K] [DecidableEq K] (n i : ℕ) : Mv (SlotPoly K n) n :=
  Mv.vector fun k => X (i, k)

/-- lt.py:682-696 `increment_slots`: the number of generic vectors. -/
def incrementSlots (nargs slots : ℕ) : ℕ := if slots < nargs then nargs else slots

/-- lt.py:803-852: the attributes `nargs`, `fvalue` and `f` (`none` for Python's `None`). -/
structure Mlt (K : Type*) [Field K] (n : ℕ) where
  nargs : ℕ
  fvalue : SlotPoly K n
  f : Option (List (Mv (SlotPoly K n) n) → SlotPoly K n)

/-- lt.py:810-815 `Mlt(v)` with a vector `v`: `T(a) = v | a`. -/
noncomputable def Mlt.ofVector (g : Matrix (Fin n) (Fin n) K) (v : Mv K n) : Mlt K n :=
  ⟨1, ((liftMv v).dot (liftG g) (slotVec K n 0)).scalar, none⟩

/-- lt.py:820-824 `Mlt(L)` with a linear transformation `L`: `T(a, b) = a | L(b)`. -/
noncomputable def Mlt.ofLt (g : Matrix (Fin n) (Fin n) K) (L : Lt K n) : Mlt K n :=
  ⟨2, ((slotVec K n 0).dot (liftG g) ((liftLt L).call (liftG g) (slotVec K n 1))).scalar, none⟩

/-- Python `itertools.product(*ls)`. -/
def itProduct {α : Type*} : List (List α) → List (List α)
  | [] => [[]]
  | l :: ls => l.flatMap fun x => (itProduct ls).map (x :: ·)

/-- lt.py:825-838 `Mlt(name, nargs)` in an algebra with `slots` generic vectors before the call;
`comp I` is the symbol or function `name_I` for the index tuple `I`.  The second product runs over all
generic vectors of the algebra. -/
noncomputable def Mlt.ofString (comp : List (Fin n) → K) (nargs slots : ℕ) : Mlt K n :=
  let slots := incrementSlots nargs slots
  let idx := itProduct (List.replicate nargs (List.finRange n))
  let syms : List (List (SlotPoly K n)) :=
    itProduct ((List.range slots).map fun i => (List.finRange n).map fun k => X (i, k))
  ⟨nargs, (idx.zip syms).foldl (fun v p => v + p.2.foldl (· * ·) (C (comp p.1))) 0, none⟩

/-- lt.py:841-846 `Mlt(f)` with a Python function of `nargs` arguments. -/
noncomputable def Mlt.ofFunction (nargs : ℕ) (f : List (Mv (SlotPoly K n) n) → SlotPoly K n) :
    Mlt K n :=
  ⟨nargs, f ((List.range nargs).map (slotVec K n)), some f⟩

/-- lt.py:847-852 `Mlt(expr, nargs)`. -/
def Mlt.ofExpr (nargs : ℕ) (v : SlotPoly K n) : Mlt K n := ⟨nargs, v, none⟩

/-- lt.py:854-868 `__call__`; `rb` is `Ga.r_basis_mv` and `slots` the number of generic vectors.  The
substitution is simultaneous. -/
noncomputable def Mlt.call (g : Matrix (Fin n) (Fin n) K) (rb : List (Mv K n)) (slots : ℕ) (T : Mlt K n)
    (args : List (Mv (SlotPoly K n) n)) : SlotPoly K n :=
  if args.length = 0 then T.fvalue
  else match T.f with
    | some f => f args
    | none =>
      bind₁ (fun ik : ℕ × Fin n =>
        if ik.1 < args.length ∧ ik.1 < slots then
          ((liftMv (rb.getD ik.2 Mv.zero)).dot (liftG g) (args.getD ik.1 Mv.zero)).scalar
        else X ik) T.fvalue

/-- lt.py:870-877 `__add__`; `none`: `ValueError`. -/
noncomputable def Mlt.add (S T : Mlt K n) : Option (Mlt K n) :=
  if S.nargs = T.nargs then some (Mlt.ofExpr S.nargs (S.fvalue + T.fvalue)) else none

/-- lt.py:879-886 `__sub__`; `none`: `ValueError`. -/
noncomputable def Mlt.sub (S T : Mlt K n) : Option (Mlt K n) :=
  if S.nargs = T.nargs then some (Mlt.ofExpr S.nargs (S.fvalue - T.fvalue)) else none

/-- lt.py:888-895 `__mul__` of two multilinear functions, in an algebra with `slots` generic vectors
before the call. -/
noncomputable def Mlt.mul (g : Matrix (Fin n) (Fin n) K) (rb : List (Mv K n)) (slots : ℕ)
    (S T : Mlt K n) : Mlt K n :=
  let nargs := S.nargs + T.nargs
  let slots := incrementSlots nargs slots
  let a := (List.range slots).map (slotVec K n)
  Mlt.ofExpr nargs
    (S.call g rb slots (a.take S.nargs) * T.call g rb slots ((a.take nargs).drop S.nargs))

/-- lt.py:896-897 `__mul__` with a scalar. -/
noncomputable def Mlt.smul (c : K) (T : Mlt K n) : Mlt K n := Mlt.ofExpr T.nargs (C c * T.fvalue)

/-! ### Derivatives -/

/-- SymPy's `diff` by a coordinate: slot symbols are constants. -/
noncomputable def slotDiff (D : K → K) (p : SlotPoly K n) : SlotPoly K n :=
  ∑ m ∈ p.support, monomial m (D (p.coeff m))

/-- mv.py:1788-1802 with ga.py:2016-2059: the gradient operator with vectors `vecs` applied to a
multivector whose derivatives do not use the connection.  This is the case for scalars, and for every
multivector when `Ga.dslot` is not `-1`. -/
noncomputable def slotGrad (D : Fin n → K → K) (g : Matrix (Fin n) (Fin n) K) (vecs : List (Mv K n))
    (op : Mv (SlotPoly K n) n → Mv (SlotPoly K n) n → Mv (SlotPoly K n) n)
    (A : Mv (SlotPoly K n) n) : Mv (SlotPoly K n) n :=
  ((vecs.zip (List.finRange n)).map fun p =>
    op (liftMv p.1) (Mv.ofExpr (expand (A.obj.map fun t => (slotDiff (D p.2) t.1, t.2))))).foldl
      (Mv.add (liftG g)) (Mv.scalarMv 0)

/-- lt.py:922-931 `pdiff`.  The argument `slot` is only stored in `Ga.dslot`; `Ga.grad` differentiates by
the coordinates. -/
noncomputable def Mlt.pdiff (D : Fin n → K → K) (g : Matrix (Fin n) (Fin n) K) (vecs : List (Mv K n))
    (T : Mlt K n) : Mv (SlotPoly K n) n :=
  slotGrad D g vecs (Mv.mul (liftG g)) (Mv.scalarMv T.fvalue)

/-- lt.py:933-939 `remove_slot` of an expression: slot `islot` is renamed to `islot - 1`, one after the
other for `islot` in `range(slot, nargs)`. -/
noncomputable def removeSlot (slot nargs : ℕ) (p : SlotPoly K n) : SlotPoly K n :=
  (List.range' slot (nargs - slot)).foldl (fun p islot =>
    rename (fun ik : ℕ × Fin n => if ik.1 = islot then (islot - 1, ik.2) else ik) p) p

/-- lt.py:941-961 `contract`. -/
noncomputable def Mlt.contract (D : Fin n → K → K) (g : Matrix (Fin n) (Fin n) K) (vecs : List (Mv K n))
    (slot1 slot2 : ℕ) (T : Mlt K n) : Mlt K n :=
  let minSlot := min slot1 slot2
  let maxSlot := max slot1 slot2
  let gradSelf := slotGrad D g vecs (Mv.mul (liftG g)) (Mv.scalarMv T.fvalue)
  let gradSelf : Mv (SlotPoly K n) n :=
    Mv.ofExpr (gradSelf.obj.map fun t => (removeSlot minSlot T.nargs t.1, t.2))
  let divGradSelf := slotGrad D g vecs (Mv.dot (liftG g)) gradSelf
  Mlt.ofExpr (T.nargs - 2) (removeSlot (maxSlot - 1) (T.nargs - 1) divGradSelf.scalar)

/-- lt.py:963-984 `cderiv` in an algebra without connection: there the derivatives of the generic vectors
are zero, so the loop of the function changes nothing.  `vecs` are the vectors of `Ga.grad`; the operator
`agrad` has the coefficients `a | vec`. -/
noncomputable def Mlt.cderivFlat (D : Fin n → K → K) (g : Matrix (Fin n) (Fin n) K)
    (vecs : List (Mv K n)) (T : Mlt K n) : Mlt K n :=
  Mlt.ofExpr (T.nargs + 1)
    ((vecs.zip (List.finRange n)).map fun p =>
      ((slotVec K n T.nargs).dot (liftG g) (liftMv p.1)).scalar * slotDiff (D p.2) T.fvalue).sum

/-- An expression without slot symbols. -/
noncomputable def liftE (E : Expr K n) : Expr (SlotPoly K n) n := E.map fun t => (C t.1, t.2)

/-- ga.py:2040-2059 `pDiff` of a multivector with slot symbols by coordinate `i`, for `dslot == -1`;
`conn` is `Ga.de`, or `none` without connection.  Only the coordinates of the algebra occur here, so
that the derivatives of the blades always exist. -/
noncomputable def slotPDiff (g : Matrix (Fin n) (Fin n) K) (conn : Option (Fin n → Fin n → Expr K n))
    (D : Fin n → K → K) (i : Fin n) (A : Mv (SlotPoly K n) n) : Mv (SlotPoly K n) n :=
  let dA : Mv (SlotPoly K n) n := Mv.ofExpr (expand (A.obj.map fun t => (slotDiff (D i) t.1, t.2)))
  match conn with
  | none => dA
  | some de =>
    if A.isScalar (liftG g) then dA
    else (A.obj.filter fun t => decide (t.2 ≠ .blade [])).foldl (fun (dA : Mv (SlotPoly K n) n) t =>
      Mv.ofExpr (addE dA.obj (smulE t.1 (liftE (symDerivation (de i) t.2))))) dA

/-- lt.py:971, 977: `agrad * A`, where `agrad = a | Ga.grad` has the coefficients `a | vec`. -/
noncomputable def slotAgrad (g : Matrix (Fin n) (Fin n) K) (conn : Option (Fin n → Fin n → Expr K n))
    (D : Fin n → K → K) (vecs : List (Mv K n)) (a A : Mv (SlotPoly K n) n) : Mv (SlotPoly K n) n :=
  ((vecs.zip (List.finRange n)).map fun p =>
    Mv.smul (a.dot (liftG g) (liftMv p.1)).scalar (slotPDiff g conn D p.2 A)).foldl
      (Mv.add (liftG g)) (Mv.scalarMv 0)

/-- lt.py:963-984 `cderiv` for an algebra with metric tensor `g`, derivatives `conn` of the basis vectors,
vectors `vecs` of `Ga.grad`, reciprocal vectors `rb` and `slots` generic vectors before the call. -/
noncomputable def Mlt.cderiv (D : Fin n → K → K) (g : Matrix (Fin n) (Fin n) K)
    (conn : Option (Fin n → Fin n → Expr K n)) (vecs : List (Mv K n)) (rb : List (Mv K n)) (slots : ℕ)
    (T : Mlt K n) : Mlt K n :=
  let slots := incrementSlots (T.nargs + 1) slots
  let CD := (T.cderivFlat D g vecs).fvalue
  let CD := (List.range T.nargs).foldl (fun CD i =>
    let args := (List.range T.nargs).map (slotVec K n)
    let tmp := slotAgrad g conn D vecs (slotVec K n T.nargs) (slotVec K n i)
    if tmp.obj.isEmpty then CD else CD - T.call g rb slots (args.set i tmp)) CD
  Mlt.ofExpr (T.nargs + 1) CD

/-! ### The attribute `Ga.dslot` -/

/-- The calls that touch `Ga.dslot`, and others. -/
inductive MltEvent
  | pdiff (slot : ℤ)
  | contract (slot1 slot2 : ℤ)
  | other
deriving DecidableEq, Repr

/-- lt.py:930, 954-957: the value of `Ga.dslot` after a call. -/
def dslotStep (d : ℤ) : MltEvent → ℤ
  | .pdiff s => s - 1
  | .contract s t => max s t - 2
  | .other => d

/-- ga.py:717: the value of `Ga.dslot` after a history of calls. -/
def dslotAfter (h : List MltEvent) : ℤ := h.foldl dslotStep (-1)

/-- ga.py:2045: the connection that `pDiff` uses. -/
def connAt (dslot : ℤ) (conn : Option (Fin n → Fin n → Expr K n)) :
    Option (Fin n → Fin n → Expr K n) := if dslot = -1 then conn else none

end GA
