import Verif.Model.MltMv
import Verif.Spec.Mlt

/-!
# Meaning of multilinear functions with multivector values
-/

namespace GA
open MvPolynomial
variable {n : ℕ} {K : Type*} [Field K] [DecidableEq K] [Invertible (2 : K)]

/-- The element of the Clifford algebra that a value stands for when argument `i` has the components
`v i`. -/
noncomputable def valueAt (g : Matrix (Fin n) (Fin n) K) (v : ℕ → Fin n → K) :
    Operand (SlotPoly K n) n → Spec.Cl g
  | .scalar p => algebraMap K _ (eval (fun ik => v ik.1 ik.2) p)
  | .mv A => (A.subs (eval fun ik => v ik.1 ik.2)).val g

/-- Expressions, and multivectors in terms of blades. -/
def Operand.Ok (g : Matrix (Fin n) (Fin n) K) : Operand (SlotPoly K n) n → Prop
  | .scalar _ => True
  | .mv A => A.WF (liftG g) ∧ A.isBladeRep = true

/-- `T` stands for the function `F` of the components of its arguments: `F` depends only on the arguments
of `T`, the value evaluates to `F`, and if `T` holds a Python function, then this function gives at vectors
with the components `w` the same value. -/
structure MltM.Means (g : Matrix (Fin n) (Fin n) K) (T : MltM K n) (F : (ℕ → Fin n → K) → Spec.Cl g) :
    Prop where
  ok : T.fvalue.Ok g
  slots : ∀ v v', (∀ i < T.nargs, v i = v' i) → F v = F v'
  value : ∀ v, valueAt g v T.fvalue = F v
  function : ∀ f, T.f = some f → ∀ w : ℕ → Fin n → SlotPoly K n,
    (f ((List.range T.nargs).map fun i => Mv.vector (w i))).Ok g ∧
    ∀ v, valueAt g v (f ((List.range T.nargs).map fun i => Mv.vector (w i))) =
      F fun i k => eval (fun ik => v ik.1 ik.2) (w i k)

/-- The values of `T` are multivectors, not expressions. -/
def MltM.MvValued (T : MltM K n) : Prop :=
  (∃ A, T.fvalue = .mv A) ∧ ∀ f, T.f = some f → ∀ args, ∃ A, f args = .mv A

/-- The operators as operations of the Clifford algebra; the last four are not operators of multilinear
functions. -/
noncomputable def BinOp.meaning (g : Matrix (Fin n) (Fin n) K) : BinOp → Spec.Cl g → Spec.Cl g → Spec.Cl g
  | .add, x, y => x + y
  | .sub, x, y => x - y
  | .mul, x, y => x * y
  | .wedge, x, y => Spec.wedge g x y
  | .dot, x, y => Spec.hestenesDot g x y
  | _, _, _ => 0

end GA
