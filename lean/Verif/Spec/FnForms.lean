import Verif.Model.FnForms
import Verif.Spec.Mv

/-!
# Specification: formulas with functions

Whether a formula is a number or a multivector, or which exception it raises, can be read off the formula.
Its value is the value of the formula in the Clifford algebra.
-/

namespace GA
variable {n : ℕ} {K : Type*}

/-- What a value is. -/
inductive ValueKind
  | number
  | multivector
deriving DecidableEq, Repr

/-- The kind of a value. -/
def Operand.kind : Operand K n → ValueKind
  | .scalar _ => .number
  | .mv _ => .multivector

/-- `ok` for a multivector, the exception `e` for a number. -/
def ValueKind.need (e : FnError) (res k : ValueKind) : Except FnError ValueKind :=
  if k = .multivector then .ok res else .error e

/-- The kind of a formula, or the exception that it raises whatever the values of the variables are; `κ` are
the kinds of the variables. -/
def Formula.kind (κ : ℕ → ValueKind) : Formula K → Except FnError ValueKind
  | .var k => .ok (κ k)
  | .num _ => .ok .number
  | .op o p q => call2 (fun k l =>
      if k = .number ∧ l = .number then
        if o = .add ∨ o = .sub ∨ o = .mul then .ok .number else .error .foreign
      else .ok .multivector) (p.kind κ) (q.kind κ)
  | .div p q => call2 (fun k l => .ok (if k = .number ∧ l = .number then .number else .multivector))
      (p.kind κ) (q.kind κ)
  | .mvFn _ p => (p.kind κ).bind (ValueKind.need .valueError .multivector)
  | .numFn .scalar p => (p.kind κ).bind (ValueKind.need .valueError .number)
  | .numFn _ p => (p.kind κ).bind (ValueKind.need .typeError .number)
  | .exp _ p => p.kind κ
  | .grade p _ => (p.kind κ).bind (ValueKind.need .valueError .multivector)
  | .sp s p q => call2 (fun k l => (ValueKind.need .valueError .multivector k).bind fun _ =>
      (ValueKind.need .valueError .number l).bind fun r => if s.isSome then .ok r else .error .valueError)
      (p.kind κ) (q.kind κ)
  | .proj b a => call2 (fun k l => (ValueKind.need .valueError .multivector l).bind fun _ =>
      ValueKind.need .attributeError .multivector k) (b.kind κ) (a.kind κ)
  | .refl b a => call2 (fun k l => (ValueKind.need .valueError .multivector l).bind fun _ =>
      ValueKind.need .attributeError .multivector k) (b.kind κ) (a.kind κ)
  | .rot _ t a => call2 (fun k l => (ValueKind.need .valueError .multivector l).bind fun _ =>
      ValueKind.need .attributeError .multivector k) (t.kind κ) (a.kind κ)
  | .cross p q => call2 (fun k l => (ValueKind.need .attributeError .multivector k).bind fun _ =>
      ValueKind.need .attributeError .multivector l) (p.kind κ) (q.kind κ)
  | .com p q => call2 (fun k l => .ok (if k = .number ∧ l = .number then .number else .multivector))
      (p.kind κ) (q.kind κ)
  | .mvCom p q => call2 (fun _ _ => .error .importError) (p.kind κ) (q.kind κ)

/-- The formula has the kind, or raises the exception, unless a method raised an exception because of the
values of its operands. -/
def Fits (r : Except FnError (Operand K n)) (k : Except FnError ValueKind) : Prop :=
  r = .error .method ∨ (∃ v, r = .ok v ∧ k = .ok v.kind) ∨ ∃ e, r = .error e ∧ k = .error e

/-- The formula and the formulas in it. -/
def Formula.parts : Formula K → List (Formula K)
  | .var k => [.var k]
  | .num c => [.num c]
  | .op o p q => .op o p q :: (p.parts ++ q.parts)
  | .div p q => .div p q :: (p.parts ++ q.parts)
  | .mvFn f p => .mvFn f p :: p.parts
  | .numFn f p => .numFn f p :: p.parts
  | .exp h p => .exp h p :: p.parts
  | .grade p r => .grade p r :: p.parts
  | .sp s p q => .sp s p q :: (p.parts ++ q.parts)
  | .proj b a => .proj b a :: (b.parts ++ a.parts)
  | .refl b a => .refl b a :: (b.parts ++ a.parts)
  | .rot h t a => .rot h t a :: (t.parts ++ a.parts)
  | .cross p q => .cross p q :: (p.parts ++ q.parts)
  | .com p q => .com p q :: (p.parts ++ q.parts)
  | .mvCom p q => .mvCom p q :: (p.parts ++ q.parts)

/-- The formula has no `exp` and `rot` (see C30, C97) and no norms and magnitudes (see C31, C69). -/
def Formula.algebraic : Formula K → Bool
  | .var _ => true
  | .num _ => true
  | .op _ p q => p.algebraic && q.algebraic
  | .div p q => p.algebraic && q.algebraic
  | .mvFn _ p => p.algebraic
  | .numFn .scalar p => p.algebraic
  | .numFn .qform p => p.algebraic
  | .numFn _ _ => false
  | .exp _ _ => false
  | .grade p _ => p.algebraic
  | .sp _ p q => p.algebraic && q.algebraic
  | .proj b a => b.algebraic && a.algebraic
  | .refl b a => b.algebraic && a.algebraic
  | .rot _ _ _ => false
  | .cross p q => p.algebraic && q.algebraic
  | .com p q => p.algebraic && q.algebraic
  | .mvCom p q => p.algebraic && q.algebraic

section value
variable [Field K] [Invertible (2 : K)] {g : Matrix (Fin n) (Fin n) K}

/-- The dual, by the table of ga.py:585-595. -/
noncomputable def dualS (I J : Spec.Cl g) (mode : String) (x : Spec.Cl g) : Spec.Cl g :=
  match mode with
  | "+I" => I * x
  | "-I" => -(I * x)
  | "I+" => x * I
  | "I-" => -(x * I)
  | "+Iinv" => J * x
  | "-Iinv" => -(J * x)
  | "Iinv+" => x * J
  | "Iinv-" => -(x * J)
  | _ => 0

/-- The operators in the Clifford algebra. -/
noncomputable def BinOp.value : BinOp → Spec.Cl g → Spec.Cl g → Spec.Cl g
  | .add, x, y => x + y
  | .sub, x, y => x - y
  | .mul, x, y => x * y
  | .wedge, x, y => Spec.wedge g x y
  | .dot, x, y => Spec.hestenesDot g x y
  | .left, x, y => Spec.leftContraction g x y
  | .right, x, y => Spec.rightContraction g x y
  | .antiComm, x, y => (⅟2 : K) • (x * y + y * x)
  | .comm, x, y => (⅟2 : K) • (x * y - y * x)

/-- `b.rev() / b.qform()`, the inverse of a blade. -/
noncomputable def bladeInv (b : Spec.Cl g) : Spec.Cl g :=
  CliffordAlgebra.reverse b * Ring.inverse (Spec.grade g 0 (CliffordAlgebra.reverse b * b))

open Classical in
/-- The value of a formula in the Clifford algebra: `I` and `J` are the pseudoscalar and its inverse, `x` are
the values of the variables. -/
noncomputable def Formula.value (I J : Spec.Cl g) (mode : String) (x : ℕ → Spec.Cl g) :
    Formula K → Spec.Cl g
  | .var k => x k
  | .num c => algebraMap K _ c
  | .op o p q => o.value (p.value I J mode x) (q.value I J mode x)
  | .div p q => p.value I J mode x * Ring.inverse (q.value I J mode x)
  | .mvFn .dual p => dualS I J mode (p.value I J mode x)
  | .mvFn .undual p => I ^ 2 * dualS I J mode (p.value I J mode x)
  | .mvFn .even p => (⅟2 : K) • (p.value I J mode x + CliffordAlgebra.involute (p.value I J mode x))
  | .mvFn .odd p => (⅟2 : K) • (p.value I J mode x - CliffordAlgebra.involute (p.value I J mode x))
  | .mvFn .gInvol p => CliffordAlgebra.involute (p.value I J mode x)
  | .mvFn .rev p => CliffordAlgebra.reverse (p.value I J mode x)
  | .mvFn .ccon p => CliffordAlgebra.reverse (CliffordAlgebra.involute (p.value I J mode x))
  | .mvFn _ p => Ring.inverse (p.value I J mode x)
  | .numFn .scalar p => Spec.grade g 0 (p.value I J mode x)
  | .numFn _ p => Spec.grade g 0 (CliffordAlgebra.reverse (p.value I J mode x) * p.value I J mode x)
  | .exp _ _ => 0
  | .grade p r => Spec.grade g r (p.value I J mode x)
  | .sp s p q => Spec.grade g 0 ((if s = some true then CliffordAlgebra.reverse (p.value I J mode x)
      else p.value I J mode x) * q.value I J mode x)
  | .proj b a => Spec.leftContraction g (a.value I J mode x) (b.value I J mode x) *
      bladeInv (b.value I J mode x)
  | .refl b a => b.value I J mode x *
      (if CliffordAlgebra.involute (b.value I J mode x) = b.value I J mode x
        then CliffordAlgebra.involute (a.value I J mode x) else a.value I J mode x) *
      bladeInv (b.value I J mode x)
  | .rot _ _ _ => 0
  | .cross p q => -I * Spec.wedge g (p.value I J mode x) (q.value I J mode x)
  | .com p q => (⅟2 : K) • (p.value I J mode x * q.value I J mode x - q.value I J mode x * p.value I J mode x)
  | .mvCom _ _ => 0

end value

/-- A value stands for an element of the Clifford algebra; a multivector is in blade representation. -/
def Operand.IsValue [Field K] [DecidableEq K] [Invertible (2 : K)] (g : Matrix (Fin n) (Fin n) K)
    (x : Spec.Cl g) : Operand K n → Prop
  | .scalar c => algebraMap K _ c = x
  | .mv A => A.WF g ∧ A.isBladeRep = true ∧ A.val g = x

end GA
