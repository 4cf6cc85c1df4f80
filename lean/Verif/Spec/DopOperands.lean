import Verif.Model.DopOperands
import Verif.Spec.Dop

/-! # Operands of the binary operators of differential operators -/

namespace GA
variable {n : ℕ} {K : Type*} [Field K] [DecidableEq K] [Invertible (2 : K)] {V : Type*} [DecidableEq V]

/-- A number, an expression, or a multivector in blade representation. -/
def Operand.WF (g : Matrix (Fin n) (Fin n) K) : Operand K n → Prop
  | .scalar _ => True
  | .mv A => A.WF g ∧ A.isBladeRep = true

/-- Operands built from multivectors in blade representation and Python dictionaries. -/
def DObj.WF (X : Fields V K n) : DObj V K n → Prop
  | .val o => o.WF X.g
  | .pdop p => p.WF
  | .sdop s => ∀ t ∈ s, t.1.WF X.g ∧ t.2.WF
  | .dop d => d.WF X

/-- Not an operator that acts to the left. -/
def DObj.Right : DObj V K n → Prop
  | .dop d => d.cmpflg = false
  | _ => True

/-- A number, an expression or a multivector. -/
def DObj.IsValue : DObj V K n → Prop
  | .val _ => True
  | _ => False

/-- A `Pdop`. -/
def DObj.IsPdop : DObj V K n → Prop
  | .pdop _ => True
  | _ => False

/-- An `Sdop`. -/
def DObj.IsSdop : DObj V K n → Prop
  | .sdop _ => True
  | _ => False

/-- A `Dop`. -/
def DObj.IsDop : DObj V K n → Prop
  | .dop _ => True
  | _ => False

/-- Operands that can be added and subtracted: no `Pdop`, and no `Sdop` together with a `Dop`. -/
def Addable (x y : DObj V K n) : Prop :=
  ¬ x.IsPdop ∧ ¬ y.IsPdop ∧ ¬ (x.IsSdop ∧ y.IsDop) ∧ ¬ (x.IsDop ∧ y.IsSdop)

/-- The same value: the numbers, expressions or multivectors compare equal. -/
def SameValue (g : Matrix (Fin n) (Fin n) K) (a b : DObj V K n) : Prop :=
  ∃ o o', a = .val o ∧ b = .val o' ∧ o.toMv.eq g o'.toMv = true

end GA
