import Verif.Model.GaEval
import Verif.Spec.Mv

/-!
# Specification: what `GAeval` returns

The value of an expression in the Clifford algebra, and what a history of commands makes of the operator
order and of the variables.
-/

namespace GA

open GA.Parser (Op)

section value
variable {n : ℕ} {R : Type*} [CommRing R] [Invertible (2 : R)]

/-- The operators of the Clifford algebra. -/
noncomputable def opValue (g : Matrix (Fin n) (Fin n) R) (c : Char) (x y : Spec.Cl g) : Spec.Cl g :=
  if c = '+' then x + y
  else if c = '-' then x - y
  else if c = '*' then x * y
  else if c = '^' then Spec.wedge g x y
  else if c = '|' then Spec.hestenesDot g x y
  else if c = '<' then Spec.leftContraction g x y
  else Spec.rightContraction g x y

/-- The number a string of digits stands for. -/
def digitsValue (s : List Char) : ℕ := s.foldl (fun k c => 10 * k + (c.toNat - '0'.toNat)) 0

/-- The element of the Clifford algebra an expression stands for, when `x` gives the values of names. -/
noncomputable def Tree.value (g : Matrix (Fin n) (Fin n) R) (x : List Char → Spec.Cl g) : Tree → Spec.Cl g
  | .leaf s => if s.all Char.isDigit = true then (digitsValue s : Spec.Cl g) else x s
  | .neg t => -t.value g x
  | .node l c r => opValue g c (l.value g x) (r.value g x)

/-- The names and literals of an expression. -/
def Tree.leaves : Tree → List (List Char)
  | .leaf s => [s]
  | .neg t => t.leaves
  | .node l _ r => l.leaves ++ r.leaves

/-- The expression has a multivector as a part; `mvName` are the names of multivectors. -/
def Tree.HasMv (mvName : List Char → Prop) : Tree → Prop
  | .leaf s => ¬ s.all Char.isDigit = true ∧ mvName s
  | .neg t => t.HasMv mvName
  | .node l _ r => l.HasMv mvName ∨ r.HasMv mvName

/-- `^`, `|`, `<` and `>` are not used between two numbers, and no number begins with `0`. -/
def Tree.Algebraic (mvName : List Char → Prop) : Tree → Prop
  | .leaf s => s.all Char.isDigit = true → s.head? ≠ some '0'
  | .neg t => t.Algebraic mvName
  | .node l c r => l.Algebraic mvName ∧ r.Algebraic mvName ∧
      (c = '+' ∨ c = '-' ∨ c = '*' ∨ l.HasMv mvName ∨ r.HasMv mvName)

end value

/-- The text of an operator group in an order. -/
def orderText : Op → List Char
  | .dots => ['<', '>', '|']
  | .wedge => ['^']
  | .times => ['*']

/-- A legal operator order: groups separated by commas. -/
def LegalOrder (s : List Char) (ops : List Op) : Prop := ops ≠ [] ∧ s = joinWith ',' (ops.map orderText)

section history
variable {R : Type*} {n : ℕ}

/-- The last legal call of `def_prec` in a history had the dictionary `d` and the order `ops`. -/
def LastPrec (cmds : List (Cmd R n)) (d : ℕ) (ops : List Op) : Prop :=
  ∃ pre s post, cmds = pre ++ Cmd.defPrec d s :: post ∧ LegalOrder s ops ∧
    ∀ d' s', Cmd.defPrec d' s' ∈ post → ∀ ops', ¬ LegalOrder s' ops'

/-- The last assignment to `name` in the dictionary `d` was `v`. -/
def LastValue (cmds : List (Cmd R n)) (d : ℕ) (name : List Char) (v : Val R n) : Prop :=
  ∃ pre post, cmds = pre ++ Cmd.assign d name v :: post ∧ ∀ v', Cmd.assign d name v' ∉ post

end history

section values
variable {n : ℕ} {R : Type*} [CommRing R] [DecidableEq R] [Invertible (2 : R)]

/-- A multivector. -/
def Val.IsMv : Val R n → Prop
  | .mv _ => True
  | _ => False

/-- A multivector in blade representation, a number or an expression. -/
def Val.WF (g : Matrix (Fin n) (Fin n) R) : Val R n → Prop
  | .mv A => A.WF g ∧ A.isBladeRep = true
  | _ => True

/-- The element of the Clifford algebra. -/
noncomputable def Val.value (g : Matrix (Fin n) (Fin n) R) : Val R n → Spec.Cl g
  | .int k => (k : Spec.Cl g)
  | .scalar c => algebraMap R _ c
  | .mv A => A.val g

end values

end GA
