import Verif.Model.Operands
import Verif.Model.Parser
import Verif.Model.Session
import Verif.Spec.Parser
import Mathlib.Data.Int.Bitwise

/-!
# Model of `def_prec` and `GAeval` (printer.py) with Python's evaluation of the rewritten string

The state are the user's dictionaries (such as `globals()`), which are passed by reference, and the two
variables `_eval_global_dict` and `_eval_parse_order` of the module.

Simplifications: the values in the dictionaries are integers, other numbers and expressions (`scalar`), and
multivectors of one algebra; all exceptions, and results that are no such value (relations, truth values),
are `none`.  How Python reads a string is `readString pyRules` (`Verif.Spec.Parser`); keywords, the names of
builtins and literals other than decimal integers are not modelled, they are unbound names.
-/

namespace GA

open GA.Parser (Op parseLine)

/-- A value of a variable. -/
inductive Val (R : Type*) (n : ℕ)
  | int (k : ℤ)
  | scalar (c : R)
  | mv (A : Mv R n)

section eval
variable {n : ℕ} {R : Type*} [CommRing R] [DecidableEq R] [Invertible (2 : R)]

/-- The operand of the methods of `Mv`. -/
def Val.operand : Val R n → Operand R n
  | .int k => .scalar (k : R)
  | .scalar c => .scalar c
  | .mv A => .mv A

/-- The operator of `Mv` for a character. -/
def binOpOf (c : Char) : Option BinOp :=
  if c = '+' then some .add else if c = '-' then some .sub else if c = '*' then some .mul
  else if c = '^' then some .wedge else if c = '|' then some .dot else if c = '<' then some .left
  else if c = '>' then some .right else none

/-- Python's operators with two integers: `^` and `|` are bitwise; `<` and `>` give truth values. -/
def intOp : BinOp → ℤ → ℤ → Option ℤ
  | .add, a, b => some (a + b)
  | .sub, a, b => some (a - b)
  | .mul, a, b => some (a * b)
  | .wedge, a, b => some (a.xor b)
  | .dot, a, b => some (a.lor b)
  | _, _, _ => none

/-- The operators with two numbers or expressions; `^`, `|`, `<` and `>` raise exceptions or give logical
expressions. -/
def scalarOp : BinOp → R → R → Option R
  | .add, a, b => some (a + b)
  | .sub, a, b => some (a - b)
  | .mul, a, b => some (a * b)
  | _, _, _ => none

/-- `x op y` for two values. -/
def Val.op (g : Matrix (Fin n) (Fin n) R) (op : BinOp) (x y : Val R n) : Option (Val R n) :=
  match x, y with
  | .int a, .int b => (intOp op a b).map .int
  | x, y => match x.operand, y.operand with
    | .scalar a, .scalar b => (scalarOp op a b).map .scalar
    | o, o' => (op.apply g o o').map .mv

/-- Python's `-x`; mv.py:513-514 `__neg__`. -/
def Val.neg : Val R n → Val R n
  | .int k => .int (-k)
  | .scalar c => .scalar (-c)
  | .mv A => .mv A.neg

/-- Python's value of a literal or a name. -/
def leafVal (d : List Char → Option (Val R n)) (s : List Char) : Option (Val R n) :=
  if s.all Char.isDigit = true then
    if s.head? = some '0' ∧ s.any (· ≠ '0') = true then none
    else (parseNat s).map fun k => .int (k : ℤ)
  else d s

/-- Python's `eval` of an expression: operands first, then the operator. -/
def evalTree (g : Matrix (Fin n) (Fin n) R) (d : List Char → Option (Val R n)) : Tree → Option (Val R n)
  | .leaf s => leafVal d s
  | .neg t => (evalTree g d t).map Val.neg
  | .node l c r => (evalTree g d l).bind fun x => (evalTree g d r).bind fun y =>
    (binOpOf c).bind fun op => x.op g op y

/-- parser.py:10-14: the keys of `_operator_res`. -/
def opOfText (s : List Char) : Option Op :=
  if s = ['<', '>', '|'] then some .dots else if s = ['^'] then some .wedge
  else if s = ['*'] then some .times else none

/-- The dictionaries of the user, and printer.py:1100-1101: `none` is the dictionary `{}` of the module. -/
structure Shell (R : Type*) (n : ℕ) where
  dicts : ℕ → List Char → Option (Val R n)
  gd : Option ℕ
  order : List Op

/-- printer.py:1100-1101: the state when the module is imported. -/
def Shell.init (R : Type*) (n : ℕ) : Shell R n := ⟨fun _ _ => none, none, []⟩

/-- What a user does: assign a variable of a dictionary, call `def_prec` with a dictionary and an order, or
call `GAeval`.  `calls` is the value of the counter of parser.py:25, which grows with every call of
`_parse_paren`; it may be anything here. -/
inductive Cmd (R : Type*) (n : ℕ)
  | assign (d : ℕ) (name : List Char) (v : Val R n)
  | defPrec (d : ℕ) (opOrd : List Char)
  | eval (s : List Char) (calls : ℕ)

/-- printer.py:1104-1122 `def_prec` with parser.py:149-151: the new state, `none` is a `ValueError`. -/
def Shell.defPrec (S : Shell R n) (d : ℕ) (opOrd : List Char) : Option (Shell R n) :=
  ((splitOn ',' opOrd).mapM opOfText).map fun ops => ⟨S.dicts, some d, ops⟩

/-- printer.py:1125-1157 `GAeval`. -/
def Shell.gaEval (S : Shell R n) (g : Matrix (Fin n) (Fin n) R) (s : List Char) (calls : ℕ) :
    Option (Val R n) :=
  (parseLine S.order calls s).bind fun r => (readString pyRules r).bind fun t =>
    evalTree g (match S.gd with | none => fun _ => none | some d => S.dicts d) t

/-- The state after a command; a command that raises an exception does not change it. -/
def Shell.step (S : Shell R n) : Cmd R n → Shell R n
  | .assign d name v =>
    ⟨fun e s => if e = d ∧ s = name then some v else S.dicts e s, S.gd, S.order⟩
  | .defPrec d opOrd => (S.defPrec d opOrd).getD S
  | .eval _ _ => S

/-- The state after a history. -/
def Shell.run (cmds : List (Cmd R n)) : Shell R n := cmds.foldl Shell.step (Shell.init R n)

end eval

end GA
