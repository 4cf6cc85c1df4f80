import Mathlib.Algebra.BigOperators.Group.List.Basic
import Mathlib.Algebra.Ring.Defs

/-!
# How one reads a linear equation like `1x + -2y = 3/2`

`num` reads numbers.
-/

namespace GA.Linear
variable {K : Type*}

/-- A linear equation: coefficients with variables, and the right side. -/
structure Eqn (K : Type*) where
  terms : List (K × Char)
  rhs : K

/-- The values `x` of the variables solve the equation. -/
def Eqn.Solves [Semiring K] (e : Eqn K) (x : Char → K) : Prop := (e.terms.map fun t => t.1 * x t.2).sum = e.rhs

/-- A term: a number with a variable of one character after it. -/
def readTerm (num : List Char → Option K) (w : List Char) : Option (K × Char) :=
  w.getLast?.bind fun v => (num w.dropLast).map fun c => (c, v)

/-- The words of an equation: terms with `+` between them, `=`, and a number. -/
def readWords (num : List Char → Option K) : List (List Char) → Option (Eqn K)
  | [t, ['='], d] => (readTerm num t).bind fun c => (num d).map fun r => ⟨[c], r⟩
  | t :: ['+'] :: ws => (readTerm num t).bind fun c => (readWords num ws).map fun e => ⟨c :: e.terms, e.rhs⟩
  | _ => none

/-- The equation that a line says; words are separated by blanks. -/
def readEqn (num : List Char → Option K) (line : List Char) : Option (Eqn K) := readWords num (line.splitOn ' ')

end GA.Linear
