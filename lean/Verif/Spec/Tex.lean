import Mathlib.Data.List.Basic

/-!
# Specification of the notation of operators

The strings on the left of a `=` are sequences of words, operators and other characters.
-/

namespace GA.Tex

/-- The characters of words. -/
def IsWordChar (c : Char) : Prop := c.isAlphanum = true ∨ c = '_'

/-- A token of an expression in the notation of Python. -/
inductive Tok
  /-- a maximal sequence of letters, digits and underscores -/
  | word (w : List Char)
  | inner | wedge | product | commutator | anticommutator | leftContraction | rightContraction
  /-- the beginning `^{` of a superscript -/
  | superscript
  /-- any other character -/
  | other (c : Char)
  deriving DecidableEq

/-- The text of a token in Python. -/
def Tok.source : Tok → List Char
  | .word w => w
  | .inner => ['|']
  | .wedge => ['^']
  | .product => ['*']
  | .commutator => ['>', '>']
  | .anticommutator => ['<', '<']
  | .leftContraction => ['<']
  | .rightContraction => ['>']
  | .superscript => ['^', '{']
  | .other c => [c]

/-- The text of a word in LaTeX: the words `grad` and `rgrad` are operators. -/
def wordLatex (w : List Char) : List Char :=
  if w = "grad".toList then "\\boldsymbol{\\nabla} ".toList
  else if w = "rgrad".toList then "\\bar{\\boldsymbol{\\nabla}} ".toList
  else w

/-- The text of a token in LaTeX. -/
def Tok.latex : Tok → List Char
  | .word w => wordLatex w
  | .inner => ['\\', 'c', 'd', 'o', 't', ' ']
  | .wedge => ['\\', 'W', ' ']
  | .product => [' ']
  | .commutator => [' ', '\\', 't', 'i', 'm', 'e', 's', ' ']
  | .anticommutator => [' ', '\\', 'b', 'a', 'r', '{', '\\', 't', 'i', 'm', 'e', 's', '}', ' ']
  | .leftContraction => ['\\', 'r', 'f', 'l', 'o', 'o', 'r', ' ']
  | .rightContraction => ['\\', 'l', 'f', 'l', 'o', 'o', 'r', ' ']
  | .superscript => ['^', '{']
  | .other c => [c]

/-- What a token may be by itself. -/
def Tok.Valid : Tok → Prop
  | .word w => w ≠ [] ∧ ∀ c ∈ w, IsWordChar c
  | .other c => ¬ IsWordChar c ∧ c ∉ ['|', '^', '*', '<', '>']
  | _ => True

/-- Which token may follow which: words are maximal, `<<`, `>>` and `^{` are read as one token. -/
def Tok.MayFollow : Tok → Tok → Prop
  | .word _, .word _ => False
  | .leftContraction, .leftContraction => False
  | .leftContraction, .anticommutator => False
  | .rightContraction, .rightContraction => False
  | .rightContraction, .commutator => False
  | .wedge, .other c => c ≠ '{'
  | _, _ => True

/-- The sequences of tokens that strings are read as. -/
def Reading (ts : List Tok) : Prop := (∀ t ∈ ts, t.Valid) ∧ ts.IsChain Tok.MayFollow

/-- `y` is `x` without white space before and after it. -/
def Stripped (x y : List Char) : Prop :=
  ∃ a b, x = a ++ y ++ b ∧ (∀ c ∈ a, c.isWhitespace = true) ∧ (∀ c ∈ b, c.isWhitespace = true) ∧
    (∀ c ∈ y.head?, c.isWhitespace = false) ∧ ∀ c ∈ y.getLast?, c.isWhitespace = false

/-- `y` is `x` without white space before it. -/
def LeftStripped (x y : List Char) : Prop :=
  ∃ a, x = a ++ y ∧ (∀ c ∈ a, c.isWhitespace = true) ∧ ∀ c ∈ y.head?, c.isWhitespace = false

/-- The beginning of an `align*` environment. -/
def beginAlign : List Char := "\\begin{align*}".toList

/-- `out` is `x` in an environment: an `equation*`, or the `align*` that `x` has, with everything that is
before its (first) beginning moved into it. -/
def InEnvironment (x out : List Char) : Prop :=
  (¬ beginAlign <:+: x ∧ ∃ y, Stripped x y ∧
    out = "\\begin{equation*} ".toList ++ y ++ " \\end{equation*}".toList) ∨
  ∃ a b z, x = a ++ beginAlign ++ b ∧ ¬ beginAlign <:+: a ++ beginAlign.dropLast ∧
    LeftStripped (a ++ b) z ∧ out = "\\begin{align*} ".toList ++ z

end GA.Tex
