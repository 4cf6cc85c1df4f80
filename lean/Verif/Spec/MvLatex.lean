import Verif.Spec.Print
import Verif.Model.DopText
import Verif.Spec.TexLex

/-!
# How the LaTeX form of a multivector is read
-/

namespace GA
variable {n : ℕ} {R : Type*} [CommRing R] [DecidableEq R]

/-- The LaTeX text of one term: a sum is in parentheses, and the coefficients 1 and -1 of a blade are
not written, except for the sign. -/
def termLatex (P : Printer (Fin n) R (Sym n)) (c : R) (b : Sym n) : List Char :=
  let base := if b = .blade [] then [] else P.base b
  if P.isAdd c then "\\left (".toList ++ P.coef c ++ "\\right )".toList ++ base
  else if b ≠ .blade [] ∧ c = 1 then base
  else if b ≠ .blade [] ∧ c = -1 then '-' :: base
  else P.coef c ++ base

/-- The lines of a text: a single line stands for itself, several are in an `aligned` environment. -/
def latexLayout : List (List Char) → List Char
  | [l] => l
  | ls => " \\begin{aligned}[t] ".toList ++
      List.intercalate [' ', '\\', '\\', ' '] (ls.map fun l => [' ', '&', ' '] ++ l) ++
      "  \\end{aligned} ".toList

/-- What is assumed of SymPy's LaTeX texts: blanks are the only white space, the numbers 1 and -1 have their
usual texts and no other coefficient has, a text with a minus sign in front is the negative of the rest, and
the texts of blades are not blank and have no minus sign in front. -/
structure Printer.Tidy (P : Printer (Fin n) R (Sym n)) : Prop where
  coef_blank : ∀ c, ∀ ch ∈ P.coef c, ch.isWhitespace = true → ch = ' '
  base_blank : ∀ b, ∀ ch ∈ P.base b, ch.isWhitespace = true → ch = ' '
  one : ∀ c, P.coef c = ['1'] ↔ c = 1
  negOne : ∀ c, P.coef c = ['-', '1'] ↔ c = -1
  add_one : P.isAdd 1 = false
  add_negOne : P.isAdd (-1) = false
  neg : ∀ c s, P.isAdd c = false → noSpace (P.coef c) = '-' :: s →
    P.isAdd (-c) = false ∧ s = noSpace (P.coef (-c))
  base : ∀ b, ∃ x r, noSpace (P.base b) = x :: r ∧ x ≠ '-'

/-! ### Tokens -/

/-- The tokens of one term. -/
def termLex (P : Printer (Fin n) R (Sym n)) (c : R) (b : Sym n) : List (List Char) :=
  let base := if b = .blade [] then [] else Tex.lex (P.base b)
  if P.isAdd c then [['\\', 'l', 'e', 'f', 't'], ['(']] ++ Tex.lex (P.coef c) ++
    [['\\', 'r', 'i', 'g', 'h', 't'], [')']] ++ base
  else if b ≠ .blade [] ∧ c = 1 then base
  else if b ≠ .blade [] ∧ c = -1 then ['-'] :: base
  else Tex.lex (P.coef c) ++ base

/-- A sequence of tokens that says the sum of the terms `T`. -/
inductive SaysSum (P : Printer (Fin n) R (Sym n)) : List (List Char) → Expr R n → Prop
  | one (c : R) (b : Sym n) : SaysSum P (termLex P c b) [(c, b)]
  | plus {s : List (List Char)} {T : Expr R n} (d : R) (b : Sym n) :
      SaysSum P s T → SaysSum P (s ++ ['+'] :: termLex P d b) (T ++ [(d, b)])
  | minus {s : List (List Char)} {T : Expr R n} (d : R) (b : Sym n) :
      SaysSum P s T → SaysSum P (s ++ ['-'] :: termLex P d b) (T ++ [(-d, b)])

/-- The tokens of a text of several lines, given the tokens of the lines: each line is a row, with an
alignment point in front of it. -/
def layoutTokens : List (List (List Char)) → List (List Char)
  | [l] => l
  | ls => Tex.lex "\\begin{aligned}[t]".toList ++
      List.intercalate [['\\', '\\']] (ls.map fun l => ['&'] :: l) ++
      Tex.lex "\\end{aligned}".toList

/-- What is assumed of the tokens of SymPy's LaTeX texts. -/
structure Printer.TidyTokens (P : Printer (Fin n) R (Sym n)) : Prop where
  coef : ∀ c, Tex.Complete (P.coef c)
  base : ∀ b, Tex.Complete (P.base b)
  last : ∀ b, ∀ ch ∈ (P.base b).getLast?, ch.isWhitespace = false
  head : ∀ b, (Tex.lex (P.base b)).head? ≠ some ['-']
  neg : ∀ c s, P.isAdd c = false → Tex.lex (P.coef c) = ['-'] :: s →
    P.isAdd (-c) = false ∧ s = Tex.lex (P.coef (-c))

end GA
