import Verif.Model.GaEval
import Verif.Model.BladeText
import Verif.Spec.Parser
import Verif.Spec.GaEval

/-!
# Specification: how SymPy writes a term, and names of basis vectors
-/

namespace GA
variable {n : ℕ} {R : Type*} [CommRing R]

/-- A variable name: letters, digits and underscores, and not a number. -/
def IsName (s : List Char) : Prop :=
  s ≠ [] ∧ (∀ c ∈ s, nameChar c = true) ∧ ¬ s.all Char.isDigit = true

/-- The number that an expression of numbers and symbols means; `ρ` are the values of the symbols. -/
def Tree.number (ρ : List Char → R) : Tree → R
  | .leaf s => if s.all Char.isDigit = true then (digitsValue s : R) else ρ s
  | .neg t => -t.number ρ
  | .node l c r => if c = '+' then l.number ρ + r.number ρ else if c = '-' then l.number ρ - r.number ρ
      else l.number ρ * r.number ρ

/-- Only `*`, `+` and `-` are used (groups 2 and 3 of the order `'<>|,^,*'`). -/
def PExpr.Arith : PExpr → Prop
  | .name _ => True
  | .paren e => e.Arith
  | .op k l _ r => 2 ≤ k ∧ l.Arith ∧ r.Arith

/-- The expression `e` is how SymPy writes the coefficient `c` without its sign: a positive integer, a symbol, a
product, or a sum in parentheses, like `2*a*(b + c)`.  `ν` are the values of the variables and `ρ` the values of the
symbols.  Powers, quotients, decimal fractions, functions, and sums that begin with a minus sign are not such
expressions, and no sum in parentheses both begins and ends with a product. -/
structure IsCoef (ν : List Char → Val R n) (ρ : List Char → R) (c : R) (e : PExpr) : Prop where
  wf : e.WF [.dots, .wedge, .times]
  arith : e.Arith
  rank : e.rank ≤ 3
  parens : e.SafeParens 3
  leaves : ∀ s ∈ e.tree.leaves, (s.all Char.isDigit = true ∧ s.head? ≠ some '0') ∨ (IsName s ∧ ν s = .scalar (ρ s))
  value : e.tree.number ρ = c

/-- SymPy's text of a term without its sign and without blanks: the coefficient for a scalar, the blade if the
coefficient is 1, otherwise the coefficient, a star and the blade. -/
def unsignedText (names : Fin n → List Char) (w : List Char) (l : List (Fin n)) : List Char :=
  if l = [] then w else if w = ['1'] then bladeText names l else w ++ '*' :: bladeText names l

/-- `s` is, up to blanks, the text of the term `c` times the blade `l`, whose coefficient without sign is the
expression `e`; `neg` says whether it begins with a minus sign. -/
inductive TermText (names : Fin n → List Char) (ν : List Char → Val R n) (ρ : List Char → R) (c : R)
    (l : List (Fin n)) (e : PExpr) : Bool → List Char → Prop
  | plus (s : List Char) (h : IsCoef ν ρ c e) (hs : s.filter (· ≠ ' ') = unsignedText names e.text l) :
      TermText names ν ρ c l e false s
  | minus (s : List Char) (h : IsCoef ν ρ (-c) e) (hs : s.filter (· ≠ ' ') = unsignedText names e.text l) :
      TermText names ν ρ c l e true ('-' :: s)

/-- The parts of a coefficient that `GAeval` handles one by one: what is in parentheses and the products in it; for
a scalar also the product itself. -/
def coefParts (l : List (Fin n)) (e : PExpr) : List PExpr := if l = [] then e.self 3 ++ e.parts 3 else e.parts 3

end GA
