import Verif.Spec.TexLex
import Verif.Model.MltText

/-!
# How the LaTeX form of a multilinear function is read
-/

namespace GA
open Tex
variable {A : Type*} {n : ℕ} [CommRing A]

/-- What is assumed of SymPy's texts: they are complete formulas, and a coefficient has a minus sign in front
in both texts or in none. -/
structure MltPrinter.Tidy (P : MltPrinter A n) : Prop where
  latex : ∀ c, Complete (P.latex c)
  slot : ∀ s, Complete (P.slot s)
  nonempty : ∀ c, lex (P.latex c) ≠ []
  sign : ∀ c, P.isAdd c = false →
    ((P.str c).head? = some '-' ↔ (lex (P.latex c)).head? = some ['-'])

/-- The tokens of a coefficient, a sum being in parentheses, and the symbols it is multiplied with. -/
def termTokens (P : MltPrinter A n) (t : A × List (ℕ × Fin n)) : List (List Char) :=
  (if P.isAdd t.1 then [['\\', 'l', 'e', 'f', 't'], ['(']] ++ lex (P.latex t.1) ++
      [['\\', 'r', 'i', 'g', 'h', 't'], [')']]
    else lex (P.latex t.1)) ++ t.2.flatMap fun s => lex (P.slot s)

/-- Term number `j` of a sum: with a plus sign, except for the first term and terms with a minus sign. -/
def summand (j : ℕ) (toks : List (List Char)) : List (List Char) :=
  if j = 0 ∨ toks.head? = some ['-'] then toks else ['+'] :: toks

/-- The tokens of a list of terms in lines of `lcnt` terms: `&` is before the first term of each line, and
`\\` is at the end of each line with `lcnt` terms, except at the very end when there is one line or one
term on each. -/
def tokensFrom (P : MltPrinter A n) (lcnt len j : ℕ) : List (A × List (ℕ × Fin n)) → List (List Char)
  | [] => []
  | t :: ts =>
    (if lcnt ∣ j then [['&']] else []) ++ summand j (termTokens P t) ++
      (if lcnt ∣ j + 1 ∧ ¬ (j + 1 = len ∧ (lcnt = 1 ∨ lcnt = len)) then [['\\', '\\']] else []) ++
      tokensFrom P lcnt len (j + 1) ts

/-- The product of the components of vectors that belong to a list of symbols. -/
def slotProd (a : ℕ → Fin n → A) (l : List (ℕ × Fin n)) : A := (l.map fun s => a s.1 s.2).prod

/-- The components of the basis vectors with the numbers `I`. -/
def basisArgs (I : ℕ → Fin n) (i : ℕ) (k : Fin n) : A := if k = I i then 1 else 0

/-- The symbol of a generic vector that an expression is. -/
def SExpr.slot? : SExpr A n → Option (ℕ × Fin n)
  | .slot i k => some (i, k)
  | _ => none

/-- A term of an expanded multilinear expression with generic vectors `order`: a product that has for each
of them exactly one symbol, in this order, and else only factors without such symbols. -/
def IsTerm (order : List ℕ) (t : SExpr A n) : Prop :=
  ∃ (fs : List (SExpr A n)) (I : ℕ → Fin n), t = .mul fs ∧
    fs.filterMap SExpr.slot? = order.map (fun i => (i, I i)) ∧
    ∀ f ∈ fs, (∃ i k, f = .slot i k) ∨ (∃ c, f = .atom c) ∨ ∃ c l, f = .app c l

end GA
