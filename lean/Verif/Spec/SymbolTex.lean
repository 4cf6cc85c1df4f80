import Mathlib.Data.List.Infix
import Mathlib.Data.List.SplitBy
import Verif.Spec.TexLex

/-!
# How names and derivatives are typeset
-/

namespace GA

/-- A name as a row of characters and glyphs, such as `f`, `β`, `1`; a glyph is given by its English name. -/
abbrev Row := List (Char ⊕ List Char)

/-- The name that is spelled out by a row. -/
def Row.name (T : Row) : List Char := T.flatMap (Sum.elim (fun c => [c]) id)

/-- TeX's word for a glyph: SymPy writes `lamda`. -/
def texWord (g : List Char) : List Char := if g = "lamda".toList then "lambda".toList else g

/-- TeX's tokens for a row: blanks are nothing, a glyph is a control word. -/
def Row.tokens (T : Row) : List (List Char) :=
  T.flatMap (Sum.elim (fun c => if c = ' ' then [] else [[c]]) fun g => ['\\' :: texWord g])

/-- The row `T` spells `s`, its glyphs are in the alphabet, and there is no glyph of the alphabet left that is
written in single characters. -/
structure Row.Spells (alphabet : List (List Char)) (s : List Char) (T : Row) : Prop where
  name : T.name = s
  mem : ∀ g, Sum.inr g ∈ T → g ∈ alphabet
  rest : ∀ g ∈ alphabet, ¬ g.map Sum.inl <:+: T

/-- The names of the glyphs are words, `lamda` is among them and is not a part of another one. -/
structure GlyphNames (alphabet : List (List Char)) : Prop where
  words : ∀ g ∈ alphabet, g ≠ [] ∧ ∀ c ∈ g, c.isAlpha = true
  lamda : "lamda".toList ∈ alphabet
  only : ∀ g ∈ alphabet, "lamda".toList <:+: g → g = "lamda".toList

/-- A name without question marks and backslashes, in which not more than nine glyphs occur, and not the word
`Lamda`, which the printer spells `Lambda`. -/
structure PlainName (alphabet : List (List Char)) (s : List Char) : Prop where
  noMark : '?' ∉ s
  noBackslash : '\\' ∉ s
  noLamda : ¬ "Lamda".toList <:+: s
  few : (alphabet.filter (· <:+: s)).length ≤ 9

/-- `k` derivatives by the variable with text `x`. -/
def partialTex (flat : Bool) (x : List Char) (k : ℕ) : List Char :=
  let pow := if k = 1 then [] else "^{".toList ++ Nat.toDigits 10 k ++ ['}']
  if flat then "\\partial".toList ++ pow ++ "_{".toList ++ x ++ ['}'] else "\\partial".toList ++ pow ++ [' '] ++ x

/-- The derivatives by the variables of the list, where equal neighbours are taken together. -/
def runsTex {V : Type*} [DecidableEq V] (flat : Bool) (print : V → List Char) (vars : List V) : List Char :=
  (vars.splitBy (· == ·)).flatMap fun run => (run.head?.map fun x => partialTex flat (print x) run.length).getD []

end GA
