import Mathlib.Data.List.Basic

/-!
# How TeX reads a formula

A backslash and the letters after it are one token, a backslash and another character are one token, blanks
only end tokens, and every other character is a token.
-/

namespace GA.Tex

/-- The tokens of a text; `w` is the part of a token with a backslash that is already read. -/
def lexGo (w : List Char) : List Char → List (List Char)
  | [] => if w = [] then [] else [w]
  | c :: s =>
    if w = [] then
      if c = ' ' then lexGo [] s else if c = '\\' then lexGo ['\\'] s else [c] :: lexGo [] s
    else if w = ['\\'] then
      if c.isAlpha then lexGo ['\\', c] s else ['\\', c] :: lexGo [] s
    else if c.isAlpha then lexGo (w ++ [c]) s
    else w :: (if c = ' ' then lexGo [] s else if c = '\\' then lexGo ['\\'] s else [c] :: lexGo [] s)

/-- The tokens of a formula. -/
def lex (s : List Char) : List (List Char) := lexGo [] s

/-- However the text goes on, `s` is read in the same way. -/
def Closed (s : List Char) : Prop := ∀ b, lex (s ++ b) = lex s ++ lex b

/-- However the text goes on, `s` is read in the same way, except if a letter follows: that letter may be
part of the last token. -/
def Complete (s : List Char) : Prop :=
  ∀ b, (∀ c ∈ b.head?, c.isAlpha = false) → lex (s ++ b) = lex s ++ lex b

end GA.Tex
