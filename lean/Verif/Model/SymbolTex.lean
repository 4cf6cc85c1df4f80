import Verif.Model.Session
import Mathlib.Data.List.Infix

/-!
# Symbols and derivatives in LaTeX and as plain text

printer.py:581-631 and 715-755 (class `GaLatexPrinter`), printer.py:322-344 (class `GaPrinter`).  The names of the
glyphs (`special_alphabet`, printer.py:499-500, which comes from two tables of SymPy) and the function
`split_super_sub` of SymPy, which splits a name into its parts, are parameters.
-/

namespace GA

/-- Python `s.replace(pat, new)` for a text `pat` that is not empty; the number is that of the characters
still to be passed over. -/
def strReplace {α : Type*} [DecidableEq α] (pat new : List α) : ℕ → List α → List α
  | _, [] => []
  | k + 1, _ :: s => strReplace pat new k s
  | 0, c :: s =>
    if pat.isPrefixOf (c :: s) then new ++ strReplace pat new (pat.length - 1) s
    else c :: strReplace pat new 0 s

/-- printer.py:594 `'????' + str(i_sub)`. -/
def parseSym (i : ℕ) : List Char := ['?', '?', '?', '?'] ++ strNat i

/-- printer.py:586-589: the local variables `i_sub`, `parse_dict` and `tmp`. -/
structure Translation where
  iSub : ℕ
  dict : List (List Char × List Char)
  tmp : List Char

/-- printer.py:591-599: one glyph is marked. -/
def markGlyph (t : Translation) (glyph : List Char) : Translation :=
  if glyph <:+: t.tmp then
    { iSub := t.iSub + 1
      dict := t.dict ++ [(parseSym t.iSub,
        if ('\\' :: glyph) <:+: t.tmp then glyph else '\\' :: glyph ++ [' '])]
      tmp := strReplace glyph (parseSym t.iSub) 0 t.tmp }
  else t

/-- printer.py:498 `greek_translated`. -/
def greekTranslated : List (List Char × List Char) :=
  [("lamda".toList, "lambda".toList), ("Lamda".toList, "Lambda".toList)]

/-- printer.py:585-608 `translate`. -/
def translate (alphabet : List (List Char)) (s : List Char) : List Char :=
  let t := alphabet.foldl markGlyph ⟨1, [], s⟩
  let tmp := t.dict.foldl (fun tmp p => strReplace p.1 p.2 0 tmp) t.tmp
  greekTranslated.foldl (fun tmp p => if p.1 <:+: tmp then strReplace p.1 p.2 0 tmp else tmp) tmp

/-- printer.py:610-626 `str_symbol`, for the parts of a name. -/
def strSymbol (alphabet : List (List Char)) (bold : Bool) (name : List Char)
    (supers subs : List (List Char)) : List Char :=
  let name := translate alphabet name
  let name := if bold then "\\boldsymbol{".toList ++ name ++ ['}'] else name
  let supers := supers.map (translate alphabet)
  let subs := subs.map (translate alphabet)
  let name := if supers.length > 0 then name ++ "^{".toList ++ [' '].intercalate supers ++ ['}'] else name
  if subs.length > 0 then name ++ "_{".toList ++ [' '].intercalate subs ++ ['}'] else name

section derivative
variable {V : Type*} [DecidableEq V]

/-- printer.py:724-734: the variables with how often they follow each other; `current` and `i` are the local
variables. -/
def multiplicities (current : V) (i : ℕ) : List V → List (V × ℕ)
  | [] => [(current, i)]
  | symbol :: l =>
    if symbol = current then multiplicities current (i + 1) l
    else (current, i) :: multiplicities symbol 1 l

/-- printer.py:718-749: the text of the operators; `flat` is the setting
`omit_partial_derivative_fraction`. -/
def partialsText (flat : Bool) (print : V → List Char) : List V → List Char
  | [] => []
  | [x] =>
    if flat then "\\partial_{".toList ++ print x ++ ['}']
    else "\\frac{\\partial}{\\partial ".toList ++ print x ++ ['}']
  | x :: l =>
    let m := multiplicities x 1 l
    if flat then
      m.foldl (fun tex p =>
        tex ++ if p.2 = 1 then "\\partial_{".toList ++ print p.1 ++ ['}']
          else "\\partial^{".toList ++ strNat p.2 ++ "}_{".toList ++ print p.1 ++ ['}']) []
    else
      let tex := m.foldl (fun tex p =>
        tex ++ if p.2 = 1 then "\\partial ".toList ++ print p.1
          else "\\partial^{".toList ++ strNat p.2 ++ "} ".toList ++ print p.1) []
      "\\frac{\\partial^{".toList ++ strNat (x :: l).length ++ "}}{".toList ++ tex ++ "} ".toList

/-- printer.py:715-755 `_print_Derivative` of the function with text `body`, which is a sum or a product if
`assoc`. -/
def derivativeTex (flat : Bool) (print : V → List Char) (vars : List V) (assoc : Bool) (body : List Char) :
    List Char :=
  if assoc then partialsText flat print vars ++ "\\left(".toList ++ body ++ "\\right)".toList
  else partialsText flat print vars ++ [' '] ++ body

/-- printer.py:322-344 `GaPrinter._print_Derivative` without colors, of the function with text `body`.  The
list `xi` holds texts, the test `x in xi` compares a symbol with them and fails, so that nothing is ever
merged. -/
def derivativeStr (print : V → List Char) (vars : List (V × ℕ)) (body : List Char) : List Char :=
  vars.foldl (fun s p => s ++ '{' :: print p.1 ++ ['}'] ++ if 1 < p.2 then '^' :: strNat p.2 else []) ['D']
    ++ body

end derivative
end GA
