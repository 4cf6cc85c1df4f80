import Verif.Model.SymbolTex
import Verif.Model.Names
import Mathlib.Data.Rat.Defs

/-!
# Powers and functions in LaTeX

printer.py:520-579 and 633-713 (class `GaLatexPrinter`).  The texts of bases, exponents and arguments are those of the
other methods of the printer; what SymPy decides (`_needs_brackets`, `_needs_function_brackets`, the names with a
command of their own) is part of the input.
-/

namespace GA

/-- The settings of the printer, printer.py:427-443 and those of SymPy's `LatexPrinter`. -/
structure TexSettings where
  itex : Bool := false
  foldFracPowers : Bool := false
  foldFuncBrackets : Bool := false
  omitFunctionArgs : Bool := false
  invTrigStyle : List Char := "abbreviated".toList

/-- The base of a power: `self._print(expr.base)`, `expr.base.is_Function` and `self._needs_brackets(expr.base)`. -/
structure TexBase where
  text : List Char
  isFunction : Bool
  needsBrackets : Bool

/-- The exponent: a rational number, or another expression with its text. -/
inductive TexExp
  | rat (r : ℚ)
  | other (text : List Char)

/-- Python `str(i)`. -/
def texInt (i : ℤ) : List Char := (if i < 0 then ['-'] else []) ++ strNat i.natAbs

/-- printer.py:522-525 `mode`. -/
def powMode (base : List Char) : Bool :=
  (('_' ∈ base) || ('^' ∈ base)) && !("cdot".toList <:+: base : Bool)

/-- printer.py:532-537: a root. -/
def rootTex (S : TexSettings) (base : List Char) (q : ℕ) : List Char :=
  if q = 2 then "\\sqrt{".toList ++ base ++ ['}']
  else if S.itex then "\\root{".toList ++ strNat q ++ "}{".toList ++ base ++ ['}']
  else "\\sqrt[".toList ++ strNat q ++ "]{".toList ++ base ++ ['}']

/-- printer.py:546-550: an exponent with the setting `fold_frac_powers`. -/
def foldTex (base : List Char) (r : ℚ) : List Char :=
  if powMode base then
    "{\\left ( ".toList ++ base ++ " \\right )}^{".toList ++ (texInt r.num ++ ['/'] ++ strNat r.den) ++ ['}']
  else base ++ "^{".toList ++ (texInt r.num ++ ['/'] ++ strNat r.den) ++ ['}']

/-- printer.py:527-550: roots, and rational exponents with the setting `fold_frac_powers`; `none` for the others. -/
def powSpecial (S : TexSettings) (B : TexBase) (r : ℚ) : Option (List Char) :=
  if r.num.natAbs = 1 ∧ r.den ≠ 1 then
    some (if r < 0 then "\\frac{1}{".toList ++ rootTex S B.text r.den ++ ['}'] else rootTex S B.text r.den)
  else if S.foldFracPowers ∧ r.den ≠ 1 then some (foldTex B.text r)
  else none

/-- printer.py:557-579: the general case; `minus` is `self._print(S.NegativeOne * expr)` if `expr.is_commutative` and the
exponent is -1. -/
def powGeneral (B : TexBase) (minus : Option (List Char)) (exp : List Char) : List Char :=
  let general :=
    if B.needsBrackets then "\\left(".toList ++ B.text ++ "\\right)^{".toList ++ exp ++ ['}']
    else if powMode B.text then "{\\left ( ".toList ++ B.text ++ " \\right )}^{".toList ++ exp ++ ['}']
    else B.text ++ "^{".toList ++ exp ++ ['}']
  if B.isFunction then ['{'] ++ B.text ++ "}^{".toList ++ exp ++ ['}']
  else match minus with
    | some m => if (strip m).head? = some '-' then strip (strip m).tail else general
    | none => general

/-- printer.py:520-579 `_print_Pow`.  `ratTex` is the text of a rational number, `minus` as above.  `Pow(base, 1)` is
`base`. -/
def printPow (S : TexSettings) (ratTex : ℚ → List Char) (minus : Option (List Char)) (B : TexBase) :
    TexExp → List Char
  | .other e => powGeneral B none e
  | .rat r =>
    match powSpecial S B r with
    | some t => t
    | none =>
      if r < 0 ∧ B.isFunction then
        "\\frac{1}{".toList ++
          (if -r = 1 then B.text
            else match powSpecial S B (-r) with
              | some t => t
              | none => powGeneral B none (ratTex (-r))) ++ ['}']
      else powGeneral B (if r = -1 then minus else none) (ratTex r)

/-- Python `fmt % arg` for a text: `%s` stands for it once, `%%` for a percent sign; other uses of the percent sign and
a number of arguments other than one raise an exception, `none`.  (Simplified: Python also knows other conversions of
texts, such as `%r`.) -/
def pyPercent (arg : Option (List Char)) : List Char → Option (List Char)
  | [] => match arg with
    | none => some []
    | some _ => none
  | '%' :: 's' :: f => arg.bind fun a => (pyPercent none f).map (a ++ ·)
  | '%' :: '%' :: f => (pyPercent arg f).map ('%' :: ·)
  | '%' :: _ => none
  | c :: f => (pyPercent arg f).map (c :: ·)

/-- printer.py:651-652 `inv_trig_table`. -/
def invTrigTable : List (List Char) :=
  ["asin", "acos", "atan", "acot", "acosh", "asinh", "atanh"].map String.toList

/-- printer.py:655-661: the name in the chosen style. -/
def styledName (S : TexSettings) (func : List Char) : List Char :=
  if func ∈ invTrigTable then
    if S.invTrigStyle = "full".toList then "arc".toList ++ func.tail
    else if S.invTrigStyle = "power".toList then func.tail
    else func
  else func

/-- printer.py:633-713 `_print_Function`, for functions without a method of their own.  `accepted` are the names with a
command of their own (SymPy), `symTex` is `latex(Symbol(name))`, `needsBrackets` is
`self._needs_function_brackets(expr.args[0])`.  `none` if the formatting raises an exception. -/
def printFunction (S : TexSettings) (accepted : List (List Char)) (symTex : List Char → List Char) (func : List Char)
    (args : List (List Char)) (needsBrackets : Bool) (exp : Option (List Char)) : Option (List Char) :=
  let f := styledName S func
  let power : Bool := func ∈ invTrigTable ∧ S.invTrigStyle = "power".toList
  let fold := S.foldFuncBrackets && args.length == 1 && !needsBrackets && !(power && exp.isSome)
  let name :=
    if power then
      if f ∈ accepted then '\\' :: f ++ "^{-1}".toList else "\\operatorname{".toList ++ f ++ "}^{-1}".toList
    else match exp with
      | some e =>
        if f ∈ accepted then '\\' :: f ++ "^{".toList ++ e ++ ['}']
        else if '_' ∈ f ∨ '^' ∈ f then
          "{\\left ( ".toList ++ symTex f ++ " \\right ) }^{".toList ++ e ++ ['}']
        else symTex f ++ " ^{".toList ++ e ++ ['}']
      | none => if f ∈ accepted then '\\' :: f else symTex f ++ [' ']
  let name :=
    if fold then
      if f ∈ accepted then name ++ " {%s}".toList
      else if S.omitFunctionArgs then name else name ++ "%s".toList
    else if f ∈ accepted ∨ !S.omitFunctionArgs then name ++ "{\\left (%s \\right )}".toList else name
  let name := if power then match exp with
    | some e => name ++ "^{".toList ++ e ++ ['}']
    | none => name
    else name
  if f ∈ accepted ∨ !S.omitFunctionArgs then pyPercent (some ([','].intercalate args)) name else some name

end GA
