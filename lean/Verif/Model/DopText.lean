import Verif.Model.DopExpand
import Mathlib.Data.List.Sort
import Mathlib.Data.List.Lex

/-!
# Model of the text forms of differential operators (galgebra/dop.py and class `Dop` of galgebra/mv.py)

Strings are lists of characters.  `Printer` has the texts that SymPy's printer gives for coefficients,
symbols and basis blades, for plain text or for LaTeX.  Symbols are ordered by `x.sort_key()`
(simplification: different symbols have different keys).
-/

namespace GA

/-- What the printer of SymPy (`print_obj._print`) gives, and which coefficients are sums (class `Add`). -/
structure Printer (V R B : Type*) where
  coef : R → List Char
  isAdd : R → Bool
  sym : V → List Char
  base : B → List Char

/-- Python `s.replace('+ -', new)`; the number is that of the characters still to be passed over. -/
def replacePM (new : List Char) : ℕ → List Char → List Char
  | _, [] => []
  | k + 1, _ :: s => replacePM new k s
  | 0, c :: s =>
    if ['+', ' ', '-'].isPrefixOf (c :: s) then new ++ replacePM new 2 s else c :: replacePM new 0 s

/-- Python `s[:-3]`. -/
def dropLast3 (s : List Char) : List Char := s.dropLast.dropLast.dropLast

/-- printer.py:117 `ZERO_STR`. -/
def zeroStr : List Char := [' ', '0', ' ']

/-- The decimal digits of a number, `print_obj._print(n)`. -/
def digits (n : ℕ) : List Char := Nat.toDigits 10 n

section sdop
variable {V : Type*} [LinearOrder V] {R : Type*} [CommRing R] [DecidableEq R] {B : Type*}

/-- dop.py:361-370 `Pdop._sympystr`. -/
def Pdop.str (P : Printer V R B) (p : Pdop V) : List Char :=
  if p.order = 0 then ['D', '{', '}']
  else p.foldl (fun s x => s ++ ('{' :: P.sym x.1 ++ ['}']) ++
    if 1 < x.2 then '^' :: digits x.2 else []) ['D']

/-- dop.py:372-387 `Pdop._latex`. -/
def Pdop.latex (P : Printer V R B) (p : Pdop V) : List Char :=
  if p.order = 0 then []
  else
    let s := "\\frac{\\partial".toList
    let s := if 1 < p.order then s ++ ('^' :: '{' :: digits p.order ++ ['}']) else s
    let s := s ++ ['}', '{']
    let keys := (p.map Prod.fst).insertionSort (· ≤ ·)
    let s := keys.foldl (fun s x =>
      let i := (Dict.get? p x).getD 0
      s ++ "\\partial ".toList ++ P.sym x ++ if 1 < i then '^' :: '{' :: digits i ++ ['}'] else []) s
    s ++ ['}']

/-- dop.py:296-305 `Pdop.sort_key`: the second component. -/
def Pdop.symbols (p : Pdop V) : List V :=
  (p.flatMap fun x => List.replicate x.2 x.1).insertionSort (· ≤ ·)

/-- dop.py:296-305: comparison of two keys `Pdop.sort_key`, pairs of a number and a list. -/
def Pdop.le (p q : Pdop V) : Prop :=
  p.order < q.order ∨ (p.order = q.order ∧ p.symbols ≤ q.symbols)

instance : DecidableRel (Pdop.le (V := V)) := fun p q => by unfold Pdop.le; infer_instance

/-- dop.py:113-115 `Sdop._with_sorted_terms`. -/
def Sdop.sorted (s : Sdop R V) : Sdop R V := s.insertionSort fun t u => t.2.le u.2

/-- dop.py:124-136: what the loop of `Sdop._sympystr` adds for one term, without the ` + `. -/
def Sdop.strTerm (P : Printer V R B) (t : R × Pdop V) : List Char :=
  if t.1 = 1 then t.2.str P
  else if t.1 = -1 then '-' :: t.2.str P
  else if P.isAdd t.1 then '(' :: P.coef t.1 ++ [')', '*'] ++ t.2.str P
  else P.coef t.1 ++ ['*'] ++ t.2.str P

/-- dop.py:148-165: what the loop of `Sdop._latex` adds for one term, without the ` + `. -/
def Sdop.latexTerm (P : Printer V R B) (t : R × Pdop V) : List Char :=
  let pd := t.2.latex P
  if t.1 = 1 then (if pd = [] then ['1'] else pd)
  else if t.1 = -1 then (if pd = [] then ['-', '1'] else '-' :: pd)
  else if P.isAdd t.1 then "\\left ( ".toList ++ P.coef t.1 ++ "\\right ) ".toList ++ pd
  else P.coef t.1 ++ [' '] ++ pd

/-- dop.py:117-140 `Sdop._sympystr`. -/
def Sdop.str (P : Printer V R B) (s : Sdop R V) : List Char :=
  if s.length = 0 then zeroStr
  else dropLast3 (replacePM ['-', ' '] 0
    (s.sorted.foldl (fun acc t => acc ++ strTerm P t ++ [' ', '+', ' ']) []))

/-- dop.py:142-168 `Sdop._latex`. -/
def Sdop.latex (P : Printer V R B) (s : Sdop R V) : List Char :=
  if s.length = 0 then zeroStr
  else dropLast3 (replacePM ['-', ' '] 0
    (s.sorted.foldl (fun acc t => acc ++ latexTerm P t ++ [' ', '+', ' ']) []))

end sdop

section dop
variable {V : Type*} [LinearOrder V] {n : ℕ} {K : Type*} [Field K] [DecidableEq K] [Invertible (2 : K)]

/-- The head of a string is a minus sign, `s[0] == '-'`; an empty string does not occur. -/
def isMinus (s : List Char) : Bool := s.head? == some '-'

/-- mv.py:1901-1922: what the loop of `Dop._sympystr` adds for one term, without the ` + `. -/
def Dop.strTerm (P : Printer V K (Sym n)) (cmpflg : Bool) (t : Sdop K V × Sym n) : List Char :=
  let sd := t.1.str P
  let b := P.base t.2
  if t.2 = .blade [] then sd
  else if 1 < t.1.length then
    (if cmpflg then '(' :: sd ++ [')', '*'] ++ b else b ++ ['*', '('] ++ sd ++ [')'])
  else if isMinus sd && !(t.1.head?.any fun u => P.isAdd u.1) then
    (if cmpflg then sd ++ ['*'] ++ b else '-' :: b ++ ['*'] ++ sd.tail)
  else (if cmpflg then sd ++ ['*'] ++ b else b ++ ['*'] ++ sd)

/-- mv.py:1893-1925 `Dop._sympystr`.  Simplification: `simplify` (mv.py:1897), which does not change the
values of the coefficients, is the identity.  `none`: an exception. -/
def Dop.str (X : Fields V K n) (P : Printer V K (Sym n)) (d : Dop V K n) : Option (List Char) :=
  if d.terms.length = 0 then some zeroStr
  else (d.mvExpand X).map fun ts => dropLast3 (replacePM ['-'] 0
    (ts.foldl (fun acc t => acc ++ strTerm P d.cmpflg t ++ [' ', '+', ' ']) []))

/-- mv.py:1936-1965: what the loop of `Dop._latex` adds for one term, without the ` + `. -/
def Dop.latexTerm (P : Printer V K (Sym n)) (cmpflg : Bool) (t : Sdop K V × Sym n) : List Char :=
  let sd := t.1.latex P
  let b := P.base t.2
  if t.2 = .blade [] then sd
  else
    (if sd = ['1'] then b else []) ++
    if sd = ['-', '1'] then '-' :: b
    else if 1 < t.1.length then
      (if cmpflg then "\\left ( ".toList ++ sd ++ "\\right ) ".toList ++ b
        else b ++ [' '] ++ "\\left ( ".toList ++ sd ++ "\\right ) ".toList)
    else if isMinus sd && !(t.1.head?.any fun u => P.isAdd u.1) then
      (if cmpflg then sd ++ b else '-' :: b ++ [' '] ++ sd.tail)
    else (if cmpflg then sd ++ [' '] ++ b else b ++ [' '] ++ sd)

/-- mv.py:1927-1968 `Dop._latex`; as in `Dop.str`, `simplify` is the identity. -/
def Dop.latex (X : Fields V K n) (P : Printer V K (Sym n)) (d : Dop V K n) : Option (List Char) :=
  if d.terms.length = 0 then some zeroStr
  else (d.mvExpand X).map fun ts => dropLast3 (replacePM ['-'] 0
    (ts.foldl (fun acc t => acc ++ latexTerm P d.cmpflg t ++ [' ', '+', ' ']) []))

end dop

end GA
