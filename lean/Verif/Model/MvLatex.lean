import Verif.Model.Print
import Verif.Model.Tex
import Verif.Model.DopText

/-!
# Model of the LaTeX form of a multivector (mv.py `_latex`)

`P : Printer` has SymPy's LaTeX texts of coefficients and blades.  Simplification: `Simp.apply`
(mv.py:699-702) and `coef_simplify` (mv.py:741, 747), which rewrite coefficients without changing their
values, are the identity.
-/

namespace GA
variable {n : ℕ} {R : Type*} [CommRing R] [DecidableEq R]

/-- mv.py:749-761: `cb_str`, the text of a coefficient and a blade. -/
def cbStr (P : Printer (Fin n) R (Sym n)) (coef : R) (base : Sym n) : List Char :=
  let l := P.coef coef
  let l := if l = ['1'] ∧ base ≠ .blade [] then [] else l
  let l := if l = ['-', '1'] ∧ base ≠ .blade [] then ['-'] else l
  let b := if base = .blade [] then [] else P.base base
  if P.isAdd coef then "\\left ( ".toList ++ l ++ "\\right ) ".toList ++ b else l ++ [' '] ++ b

/-- mv.py:684-694 `append_plus`, for the two values of `first_line`.  `none`: the `IndexError` of
`c_str[0]`. -/
def appendPlus (first : Bool) (s : List Char) : Option (List Char) :=
  if first then some s
  else match Tex.strip s with
    | [] => none
    | x :: r => some (if x = '-' then ' ' :: x :: r else [' ', '+', ' '] ++ x :: r)

/-- The variables of the loop: `first_line`, `lines`, `old_grade` and `s`. -/
structure LatexState where
  first : Bool
  lines : List (List Char)
  oldGrade : ℤ
  s : List Char

/-- mv.py:746-773: the body of the loop over `sorted_terms`. -/
def latexStep (fmt : ℕ) (P : Printer (Fin n) R (Sym n)) (st : LatexState)
    (e : ℤ × (R × Sym n × ℤ)) : Option LatexState :=
  let (_, coef, base, grade) := e
  (appendPlus st.first (cbStr P coef base)).map fun t =>
    if fmt = 3 then { st with first := false, lines := st.lines ++ [t] }
    else if fmt = 2 then
      if grade ≠ st.oldGrade then
        ⟨false, if st.first then st.lines else st.lines ++ [st.s], grade, t⟩
      else { st with first := false, s := st.s ++ t }
    else { st with first := false, s := st.s ++ t }

/-- mv.py:774-783: the text after the loop. -/
def latexEnd (fmt : ℕ) (st : LatexState) : List Char :=
  let lines := if fmt = 2 then st.lines ++ [st.s] else st.lines
  if 2 ≤ fmt then
    match lines with
    | [l] => l
    | _ =>
      let s := lines.foldl (fun s line => s ++ [' ', '&', ' '] ++ line ++ [' ', '\\', '\\', ' '])
        " \\begin{aligned}[t] ".toList
      dropLast3 s ++ " \\end{aligned} ".toList
  else st.s

/-- mv.py:740-783: the text for `sorted_terms`.  `none`: an exception. -/
def latexTerms (fmt : ℕ) (P : Printer (Fin n) R (Sym n)) (ts : List (ℤ × (R × Sym n × ℤ))) :
    Option (List Char) :=
  if ts.length = 1 ∧ ts.head?.map (fun e => e.2.2.2) = some 0 then ts.head?.map fun e => P.coef e.2.1
  else (ts.foldlM (latexStep fmt P) ⟨true, [], -1, []⟩).map (latexEnd fmt)

/-- mv.py:677-783 `_latex`, with the setting `galgebra_mv_fmt`; `args` are the terms of the expanded
expression, as SymPy lists them: several terms may have the same symbol.  `none`: an exception. -/
def mvLatex (g : Matrix (Fin n) (Fin n) R) (fmt : ℕ) (P : Printer (Fin n) R (Sym n))
    (args : Expr R n) : Option (List Char) :=
  if args = [] then some zeroStr else latexTerms fmt P (mvTerms g 0 args)

end GA
