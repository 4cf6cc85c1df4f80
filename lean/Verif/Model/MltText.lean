import Verif.Model.DopText
import Mathlib.Data.List.Sort

/-!
# Model of the LaTeX form of a multilinear function (lt.py `Mlt._latex`, `Mlt.expand_expr`)
-/

namespace GA

/-- The tree of an expanded SymPy expression, as far as `expand_expr` looks at it: symbols `a_{i+1}__k` of
generic vectors, symbols and numbers, functions and powers without symbols of generic vectors, products and
sums.  `A` are the values of expressions. -/
inductive SExpr (A : Type*) (n : ℕ)
  | slot (i : ℕ) (k : Fin n)
  | atom (c : A)
  | app (c : A) (args : List (SExpr A n))
  | mul (args : List (SExpr A n))
  | add (args : List (SExpr A n))

namespace SExpr
variable {A : Type*} {n : ℕ}

/-- SymPy `e.args`. -/
def args : SExpr A n → List (SExpr A n)
  | .slot _ _ | .atom _ => []
  | .app _ l | .mul l | .add l => l

/-- lt.py:776, 780 `factor in ga._mlt_acoefs`, where the algebra has `slots` generic vectors. -/
def asSlot (slots : ℕ) : SExpr A n → Option (ℕ × Fin n)
  | .slot i k => if i < slots then some (i, k) else none
  | _ => none

variable [CommRing A]

mutual
/-- The value of an expression, where the symbols of the generic vectors have the values `a`. -/
def value (a : ℕ → Fin n → A) : SExpr A n → A
  | .slot i k => a i k
  | .atom c => c
  | .app c _ => c
  | .mul l => valueProd a l
  | .add l => valueSum a l

/-- The value of a product. -/
def valueProd (a : ℕ → Fin n → A) : List (SExpr A n) → A
  | [] => 1
  | e :: l => e.value a * valueProd a l

/-- The value of a sum. -/
def valueSum (a : ℕ → Fin n → A) : List (SExpr A n) → A
  | [] => 0
  | e :: l => e.value a + valueSum a l
end

end SExpr

section
variable {A : Type*} {n : ℕ} [CommRing A]

/-- lt.py:773-781: `coef` and `a_lst` of a term. -/
def splitTerm (a : ℕ → Fin n → A) (slots : ℕ) (term : SExpr A n) : A × List (ℕ × Fin n) :=
  term.args.foldl (fun p factor =>
    match factor.asSlot slots with
    | some s => (p.1, p.2 ++ [s])
    | none => (p.1 * factor.value a, p.2)) (1, [])

/-- lt.py:781: `b_lst`, the positions in `ga._mlt_acoefs`, where the `n` symbols of each generic vector
follow each other. -/
def slotPos (l : List (ℕ × Fin n)) : List ℕ := l.map fun s => s.1 * n + s.2.1

/-- lt.py:788-801: the loop that adds the coefficients of consecutive terms with equal symbols, from the
state `coef`, `a` on. -/
def mltGroup (coef : A) (a : List (ℕ × Fin n)) :
    List (A × List (ℕ × Fin n)) → List (A × List (ℕ × Fin n))
  | [] => [(coef, a)]
  | t :: ts =>
    if slotPos a = slotPos t.2 then mltGroup (coef + t.1) a ts
    else (coef, a) :: mltGroup t.1 t.2 ts

/-- lt.py:769-801 `expand_expr`; `none`: the `UnboundLocalError` of line 800 for an expression without
arguments. -/
def expandExpr (a : ℕ → Fin n → A) (slots : ℕ) (e : SExpr A n) :
    Option (List (A × List (ℕ × Fin n))) :=
  match (e.args.map (splitTerm a slots)).insertionSort (fun x y => slotPos x.2 ≤ slotPos y.2) with
  | [] => none
  | t :: ts => some (mltGroup t.1 t.2 ts)

/-- SymPy's texts: `str(c)`, the LaTeX texts of coefficients and of the symbols of generic vectors, and the
test `isinstance(c, Add)`. -/
structure MltPrinter (A : Type*) (n : ℕ) where
  str : A → List Char
  latex : A → List Char
  isAdd : A → Bool
  slot : ℕ × Fin n → List Char

/-- lt.py:717-729: the text of a term.  Simplification: `str(c)` is never empty. -/
def mltTerm (P : MltPrinter A n) (first : Bool) (t : A × List (ℕ × Fin n)) : List Char :=
  let coefLatex := P.latex t.1
  let coefLatex :=
    if P.isAdd t.1 then "\\left ( ".toList ++ coefLatex ++ "\\right ) ".toList else coefLatex
  let coefLatex :=
    if first then coefLatex
    else if (P.str t.1).head? ≠ some '-' ∨ P.isAdd t.1 = true then " + ".toList ++ coefLatex
    else coefLatex
  t.2.foldl (fun s aij => s ++ (P.slot aij ++ [' '])) coefLatex

/-- lt.py:716-738: the loop over the terms, from the state `first`, `cnt` on. -/
def mltLoop (P : MltPrinter A n) (lcnt : ℕ) (first : Bool) (cnt : ℕ) :
    List (A × List (ℕ × Fin n)) → List Char
  | [] => []
  | t :: ts =>
    let line := if cnt = 1 then " & ".toList ++ mltTerm P first t else mltTerm P first t
    if cnt % lcnt = 0 then line ++ "\\\\ ".toList ++ mltLoop P lcnt false 1 ts
    else line ++ mltLoop P lcnt false (cnt + 1) ts

/-- lt.py:712-741: the text for the list of terms; `none`: the `ZeroDivisionError` of `cnt % lcnt`. -/
def mltLines (P : MltPrinter A n) (lcnt : ℕ) (terms : List (A × List (ℕ × Fin n))) :
    Option (List Char) :=
  if lcnt = 0 then none
  else
    let latexStr := "\\begin{aligned} ".toList ++ mltLoop P lcnt true 1 terms
    let latexStr := if lcnt = terms.length ∨ lcnt = 1 then dropLast3 latexStr else latexStr
    some (latexStr ++ " \\end{aligned} ".toList)

/-- lt.py:708-741 `_latex`, with the setting `galgebra_mlt_lcnt`. -/
def mltLatex (a : ℕ → Fin n → A) (slots : ℕ) (P : MltPrinter A n) (lcnt nargs : ℕ) (e : SExpr A n) :
    Option (List Char) :=
  if nargs ≤ 1 then some (P.latex (e.value a))
  else (expandExpr a slots e).bind (mltLines P lcnt)

end
end GA
