import Mathlib.Data.Rat.Defs
import Mathlib.Data.List.Basic

/-!
# Model of `printGS` and `printeigen` (galgebra/mv.py)

Strings are lists of characters.  `str x` is `str(trigsimp(x).evalf(3))`.
-/

namespace GA
variable {α β : Type}

/-- mv.py:2016-2026: the loops of `printGS` over the list `N` of vectors.  `none`: an exception, that is the `IndexError`
of `N[i][j]` or the `UnboundLocalError` of `j` in line 2023.  The state is `result` and `j`. -/
def gsText (str : α → List Char) (N : List (List α)) : Option (List Char) :=
  let m := (N.headD []).length
  (N.foldlM (m := Option) (fun (s : List Char × Option ℕ) (v : List α) => do
    let s ← (List.range m).foldlM (fun (s : List Char × Option ℕ) (j : ℕ) => do
      let x ← v[j]?
      let result := s.1 ++ str x
      some (if (j : ℤ) ≠ (m : ℤ) - 1 then result ++ ", ".toList else result, some j)) (s.1 ++ ['['], s.2)
    let result := s.1 ++ "] ".toList
    let j ← s.2
    some (if (j : ℤ) ≠ (m : ℤ) - 1 then result ++ [' '] else result, some j)) ("[ ".toList, none)).map fun s =>
      s.1 ++ [']']

/-- mv.py:2011-2026 `printGS`: the line that is printed.  `gs` is SymPy's `GramSchmidt` with the option `norm`.  The
global variable `N`, which keeps the vectors, is not modelled. -/
def printGS (gs : Bool → List (List α) → List (List α)) (str : α → List Char) (M : List (List α)) (norm : Bool) :
    Option (List Char) := gsText str (gs norm M)

/-- mv.py:2002-2008: the line for an eigenvector. -/
def eigenLine (str : α → List Char) (v : List α) : List Char :=
  v.zipIdx.foldl (fun result e =>
    let result := result ++ str e.1
    if (e.2 : ℤ) ≠ (v.length : ℤ) - 1 then result ++ ", ".toList else result) ['['] ++ "] ".toList

/-- mv.py:1997-2008 `printeigen`: the lines that are printed, where `evects` is SymPy's `M.eigenvects()`.  The parentheses
in line 2000 make a tuple; `repr` is Python's `repr` of an eigenvalue. -/
def printeigen (repr : β → List Char) (str : α → List Char) (evects : List (β × ℕ × List (List α))) : List (List Char) :=
  evects.flatMap fun e =>
    ("('Eigenvalue =', ".toList ++ (repr e.1 ++ (", '  Multiplicity =', ".toList ++ ((toString e.2.1).toList ++
      ", ' Eigenvectors:')".toList)))) :: e.2.2.map (eigenLine str)

end GA
