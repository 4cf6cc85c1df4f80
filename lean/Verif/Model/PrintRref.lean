import Mathlib.Data.Matrix.Basic
import Mathlib.Data.List.OfFn

/-!
# Model of `printrref` (galgebra/mv.py)

Strings are lists of characters.  `rref` is SymPy's `Matrix.rref()[0]`, and `str` is Python's `str` of an entry.
-/

namespace GA

/-- mv.py:2035-2042: the line for the row `row` of a matrix with `cols` columns, where `vars` is long enough; `none`: the
`IndexError` of `rrefmatrix[i, -1]` in a matrix without columns. -/
def rrefLine {K : Type*} (str : K → List Char) (vars : List Char) (cols : ℕ) (row : List K) : Option (List Char) :=
  -- for j in range(cols - 1)
  let result := ((row.take (cols - 1)).zip vars).zipIdx.foldl (fun result e =>
    let result := result ++ (str e.1.1 ++ [e.1.2])
    if (e.2 : ℤ) ≠ (cols : ℤ) - 2 then result ++ " + ".toList else result) []
  row.getLast?.map fun d => result ++ (" = ".toList ++ str d)

/-- mv.py:2029-2042 `printrref`: the lines that are printed. -/
def printrref {K : Type*} {rows cols : ℕ} (rref : Matrix (Fin rows) (Fin cols) K → Matrix (Fin rows) (Fin cols) K)
    (str : K → List Char) (vars : List Char) (M : Matrix (Fin rows) (Fin cols) K) : Option (List (List Char)) :=
  if (vars.length : ℤ) < cols - 1 then some ["Not enough variables.".toList]
  else (List.ofFn fun i => rrefLine str vars cols (List.ofFn (rref M i))).mapM id

end GA
