import Verif.Model.Names
import Verif.Model.Lt

/-!
# Model of symbolic matrices and of transformations made from a name (lt.py)

A matrix of symbols is modelled by its values: `val` gives the value of the symbol (or, with `f=True`,
of the function of the coordinates) of each name.  Strings are lists of characters.
-/

namespace GA
variable {n : ℕ} {R : Type*} [CommRing R] [DecidableEq R]

/-- lt.py:62, 67: the name of an entry of a general matrix; `ci` and `cj` are `str(coords[i])` and
`str(coords[j])`. -/
def generalEntry (kernel ci cj : List Char) : List Char :=
  '{' :: (kernel ++ ('_' :: '_' :: (ci ++ ('}' :: '_' :: cj))))

/-- lt.py:52-69 `general_matrix`. -/
def generalMatrix (kernel : List Char) (coords : Fin n → List Char) (val : List Char → R) :
    Matrix (Fin n) (Fin n) R :=
  Matrix.of fun i j => val (generalEntry kernel (coords i) (coords j))

/-- lt.py:76-82, 96-102: the list `parameters`, `for i in range(m, 0, -1)`. -/
def matrixParameters (kernel : List Char) (m : ℕ) : List (List Char) :=
  (List.range m).map fun k => kernel ++ '_' :: strNat (m - k)

/-- The assignment `S[i, j] = v` to a matrix. -/
def setEntry (S : ℕ → ℕ → R) (i j : ℕ) (v : R) : ℕ → ℕ → R :=
  fun k l => if k = i ∧ l = j then v else S k l

/-- lt.py:85-88, 105-108: the body of the two nested loops, for the given pairs `(i, j)` in the order of
the loops: `S[i, j] = parameters.pop(); S[j, i] = flip(S[i, j])`.  `none` is the `IndexError` of
`pop`. -/
def fillEntries (val : List Char → R) (flip : R → R) :
    List (ℕ × ℕ) → List (List Char) → (ℕ → ℕ → R) → Option (ℕ → ℕ → R)
  | [], _, S => some S
  | (i, j) :: ps, parameters, S =>
    match parameters.getLast? with
    | none => none
    | some p =>
      let S1 := setEntry S i j (val p)
      fillEntries val flip ps parameters.dropLast (setEntry S1 j i (flip (S1 i j)))

/-- lt.py:85-86, 105-106: the pairs `for i in range(n): for j in range(i + d, n)`. -/
def upperPairs (n d : ℕ) : List (ℕ × ℕ) :=
  (List.range n).flatMap fun i => (List.range' (i + d) (n - (i + d))).map fun j => (i, j)

/-- lt.py:71-89 `symmetric_matrix`. -/
def symmetricMatrix (n : ℕ) (kernel : List Char) (val : List Char → R) :
    Option (Matrix (Fin n) (Fin n) R) :=
  (fillEntries val (fun x => x) (upperPairs n 0) (matrixParameters kernel (n * (n + 1) / 2))
    (fun _ _ => 0)).map fun S => Matrix.of fun i j => S i.val j.val

/-- lt.py:91-109 `antisymmetric_matrix`. -/
def antisymmetricMatrix (n : ℕ) (kernel : List Char) (val : List Char → R) :
    Option (Matrix (Fin n) (Fin n) R) :=
  (fillEntries val (fun x => -x) (upperPairs n 1) (matrixParameters kernel (n * (n - 1) / 2))
    (fun _ _ => 0)).map fun S => Matrix.of fun i j => S i.val j.val

/-- lt.py:37-121 `Symbolic_Matrix(kernel, coords, f, mode)`: `coords` is `none` if it is neither a list
nor a tuple.  `none` is a `ValueError` (or the `IndexError` of `pop`). -/
def symbolicMatrix (kernel : List Char) (coords : Option (Fin n → List Char)) (val : List Char → R)
    (mode : String) : Option (Matrix (Fin n) (Fin n) R) :=
  match coords with
  | none => none
  | some c =>
    if mode ∉ ["g", "s", "a"] then none
    else if mode = "g" then some (generalMatrix kernel c val)
    else if mode = "s" then symmetricMatrix n kernel val
    else antisymmetricMatrix n kernel val

/-- lt.py:217-230, the deprecated property `Lt.mode`.  `none`: the matrix cannot be computed. -/
def Lt.modeOf (L : Lt R n) : Option String :=
  L.matrix.map fun m =>
    if m = m.transpose then "s" else if m = -m.transpose then "a" else "g"

/-- lt.py:348-353: `Lt(name, ga=ga, f=f, mode=mode)`, the string constructor; `coords` are the names
of the coordinates of the algebra, if it has any.  `none` is an exception. -/
def Lt.ofString {K : Type*} [Field K] [DecidableEq K] [Invertible (2 : K)]
    (g : Matrix (Fin n) (Fin n) K) (kernel : List Char) (coords : Option (Fin n → List Char))
    (val : List Char → K) (mode : String) : Option (Lt K n) :=
  (symbolicMatrix kernel coords val mode).bind fun Amat =>
    if mode = "g" then some (Lt.ofMatrix Amat)
    else if mode ∈ ["s", "a"] then (gInv g).map fun gi => Lt.ofMatrix (gi * Amat)
    else some []

end GA
