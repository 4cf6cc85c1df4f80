import Verif.Model.Session
import Verif.Model.Mv

/-!
# Model of generic multivectors (mv.py) and of metric strings (metric.py)

Strings are lists of characters, as in `Verif.Model.Session`.
-/

namespace GA
variable {n : ℕ}

/-! ## Generic multivectors -/

/-- ga.py:1136-1146 `basis_super_scripts`: `basis` are the names of the basis vectors and `coords` the
names of the coordinates, if there are any. -/
def basisSuperScripts (basis : List (List Char)) (coords : Option (List (List Char))) :
    List (List Char) :=
  match coords with
  | some c => c
  | none =>
    match basis with
    | [] => []
    | base0 :: _ =>
      if '_' ∈ base0 then basis.map fun b => b.drop (base0.idxOf '_' + 1)
      else (List.range basis.length).map fun i => strNat (i + 1)

/-- ga.py:1148-1152 `blade_super_scripts`: the super script of one blade; `none` is an `IndexError`. -/
def bladeSuperScript (ss : List (List Char)) (I : List (Fin n)) : Option (List Char) :=
  (I.mapM fun i => ss[i.val]?).map List.flatten

/-- mv.py:183-186 `add_superscript`. -/
def addSuperscript (root s : List Char) : List Char :=
  if s = [] then root else root ++ ['_', '_'] ++ s

/-- mv.py:180-203 `_make_grade` with a name and `f=False`: the terms `Symbol(name) * blade`, as pairs
of the name of the symbol and the blade.  `none` is an `IndexError`.  Not modelled: negative grades,
which Python counts from the end, and `f`, which makes functions of the same names. -/
def makeGradeNames (ss : List (List Char)) (name : List Char) (r : ℕ) :
    Option (List (List Char × Sym n)) :=
  (indexes n)[r]?.bind fun idx => (blades n)[r]?.bind fun bl =>
    (idx.mapM (bladeSuperScript ss)).map fun scripts => (scripts.map (addSuperscript name)).zip bl

/-- mv.py:215-275: the kinds of generic multivectors. -/
inductive Kind
  | scalar
  | vector
  | bivector
  | pseudo
  | grade (r : ℕ)
  | mv
  | even
  | odd
deriving DecidableEq, Repr

/-- mv.py:215-275: the grades each kind adds up, in order. -/
def Kind.gradeList (n : ℕ) : Kind → List ℕ
  | .scalar => [0]
  | .vector => [1]
  | .bivector => [2]
  | .pseudo => [n]
  | .grade r => [r]
  | .mv => List.range (n + 1)
  | .even => (List.range (n + 1)).filter fun r => r % 2 = 0
  | .odd => (List.range (n + 1)).filter fun r => r % 2 = 1

/-- mv.py:215-275, 385-398: the terms of `Ga.mv(name, kind)`. -/
def makeNames (ss : List (List Char)) (name : List Char) (k : Kind) :
    Option (List (List Char × Sym n)) :=
  ((k.gradeList n).mapM (makeGradeNames ss name)).map List.flatten

/-- `Ga.mv(name, kind)` as an expression, where `val` gives the value of every symbol. -/
def makeGeneric {R : Type*} (val : List Char → R) (ss : List (List Char)) (name : List Char)
    (k : Kind) : Option (Expr R n) :=
  (makeNames ss name k).map fun l => l.map fun t => (val t.1, t.2)

/-! ## Metric strings -/

/-- metric.py:401-409 `_build_metric_element`.  `dot i j` is the symbol `e_i.e_j`, and `rat` is SymPy's
`Rational` of a string (`none`: `TypeError`). -/
def metricElement {K : Type*} (dot : Fin n → Fin n → K) (rat : List Char → Option K)
    (s : List Char) (i j : Fin n) : Option K :=
  if s = ['#'] then some (if i ≤ j then dot i j else dot j i) else rat s

/-- Python `s.strip()`; simplification: blanks are the only white space. -/
def strip (s : List Char) : List Char :=
  ((s.dropWhile (· = ' ')).reverse.dropWhile (· = ' ')).reverse

/-- metric.py:411-464 `metric_symbols_list` of a string.  `none`: an exception is raised.
Simplification: the elements of a single row with more than `n` entries are not built. -/
def metricString {K : Type*} [Zero K] (dot : Fin n → Fin n → K)
    (rat : List Char → Option K) (s : List Char) : Option (Matrix (Fin n) (Fin n) K) :=
  let rows := splitOn ',' s
  if rows.length = 1 then
    let m := splitOn ' ' s
    if m.length ≠ n then none
    else
      ((List.finRange n).mapM fun (i : Fin n) => metricElement dot rat (m.getD i []) i i).map fun d =>
        Matrix.of fun i j => if i = j then d.getD i 0 else 0
  else
    let m := rows.map fun r => splitOn ' ' (strip r)
    if m.any fun cols => cols.length ≠ rows.length then none
    else if m.length ≠ n then none
    else
      ((List.finRange n).mapM fun (i : Fin n) => (List.finRange n).mapM fun (j : Fin n) =>
          metricElement dot rat ((m.getD i []).getD j []) i j).map fun d =>
        Matrix.of fun i j => (d.getD i []).getD j 0

/-- metric.py:418-421: the string used when no metric is given. -/
def defaultMetricString (n : ℕ) : List Char :=
  let s := (List.replicate n ['#', ' ']).flatten
  let s := (List.replicate n (s.dropLast ++ [','])).flatten
  s.dropLast

/-- metric.py:763-776: the general metric `g='g'`: entry `i, j` is a function named after the two
coordinates. -/
def generalMetricName (coords : Fin n → List Char) (i j : Fin n) : List Char :=
  ['g', '_'] ++ coords i ++ ['_'] ++ coords j

/-! ## Vector manifolds -/

/-- metric.py:371-399 `dot_orthogonal`; `none` is a `ValueError`. -/
def dotOrthogonal {K : Type*} [CommRing K] (V1 V2 : List K) (g : Option (List K)) : Option K :=
  match g with
  | none => some ((V1.zip V2).foldl (fun d p => d + p.1 * p.2) 0)
  | some g =>
    if g.length = V1.length then
      some ((V1.zip (V2.zip g)).foldl (fun d p => d + p.1 * p.2.1 * p.2.2) 0)
    else none

/-- metric.py:741-759: the metric of a vector manifold `X`; `D i` differentiates by coordinate `i`.
`dot_orthogonal` is called with the argument `g`, which is `None` on this path.  Simplification:
`trigsimp` does not change a value. -/
def manifoldMetric {K : Type*} [CommRing K] (D : Fin n → K → K) (X : List K) :
    Matrix (Fin n) (Fin n) K :=
  Matrix.of fun i j => (dotOrthogonal (X.map (D i)) (X.map (D j)) none).getD 0

end GA
