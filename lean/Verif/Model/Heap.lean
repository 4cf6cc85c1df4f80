import Verif.Model.Deriv

/-!
# Model of the metric argument of an algebra, with references to matrices (galgebra/metric.py)

SymPy matrices are mutable objects that programs share with algebras.  They are kept on a heap, and
a reference to one is its index.  Simplification: only what depends on the metric tensor is kept of an
algebra, and only matrices with as many rows and columns as there are basis vectors are on the heap.
-/

namespace GA.Heap
variable {n : ℕ} {K : Type*} [Field K] [DecidableEq K]

/-- The argument `g` of `Ga(..., g=g)`: a reference to a matrix, a list of lists, a list, or an immutable
matrix (class `ImmutableMatrix` of SymPy).  Strings are the subject of `Model/Names`. -/
inductive Arg (n : ℕ) (K : Type*)
  | matrix (ref : ℕ)
  | rows (rs : List (List K))
  | diag (ds : List K)
  | immutable (M : Matrix (Fin n) (Fin n) K)

/-- metric.py:786-787: `Matrix(g)` for a list of lists, as read by `self.g[i, j]` for `i` and `j` below
`n`.  `none`: the rows have different lengths (`ValueError`), or there are too few rows or columns
(`IndexError`). -/
def ofRows (n : ℕ) (rs : List (List K)) : Option (Matrix (Fin n) (Fin n) K) :=
  if n ≤ rs.length ∧ (∀ r ∈ rs, n ≤ r.length ∧ ∀ s ∈ rs, r.length = s.length) then
    some (Matrix.of fun i j => ((rs.getD i []).getD j 0))
  else none

/-- metric.py:789-792: `m = eye(len(g))`, `m[i, i] = g[i]`.  `none`: there are too few entries
(`IndexError`). -/
def ofDiag (n : ℕ) (ds : List K) : Option (Matrix (Fin n) (Fin n) K) :=
  if n ≤ ds.length then some (Matrix.of fun i j => if i = j then ds.getD i 0 else 0) else none

/-- The entries of a matrix as SymPy's `M[k]` numbers them: row after row. -/
def flatEntries (M : Matrix (Fin n) (Fin n) K) : List K :=
  (List.finRange n).flatMap fun i => (List.finRange n).map fun j => M i j

/-- Where the attribute `g` of an algebra is stored: in a matrix of the program, or in one of its own. -/
inductive Loc (n : ℕ) (K : Type*)
  | shared (ref : ℕ)
  | own (M : Matrix (Fin n) (Fin n) K)

/-- The attributes of an algebra that are computed from the metric tensor: `g`, `g_raw`, `e_norm`,
`is_ortho` and `de`. -/
structure Alg (n : ℕ) (K : Type*) where
  g : Loc n K
  gRaw : Matrix (Fin n) (Fin n) K
  eNorm : Option (Fin n → K)
  isOrtho : Bool
  conn : Option (Fin n → Fin n → Expr K n)

/-- The matrices of the program and the algebras constructed so far. -/
structure State (n : ℕ) (K : Type*) where
  mats : List (Matrix (Fin n) (Fin n) K)
  algs : List (Alg n K)

/-- metric.py:783-792: the matrix that `self.g` refers to; `none`: an exception. -/
def locOf (s : State n K) : Arg n K → Option (Loc n K)
  | .matrix r => if r < s.mats.length then some (.shared r) else none
  | .rows rs => (ofRows n rs).map .own
  | .diag ds => (ofDiag n ds).map .own
  | .immutable M => (ofDiag n (flatEntries M)).map .own

/-- The matrix at a location. -/
def State.read (s : State n K) : Loc n K → Matrix (Fin n) (Fin n) K
  | .shared r => s.mats.getD r 0
  | .own M => M

variable [Invertible (2 : K)]

/-- metric.py:783-833 and ga.py:683-688: the metric part of `Ga(..., g=g, norm=norm)`.  `D` are the
derivatives by the coordinates and `root` is `square_root_of_expr`.  The normalisation assigns to the
entries of `self.g`, wherever it is stored.  `none`: an exception; there is no algebra, and it is raised
before a matrix is changed (simplification: a division by zero is counted as an exception too). -/
def State.construct (D : Fin n → K → K) (root : K → K) (s : State n K) (arg : Arg n K) (norm : Bool) :
    Option (State n K) :=
  (locOf s arg).bind fun loc =>
    let M := s.read loc
    let N := if norm then some fun i => root (M i i) else none
    if norm = true ∧ isOrtho M = false then none
    else (connOf D M N).map fun conn =>
      let M' := currentMetric N M
      let (mats, loc') : List (Matrix (Fin n) (Fin n) K) × Loc n K := match loc with
        | .shared r => (s.mats.set r M', .shared r)
        | .own _ => (s.mats, .own M')
      ⟨mats, s.algs ++ [⟨loc', M, N, isOrtho M, conn⟩]⟩

/-- The attribute `g` of an algebra, as it is when it is read. -/
def State.metric (s : State n K) (a : Alg n K) : Matrix (Fin n) (Fin n) K := s.read a.g

/-- What a program does: construct an algebra, make a matrix, or assign `M[i, j] = v`. -/
inductive Cmd (n : ℕ) (K : Type*)
  | construct (arg : Arg n K) (norm : Bool)
  | matrix (M : Matrix (Fin n) (Fin n) K)
  | assign (ref : ℕ) (i j : Fin n) (v : K)

/-- One command; a command that raises changes nothing. -/
def State.step (D : Fin n → K → K) (root : K → K) (s : State n K) : Cmd n K → State n K
  | .construct arg norm => (s.construct D root arg norm).getD s
  | .matrix M => ⟨s.mats ++ [M], s.algs⟩
  | .assign r i j v => ⟨s.mats.modify r fun M => M.updateRow i (Function.update (M i) j v), s.algs⟩

/-- A program. -/
def State.run (D : Fin n → K → K) (root : K → K) (s : State n K) (cs : List (Cmd n K)) : State n K :=
  cs.foldl (State.step D root) s

end GA.Heap
