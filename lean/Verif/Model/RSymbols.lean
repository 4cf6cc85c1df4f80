import Verif.Model.Session
import Verif.Model.Deriv

/-!
# Names of the basis vectors and of the reciprocal symbols

metric.py:723-742 makes two lists of SymPy symbols from the basis string: the basis vectors and the
reciprocal symbols.  Two symbols with the same name are the same symbol.  `Metric.de` is a linear
combination of reciprocal symbols, in which `Ga` later substitutes the reciprocal vectors
(ga.py:1910-1920); `Model/Deriv.lean` supposes that no reciprocal symbol is a basis vector.  Here
the substitutions are made on the names.
-/

namespace GA

/-- metric.py:262-297 `symbols_list(s, indices, sub)`, the branch with `indices` (metric.py:295-296);
the indices are given by their texts. -/
def symbolsListIdx (s : List Char) (indices : List (List Char)) (sub : Bool) : List (List Char) :=
  indices.map fun i => s ++ (if sub then ['_'] else ['_', '_']) ++ i

/-- metric.py:726-738: the names of `Metric.basis` and of `Metric.r_symbols`.  `coords` are the texts
of the coordinates.  `none` is a `ValueError`. -/
def basisSymbols (basis : List Char) (coords : Option (List (List Char))) :
    Option (List (List Char) × List (List Char)) :=
  if ' ' ∈ basis ∨ ',' ∈ basis ∨ '*' ∈ basis ∨ basis = [] then
    (symbolsList basis true).bind fun b => (symbolsList basis false).map fun r => (b, r)
  else coords.map fun cs => (symbolsListIdx basis cs true, symbolsListIdx basis cs false)

variable {n : ℕ} {K : Type*}

/-- A symbol of an expression: a basis vector or reciprocal symbol, given by its name, or a blade of
another grade. -/
abbrev NSym (n : ℕ) := List Char ⊕ Sym n

/-- A linear combination of such symbols. -/
abbrev NameExpr (K : Type*) (n : ℕ) := List (K × NSym n)

/-- The symbol of a blade when basis vector `i` has the name `b i`. -/
def nameSym (b : Fin n → List Char) : Sym n → NSym n
  | .blade [i] => .inl (b i)
  | s => .inr s

/-- An expression of the algebra, written with names. -/
def nameE (b : Fin n → List Char) (E : Expr K n) : NameExpr K n := E.map fun t => (t.1, nameSym b t.2)

/-- The symbol that a name stands for in the algebra: the basis vector with this name.  A symbol that
is no basis vector is not part of the algebra. -/
def readSym (b : Fin n → List Char) : NSym n → Sym n
  | .inl w => match (List.finRange n).find? fun i => decide (b i = w) with
    | some i => .blade [i]
    | none => .error
  | .inr s => s

/-- The expression of the algebra that is written with names. -/
def readE (b : Fin n → List Char) (e : NameExpr K n) : Expr K n := e.map fun t => (t.1, readSym b t.2)

variable [Field K] [DecidableEq K]

/-- SymPy `c * e`. -/
def smulN (c : K) (e : NameExpr K n) : NameExpr K n := e.map fun t => (c * t.1, t.2)

/-- SymPy `e.subs(x, E)` for a symbol `x` and a linear combination `e`. -/
def subs1 (x : List Char) (E e : NameExpr K n) : NameExpr K n :=
  e.flatMap fun t => if t.2 = .inl x then smulN t.1 E else [t]

/-- SymPy `e.subs([(x, E), ...])`: the substitutions are made one after another, each in the result
of the former. -/
def subsSeq (ps : List (List Char × NameExpr K n)) (e : NameExpr K n) : NameExpr K n :=
  ps.foldl (fun e p => subs1 p.1 p.2 e) e

variable [Invertible (2 : K)]

/-- metric.py:509-512 `de[i][j]`, metric.py:604-616 its normalisation and ga.py:1910-1920
`_update_de_from_rbasis`, with names: `b i` is the name of basis vector `i`, `r i` the name of
reciprocal symbol `i`.  `order` is the order in which SymPy's `subs` takes the entries of the
dictionary `r_basis_dict`. -/
def deNames (D : Fin n → K → K) (g : Matrix (Fin n) (Fin n) K) (N : Option (Fin n → K))
    (b r : Fin n → List Char) (order : List (Fin n)) (rb : List (Expr K n)) (i j : Fin n) :
    NameExpr K n :=
  let e0 : NameExpr K n := (List.finRange n).map fun k => (gamma1 D g i j k, .inl (r k))
  let e1 : NameExpr K n := match N with
    | none => e0
    | some N => smulN (N j)⁻¹ (subsSeq
        ((List.finRange n).map fun k => (r k, [((N k)⁻¹, .inl (r k))])) e0 ++
        [(-(D i (N j)), .inl (b j))])
  let e2 := subsSeq (order.map fun k => (r k, nameE b (rb.getD k errorE))) e1
  if isOrtho g then e2 else smulN (eSq (currentMetric N g))⁻¹ e2

/-- The attribute `Ga.de` after construction of the algebra (see `de`), with the names of the
symbols taken into account. -/
def deNamed (D : Fin n → K → K) (g : Matrix (Fin n) (Fin n) K) (N : Option (Fin n → K))
    (b r : Fin n → List Char) (order : List (Fin n)) : Option (Fin n → Fin n → Expr K n) :=
  if N.isSome ∧ isOrtho g = false then none
  else if N.any (fun N => decide (∃ i, N i = 0)) then none
  else (rBasis (currentMetric N g)).bind fun rb =>
    if isOrtho g = false ∧ eSq (currentMetric N g) = 0 then none
    else some fun i j => readE b (deNames D g N b r order rb i j)

end GA
