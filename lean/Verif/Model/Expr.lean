import Verif.Model.Index
import Verif.Model.Dict

/-!
# Multivector expressions

A SymPy expression that is a scalar plus a linear combination of the non-commutative blade or base
symbols is modelled by the list of its `Add` arguments, each a pair (coefficient, symbol).
Coefficients are elements of a commutative ring `R` with decidable equality: SymPy's arithmetic
and zero test on coefficients are idealised.
-/

namespace GA

/-- atoms.py:35-95: the atoms of an expression.
* `blade l`: `BasisBladeSymbol` of the basis vectors `l`; by `_GradedSymbol.__new__`
  (atoms.py:46-56) this is the scalar `S.One` for `l = []` and the basis vector itself for
  `l = [i]`.
* `base l`: `BasisBaseSymbol` of at least two basis vectors (see `mkBase`).
* `error`: not a SymPy object; stands for a term whose computation raised an exception
  (`KeyError`, `ValueError`) in Python.  It is kept by every operation, so a result without
  `error` is one that Python returns normally. -/
inductive Sym (n : ℕ)
  | blade (l : List (Fin n))
  | base (l : List (Fin n))
  | error
deriving DecidableEq, Repr

/-- A linear combination of symbols. -/
abbrev Expr (R : Type*) (n : ℕ) := List (R × Sym n)

variable {n : ℕ} {R : Type*} [CommRing R] [DecidableEq R]

/-- ga.py:1024-1028 `_build_basis_base_symbol` with atoms.py:49-59 `_GradedSymbol.__new__`: no
vectors gives the scalar one, one vector gives that vector. -/
def mkBase (l : List (Fin n)) : Sym n := if l.length ≤ 1 then .blade l else .base l

/-- ga.py:1030-1035 `_build_basis_blade_symbol` with atoms.py:46-56. -/
def mkBlade (l : List (Fin n)) : Sym n := .blade l

/-- The scalar expression `c` (a SymPy expression without blade symbols). -/
def scalarE (c : R) : Expr R n := [(c, .blade [])]

/-- SymPy `A + B` on linear combinations. -/
def addE (A B : Expr R n) : Expr R n := A ++ B

/-- SymPy `c * A` with a commutative `c`. -/
def smulE (c : R) (A : Expr R n) : Expr R n := A.map fun t => (c * t.1, t.2)

/-- SymPy `-A`. -/
def negE (A : Expr R n) : Expr R n := A.map fun t => (-t.1, t.2)

/-- SymPy `A - B`. -/
def subE (A B : Expr R n) : Expr R n := addE A (negE B)

/-- Adds the coefficient `c` to the entry with symbol `s`, appending a new entry if there is
none: the body of the loops in metric.py:61-76 and of SymPy's collection of like terms. -/
def addTerm (E : Expr R n) (c : R) (s : Sym n) : Expr R n :=
  match E with
  | [] => [(c, s)]
  | (c', s') :: E' => if s' = s then (c' + c, s') :: E' else (c', s') :: addTerm E' c s

/-- Collects like terms, in order of first appearance. -/
def gatherE (E : Expr R n) : Expr R n := E.foldl (fun acc t => addTerm acc t.1 t.2) []

/-- SymPy `expand` on linear combinations: like terms are collected and terms whose coefficient
is zero disappear.  Simplification: SymPy keeps several `Add` arguments for one symbol when their
coefficients are different monomials; here they are merged into one argument.  (`error` marks a
raised exception and is never dropped.) -/
def expand (E : Expr R n) : Expr R n :=
  (gatherE E).filter fun t => decide (t.1 ≠ 0 ∨ t.2 = .error)

/-- metric.py:32-77 `linear_expand`, as the list of pairs (coefficient, symbol).  The scalar zero
is returned as `0 * 1`. -/
def linearExpand (E : Expr R n) : List (R × Sym n) :=
  match expand E with
  | [] => [(0, .blade [])]
  | E' => gatherE E'

/-- ga.py:96-120 `update_and_substitute`.  `mulDict s₁ s₂` is `mul_dict[s₁, s₂]`. -/
def updateAndSubstitute (mulDict : Sym n → Sym n → Expr R n) (A B : Expr R n) : Expr R n :=
  (linearExpand A).flatMap fun t₁ => (linearExpand B).flatMap fun t₂ =>
    smulE (t₁.1 * t₂.1) (mulDict t₁.2 t₂.2)

/-- ga.py:123-152 `nc_subs` with a dictionary of substitutions: the commutative terms and the
terms whose symbol is not a key stay as they are. -/
def ncSubs (E : Expr R n) (d : Dict (Sym n) (Expr R n)) : Expr R n :=
  E.flatMap fun t =>
    if t.2 = .blade [] then [t]
    else match d.get? t.2 with
      | some v => smulE t.1 v
      | none => [t]

/-- SymPy `A.subs(d)` for a dictionary that maps symbols to expressions.  Simplification: SymPy
substitutes the keys one after the other; here simultaneously, which is the same when no value
contains a key (see ga.py:1533-1536, the only use). -/
def subsE (E : Expr R n) (d : Dict (Sym n) (Expr R n)) : Expr R n :=
  E.flatMap fun t =>
    match d.get? t.2 with
    | some v => smulE t.1 v
    | none => [t]

/-- The coefficient of the basis blade `l` in `A` (`Mv.blade_coefs`, mv.py:1069-1090). -/
def coeff (A : Expr R n) (l : List (Fin n)) : R :=
  (A.map fun t => if t.2 = .blade l then t.1 else 0).sum

/-- The expression contains only basis blades of the algebra (in particular no `error`). -/
def Valid (A : Expr R n) : Prop := ∀ t ∈ A, ∃ l : List (Fin n), t.2 = .blade l ∧ l.Pairwise (· < ·)

end GA
