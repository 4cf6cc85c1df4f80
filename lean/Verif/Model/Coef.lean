import Verif.Model.Blade
import Mathlib.Data.Multiset.Defs
import Mathlib.Data.List.Sort

/-!
# Model of the access to coefficients (galgebra/mv.py)

`components`, `get_coefs`, `blade_coefs` of a list, `proj`, `list`, `collect`, `simplify`, `subs`,
`expand`, `__hash__`, and equality with a scalar.
-/

namespace GA

variable {n : ℕ} {R : Type*} [CommRing R] [DecidableEq R]

/-- mv.py:1040: the sorting key `Ga.blades.flat.index(base)`; an index beyond the list stands for the
`ValueError` of `index`, see `Mv.components`. -/
def bladeIndex (s : Sym n) : ℕ := (flat (blades n)).idxOf s

/-- mv.py:1039-1042 `components`: the terms in the order of the basis blades, each as a multivector.
`none` is the `ValueError` of `Ga.blades.flat.index` for a symbol that is not a basis blade. -/
def Mv.components (A : Mv R n) : Option (List (Mv R n)) :=
  let cb := linearExpand A.obj
  if cb.all fun t => decide (t.2 ∈ flat (blades n)) then
    some ((cb.insertionSort fun t u => bladeIndex t.2 ≤ bladeIndex u.2).map fun t =>
      Mv.ofExpr [t])
  else none

/-- mv.py:1055-1066: the body of the loop of `get_coefs`; `none` is the `ValueError` for a component
of another grade. -/
def getCoefsStep (bladeLst : List (Sym n)) (acc : Option (List R)) (t : R × Sym n) :
    Option (List R) :=
  match acc with
  | none => none
  | some cs =>
    if t.1 = 0 then some cs
    else if t.2 ∈ bladeLst then some (cs.modify (bladeLst.idxOf t.2) (· + t.1))
    else none

/-- mv.py:1044-1067 `get_coefs`; `none` is the `ValueError`, or the `IndexError` of `Ga.blades[grade]`
for a grade above `n`.  Simplification: negative grades (Python counts them from the end) are left
out. -/
def Mv.getCoefs (A : Mv R n) (r : ℕ) : Option (List R) :=
  match (blades n)[r]? with
  | none => none
  | some bladeLst =>
    (linearExpand A.obj).foldl (getCoefsStep bladeLst) (some (List.replicate bladeLst.length 0))

/-- mv.py:975-977 `is_base`. -/
def Mv.isBase (A : Mv R n) : Bool := decide ((linearExpand A.obj).map Prod.fst = [1])

/-- mv.py:1084-1089: the coefficient of one symbol. -/
def lookupCoef (E : Expr R n) (b : Expr R n) : R :=
  match (linearExpand E).find? fun t => decide (b = [((1 : R), t.2)]) with
  | some t => t.1
  | none => 0

/-- mv.py:1069-1090 `blade_coefs(blade_lst)`; `none` is the `ValueError` for a member that is not a
basis blade. -/
def Mv.bladeCoefsOf [Invertible (2 : R)] (g : Matrix (Fin n) (Fin n) R) (A : Mv R n)
    (bladeLst : List (Mv R n)) : Option (List R) :=
  if bladeLst.all fun b => b.isBase && b.isBlade g then
    some (bladeLst.map fun b => lookupCoef A.obj b.obj)
  else none

/-- mv.py:1527-1528 `list`: the coefficients of the basis vectors. -/
def Mv.list [Invertible (2 : R)] (g : Matrix (Fin n) (Fin n) R) (A : Mv R n) : Option (List R) :=
  match (blades n)[1]? with
  | none => none
  | some bl => A.bladeCoefsOf g (bl.map fun b => Mv.ofExpr [((1 : R), b)])

/-- mv.py:1092-1102 `proj(bases_lst)`: the terms whose symbol is one of the given multivectors. -/
def Mv.projBases (A : Mv R n) (basesLst : List (Mv R n)) : Mv R n :=
  Mv.ofExpr ((linearExpand A.obj).filter fun t =>
    decide ([((1 : R), t.2)] ∈ basesLst.map Mv.obj))

/-- mv.py:893-918 `collect(deep)`; `f` is SymPy's `collect` for `deep=True`, the identity for
`deep=False`. -/
def Mv.collect (f : R → R) (A : Mv R n) : Mv R n :=
  let objDict := (linearExpand A.obj).foldl (fun d t => addTerm d t.1 t.2) []
  Mv.ofExpr (objDict.map fun t => (f t.1, t.2))

/-- mv.py:1498-1512 `simplify(modes)`: every mode is applied to every coefficient. -/
def Mv.simplify (modes : List (R → R)) (A : Mv R n) : Mv R n :=
  Mv.ofExpr ((linearExpand A.obj).map fun t => (modes.foldl (fun c f => f c) t.1, t.2))

/-- mv.py:1514-1519 `subs`; `φ` is the substitution on coefficients.  It may lead to another ring: the
coefficients after the substitution of numbers for symbols are numbers. -/
def Mv.subs {S : Type*} [CommRing S] [DecidableEq S] (φ : R → S) (A : Mv R n) : Mv S n :=
  Mv.ofExpr ((linearExpand A.obj).map fun t => (φ t.1, t.2))

/-- mv.py:1521-1525 `expand`; SymPy's `expand` of a coefficient does not change its value and is the
identity of the model's coefficients. -/
def Mv.expandMv (A : Mv R n) : Mv R n := A.subs id

/-- mv.py:472-477 `__hash__`.  A SymPy expression is hashed structurally: the hash is a function of its
arguments without regard to order, so of the multiset of terms.  `hashObj` is `hash(obj)` and `hashPair`
is `hash((Ga, obj))` for the algebra at hand.  Simplification: `obj` is stored expanded here, see
`Model/Mv.lean`; in Python an expanded and an unexpanded coefficient have different hashes. -/
def Mv.hash [Invertible (2 : R)] (g : Matrix (Fin n) (Fin n) R)
    (hashObj hashPair : Multiset (R × Sym n) → ℤ) (A : Mv R n) : ℤ :=
  if A.isScalar g then hashObj (A.obj : Multiset (R × Sym n))
  else hashPair (A.obj : Multiset (R × Sym n))

/-- mv.py:479-485 `__eq__` with an argument that is not a multivector: a SymPy expression `c` without
blades. -/
def Mv.eqScalar [Invertible (2 : R)] (g : Matrix (Fin n) (Fin n) R) (A : Mv R n) (c : R) : Bool :=
  A.isScalar g && decide (A.obj = expand (scalarE c))

end GA
