import Verif.Model.Dop
import Verif.Model.Coef

/-!
# Model of the expansion of operators by basis blades (class `Dop` of galgebra/mv.py)
-/

namespace GA
variable {V : Type*} [DecidableEq V] {n : ℕ} {K : Type*} [Field K] [DecidableEq K]
  [Invertible (2 : K)]

/-- dop.py:202-208 `Sdop.__call__` on a multivector: the sum of `coef * pdiff(arg)`.  (Without terms it
adds one term with coefficient zero: the value is the zero multivector.) -/
def Sdop.callMv (X : Fields V K n) (s : Sdop K V) (F : Mv K n) : Mv K n :=
  (s.map fun t => (t.2.call (Mv.diffN X) F).smul t.1).foldl (Mv.add X.g) (Mv.scalarMv 0)

/-- mv.py:1629-1660 `Dop(terms)` for `terms` a list of pairs `(Sdop, Mv)`. -/
def Dop.ofSdops (X : Fields V K n) (terms : List (Sdop K V × Mv K n)) (cmpflg : Bool) : Dop V K n :=
  ⟨consolidateTerms (Mv.eqZero X.g) (Mv.add X.g)
    (terms.flatMap fun t => t.1.map fun c => (t.2.smul c.1, c.2)), cmpflg⟩

/-- mv.py:1850-1854 `Dop.is_scalar`. -/
def Dop.isScalar (X : Fields V K n) (d : Dop V K n) : Bool := d.terms.all fun t => t.1.isScalar X.g

/-- mv.py:1870-1875, 1881-1886: `index = bases.index(base); coefs[index] += Sdop([(c, pdiff)])`, or two
`append`s if `base` is not present. -/
def addBase : List (Sdop K V × Sym n) → K → Sym n → Pdop V → List (Sdop K V × Sym n)
  | [], c, b, p => [([(c, p)], b)]
  | t :: ts, c, b, p =>
    if t.2 = b then (Sdop.add t.1 [(c, p)], t.2) :: ts else t :: addBase ts c b p

/-- mv.py:1867-1886: the loop of `Dop_mv_expand`.  (`coef.obj` of a scalar is its scalar part.) -/
def Dop.expandLoop (X : Fields V K n) (d : Dop V K n) : List (Sdop K V × Sym n) :=
  d.terms.foldl (fun acc t =>
    if t.1.isScalar X.g then addBase acc t.1.scalar (.blade []) t.2
    else (linearExpand t.1.obj).foldl (fun acc u => addBase acc u.1 u.2 t.2) acc) []

/-- mv.py:1862-1891 `Dop_mv_expand` with `modes=None`: pairs of a scalar operator and a basis blade, in the
order of the basis blades.  `none` is the `ValueError` of `Ga.blades.flat.index` for a symbol that is not
a basis blade. -/
def Dop.mvExpand (X : Fields V K n) (d : Dop V K n) : Option (List (Sdop K V × Sym n)) :=
  let terms := d.expandLoop X
  if terms.all fun t => decide (t.2 ∈ flat (blades n)) then
    some (terms.insertionSort fun t u => bladeIndex t.2 ≤ bladeIndex u.2)
  else none

/-- mv.py:1856-1860 `Dop.components`.  The components have the default complement flag. -/
def Dop.components (X : Fields V K n) (d : Dop V K n) : Option (List (Dop V K n)) :=
  (d.mvExpand X).map fun ts => ts.map fun t => Dop.ofSdops X [(t.1, Mv.ofExpr [((1 : K), t.2)])] false

end GA
