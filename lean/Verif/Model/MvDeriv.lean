import Verif.Model.Grad

/-!
# Model of derivatives with respect to a multivector (`Ga.make_grad`)
-/

namespace GA
variable {n : ℕ} {V : Type*} {K : Type*} [Field K] [DecidableEq K] [Invertible (2 : K)]

/-- A multivector whose coefficients are symbols: the sum of `x * blade` over the given pairs of a symbol
and a basis blade.  `val x` is the symbol as a coefficient. -/
def symbolMv (val : V → K) (terms : List (V × Sym n)) : Mv K n :=
  Mv.ofExpr (terms.map fun t => (val t.1, t.2))

/-- ga.py:757-760 `_reciprocal_blade_dict[base]`; `none`: `KeyError`, or a division by zero. -/
def reciprocalBlade (g : Matrix (Fin n) (Fin n) K) : Sym n → Option (Mv K n)
  | .blade I => (rBasis g).bind fun rb => (recipOfBlade g rb I).map fun E => Mv.ofExpr E
  | _ => none

/-- ga.py:762-782 `make_grad(a, cmpflg)`, for a multivector `a` whose coefficients are symbols; `terms`
are `linear_expand_terms(a.obj)`.  The cache is left out.  Simplification: coefficients that are not
symbols, by which SymPy does not differentiate, are left out. -/
def makeGrad (g : Matrix (Fin n) (Fin n) K) (terms : List (V × Sym n)) (cmpflg : Bool) :
    Option (Dop V K n) :=
  (terms.mapM fun t => (reciprocalBlade g t.2).map fun r => (r, Pdop.single t.1)).map fun ts =>
    ⟨ts, cmpflg⟩

end GA
