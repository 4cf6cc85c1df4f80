import Verif.Model.Grad

/-!
# Model of submanifolds: class `Sm` (galgebra/ga.py)

Expressions are elements of a ring `K`; `D x` is SymPy's `diff` by the variable `x`, and
`sub1 x v e` is `e.subs(x, v)`.  Simplification: `trigsimp` does not change a value.
-/

namespace GA
variable {n m : ℕ} {V K : Type*} [CommRing K]

/-- SymPy `e.subs(pairs)` with a list of pairs: the substitutions are made one after the other. -/
def subsList (sub1 : V → K → K → K) (pairs : List (V × K)) (e : K) : K :=
  pairs.foldl (fun e p => sub1 p.1 p.2 e) e

/-- ga.py:2228-2252: the first argument of `Sm`, a list of functions or a multivector. -/
inductive SmMap (K : Type*) (n : ℕ)
  | functions (u : List K)
  | vector (A : Mv K n)

/-- The ways in which the construction of a submanifold raises: `ValueError` for a list of the wrong
length, `TypeError` if the base algebra has no coordinates, `UnboundLocalError` for the local variable
`g`. -/
inductive SmError
  | dimension
  | noCoords
  | unboundG
deriving DecidableEq, Repr

/-- ga.py:2297-2303 `dxdu[k][i]`, the derivative of function `k` by coordinate `i` of the
submanifold. -/
def dxdu (D : V → K → K) (u : List K) (coords : Fin m → V) (k : Fin n) (i : Fin m) : K :=
  D (coords i) (u.getD k 0)

/-- ga.py:2309-2318: one entry of the metric tensor. -/
def smEntry (D : V → K → K) (sub1 : V → K → K → K) (gBase : Matrix (Fin n) (Fin n) K)
    (coordsBase : List V) (u : List K) (coords : Fin m → V) (i j : Fin m) : K :=
  (List.finRange n).foldl (fun s k => (List.finRange n).foldl (fun s l =>
    s + dxdu D u coords k i * dxdu D u coords l j *
      subsList sub1 (coordsBase.zip u) (gBase k l)) s) 0

/-- ga.py:2267-2322 `Sm.__init__`: the metric tensor of the submanifold.  `gBase` is `g_raw` of the
base algebra, the metric tensor before normalisation (metric.py:801).  For a multivector the metric is
stored in `self.g` and line 2322 reads the unbound local variable `g`. -/
def smMetric (D : V → K → K) (sub1 : V → K → K → K) (gBase : Matrix (Fin n) (Fin n) K)
    (coordsBase : Option (List V)) (u : SmMap K n) (coords : Fin m → V) :
    Except SmError (Matrix (Fin m) (Fin m) K) :=
  match u with
  | .vector _ => .error .unboundG
  | .functions u =>
    if u.length ≠ n then .error .dimension
    else match coordsBase with
      | none => .error .noCoords
      | some cb => .ok (Matrix.of (smEntry D sub1 gBase cb u coords))

variable {F : Type*} [Field F] [DecidableEq F] [Invertible (2 : F)]

/-- ga.py:2337-2343: the vectors of the operators `Sm.vpds`.  `none`: a division by zero. -/
def vpdsVecs (g0 : Matrix (Fin n) (Fin n) F) (N : Option (Fin n → F)) : Option (List (Mv F n)) :=
  (rBasisMv (currentMetric N g0)).bind fun rBasisMv =>
    (if isOrtho (currentMetric N g0) then some rBasisMv
      else rBasisMv.mapM fun x => x.divScalar (eSq (currentMetric N g0))).bind fun rBasis =>
    match N with
    | some eNorm => (rBasisMv.zip (List.ofFn eNorm)).mapM fun p => p.1.divScalar p.2
    | none => some rBasis

end GA
