import Verif.Model.Dop
import Verif.Model.Lt

/-!
# Model of the gradient operators `Ga.grad`, `Ga.rgrad` and of the trace `Lt.tr`
-/

namespace GA
variable {n : ℕ} {K : Type*} [Field K] [DecidableEq K] [Invertible (2 : K)]

/-- ga.py:940-946 `_build_grads`: the vectors of the gradient operator of an algebra with metric tensor
`g0`, normalised by `e_norm` if `N = some e_norm`.  `none`: a division by zero. -/
def gradVecs (g0 : Matrix (Fin n) (Fin n) K) (N : Option (Fin n → K)) : Option (List (Mv K n)) :=
  (rBasisMv (currentMetric N g0)).bind fun rBasisMv =>
    match N with
    | some eNorm => (rBasisMv.zip (List.ofFn eNorm)).mapM fun p => p.1.divScalar p.2
    | none =>
      if isOrtho (currentMetric N g0) then some rBasisMv
      else rBasisMv.mapM fun x => x.divScalar (eSq (currentMetric N g0))

/-- ga.py:948-951 `_build_grads`: `Dop(r_basis, pdx, ga=self)`, with `cmpflg=True` for `rgrad`. -/
def gradDop (vecs : List (Mv K n)) (cmpflg : Bool) : Dop (Fin n) K n :=
  ⟨vecs.zip ((List.finRange n).map Pdop.single), cmpflg⟩

/-- ga.py:727-735 `coord_vec`; `x` are the coordinates. -/
def coordVec (x : Fin n → K) : Expr K n := vecE x

/-- lt.py:505-517 `Lt.tr`: the gradient is applied with `connect_flg` switched off. -/
def Lt.tr (D : Fin n → K → K) (g0 : Matrix (Fin n) (Fin n) K) (N : Option (Fin n → K))
    (x : Fin n → K) (L : Lt K n) : Option K :=
  (gradVecs g0 N).bind fun vecs =>
    let Fx := Mv.ofExpr (L.callE (coordVec x))
    match (gradDop vecs false).mulMv (Fields.ofMetric D g0 N none) .inner Fx with
    | .inl A => some A.scalar
    | .inr _ => none

end GA
