import Verif.Model.Pseudo

/-!
# Model of coordinate derivatives and the connection (galgebra/metric.py, ga.py)

The coordinates of an algebra are numbered by `Fin n`; `D k` is SymPy's `diff` with respect to
coordinate `k`, applied to coefficients.  `norm=True` is modelled by the list `e_norm` of norms.
Simplification: the caches of these methods are not modelled; `Simp.apply` and `simplify` do not
change a value.
-/

namespace GA

variable {n : ℕ} {K : Type*} [Field K] [DecidableEq K]

/-- metric.py:474-481 `Metric.dg`: `dg[i][j][k]`, the derivative of `g[i, j]` by coordinate `k`.
(It is evaluated before a normalisation of the metric, because `normalize_metric` asks for `de`
first, and cached.) -/
def dg (D : Fin n → K → K) (g : Matrix (Fin n) (Fin n) K) (i j k : Fin n) : K := D k (g i j)

/-- metric.py:483-493 `Metric.connect_flg` of an algebra with coordinates. -/
def connectFlg (D : Fin n → K → K) (g : Matrix (Fin n) (Fin n) K) : Bool :=
  (List.finRange n).any fun i => (List.finRange n).any fun j => (List.finRange n).any fun k =>
    decide (dg D g i j k ≠ 0)

/-- metric.py:599-627 `normalize_metric`, the metric tensor: `g[i,j] / (e_norm[i] * e_norm[j])`. -/
def normMetric (N : Fin n → K) (g : Matrix (Fin n) (Fin n) K) : Matrix (Fin n) (Fin n) K :=
  Matrix.of fun i j => g i j / (N i * N j)

/-- The attribute `Metric.g` of an algebra constructed with the metric tensor `g`; `N` is `e_norm`,
`none` without `norm=True` (metric.py:817-827). -/
def currentMetric (N : Option (Fin n → K)) (g : Matrix (Fin n) (Fin n) K) :
    Matrix (Fin n) (Fin n) K :=
  match N with
  | none => g
  | some N => normMetric N g

variable [Invertible (2 : K)]

/-- metric.py:565-566 `Gamma_ijk` in `Christoffel_symbols(mode=1)`. -/
def gamma1 (D : Fin n → K → K) (g : Matrix (Fin n) (Fin n) K) (i j k : Fin n) : K :=
  ⅟2 * (dg D g j k i + dg D g i k j - dg D g i j k)

/-- metric.py:545-597 `Christoffel_symbols`; `some none` is Python's `None`, `none` an exception or a
division by zero. -/
def christoffelSymbols (D : Fin n → K → K) (g : Matrix (Fin n) (Fin n) K) (N : Option (Fin n → K))
    (mode : ℕ) : Option (Option (Fin n → Fin n → Fin n → K)) :=
  if connectFlg D g = false then some none
  else if mode = 1 then some (some (gamma1 D g))
  else if mode = 2 then
    (gInv (currentMetric N g)).map fun gi => some fun i j k => ∑ l, gamma1 D g i j l * gi l k
  else none

/-- metric.py:509-512 `de[i][j]` as linear combination `∑ Gamma_ijk e^k` of the reciprocal symbols,
metric.py:604-616 its normalisation `(de[i][j].subs(e^k -> e^k/|e_k|) - diff(|e_j|, x_i) * e_j)/|e_j|`,
and ga.py:1910-1920 `_update_de_from_rbasis`: the reciprocal symbols are replaced by `rb` and, for a
non-orthogonal basis, the result is divided by `e_sq`.  Simplification: the reciprocal symbols are
supposed to differ from the basis vectors; `deNames` (`Model/RSymbols.lean`) makes the substitutions
by name, and C83 says when this makes no difference. -/
def deEntry (D : Fin n → K → K) (g : Matrix (Fin n) (Fin n) K) (N : Option (Fin n → K))
    (rb : List (Expr K n)) (i j : Fin n) : Expr K n :=
  let E : Expr K n := match N with
    | none => (List.finRange n).flatMap fun k => smulE (gamma1 D g i j k) (rb.getD k errorE)
    | some N => smulE (N j)⁻¹ (subE
        ((List.finRange n).flatMap fun k => smulE (gamma1 D g i j k / N k) (rb.getD k errorE))
        [(D i (N j), .blade [j])])
  if isOrtho g then E else smulE (eSq (currentMetric N g))⁻¹ E

/-- The attribute `Ga.de` after construction of the algebra, when `connect_flg` holds
(metric.py:496-518, 599-630, 817-827, ga.py:1910-1920).  `none`: the construction raises
`ValueError` (normalisation of a non-orthogonal basis) or divides by zero. -/
def de (D : Fin n → K → K) (g : Matrix (Fin n) (Fin n) K) (N : Option (Fin n → K)) :
    Option (Fin n → Fin n → Expr K n) :=
  if N.isSome ∧ isOrtho g = false then none
  else if N.any (fun N => decide (∃ i, N i = 0)) then none
  else (rBasis (currentMetric N g)).bind fun rb =>
    if isOrtho g = false ∧ eSq (currentMetric N g) = 0 then none
    else some (deEntry D g N rb)

/-- ga.py:1975-2014 `blade_derivation` for the blade with index tuple `index` and the derivatives
`dei = de[ib]` of the basis vectors. -/
def bladeDerivation (dei : Fin n → Expr K n) (index : List (Fin n)) : Expr K n :=
  index.zipIdx.foldl (fun db p => addE db
    (wedge (wedge (bladeE (index.take p.2)) (dei p.1)) (bladeE (index.drop (p.2 + 1))))) []

/-- ga.py:2001: `indexes_to_blades_dict.inverse[blade]`, a `KeyError` for a symbol that is not a
basis blade; then `blade_derivation`. -/
def symDerivation (dei : Fin n → Expr K n) : Sym n → Expr K n
  | .blade l => bladeDerivation dei l
  | _ => errorE

/-- ga.py:2016-2059 `pDiff` with respect to one coordinate.  `D` is SymPy's `diff` with respect to
it and `ib` its position in `coords` (`none` if it is not one of them: `coords.index` raises).
`conn` is `Ga.de` if `connect_flg` holds and `none` otherwise. -/
def Mv.pDiff (g : Matrix (Fin n) (Fin n) K) (conn : Option (Fin n → Fin n → Expr K n)) (D : K → K)
    (ib : Option (Fin n)) (A : Mv K n) : Option (Mv K n) :=
  let dA := Mv.ofExpr (expand (A.obj.map fun t => (D t.1, t.2)))
  match conn with
  | none => some dA
  | some de =>
    if A.isScalar g then some dA
    else (A.obj.filter fun t => decide (t.2 ≠ .blade [])).foldlM (fun (dA : Mv K n) t =>
      ib.map fun i => Mv.ofExpr (addE dA.obj (smulE t.1 (symDerivation (de i) t.2)))) dA

/-- ga.py:2022-2038 `pDiff` with a list of orders, one per coordinate. -/
def Mv.pDiffOrders (g : Matrix (Fin n) (Fin n) K) (conn : Option (Fin n → Fin n → Expr K n))
    (D : Fin n → K → K) (orders : Fin n → ℕ) (A : Mv K n) : Option (Mv K n) :=
  (List.finRange n).foldlM (fun dA i =>
    (List.replicate (orders i) i).foldlM (fun dA i => Mv.pDiff g conn (D i) (some i) dA) dA) A

/-- The connection an algebra with coordinates uses: `Ga.de` if `connect_flg` holds (`none` inside:
no connection).  `none` outside: the algebra cannot be constructed. -/
def connOf (D : Fin n → K → K) (g : Matrix (Fin n) (Fin n) K) (N : Option (Fin n → K)) :
    Option (Option (Fin n → Fin n → Expr K n)) :=
  if connectFlg D g then (de D g N).map some else some none

end GA
