import Verif.Model.Mv
import Mathlib.Algebra.Field.Basic
import Mathlib.LinearAlgebra.Matrix.Determinant.Basic

/-!
# Model of the pseudoscalar, duals, reciprocal basis and inverse metric (galgebra/ga.py, mv.py)

Divisions: a division by zero, for which SymPy returns expressions with `zoo`, is `none`.
-/

namespace GA

variable {n : ℕ} {R : Type*} [CommRing R] [DecidableEq R] [Invertible (2 : R)]

/-- ga.py:679, ga.py:786-787: `Ga.e = Mv(blades.flat[-1])`, returned by `Ga.E()`. -/
def pseudoE : Mv R n := Mv.ofExpr [(1, (flat (blades n)).getLastD .error)]

/-- ga.py:1832-1846 `Ga.e_sq` when `gsym` is not used. -/
def eSq (g : Matrix (Fin n) (Fin n) R) : R := ((pseudoE : Mv R n).mul g pseudoE).scalar

/-- ga.py:1840-1844 `Ga.e_sq` with `gsym`: `(-1)**(n*(n-1)//2) * detg`, where the function symbol
`detg` stands for the determinant of the metric tensor. -/
def eSqSym (g : Matrix (Fin n) (Fin n) R) : R := (-1) ^ (n * (n - 1) / 2) * g.det

/-- ga.py:1877-1902 `Ga.r_basis`, non-orthogonal branch: the blades of grade `n-1` in reverse order,
with alternating signs, times `E`. -/
def rBasisNonOrtho (g : Matrix (Fin n) (Fin n) R) : List (Expr R n) :=
  ((blades n).getD (n - 1) []).reverse.zipIdx.map fun p =>
    let sgn : R := if p.2 % 2 = 0 then 1 else -1
    let dualBaseRep := bladeToBaseRep g [(1, p.1)]
    expand (baseToBladeRep g (mul g (smulE sgn dualBaseRep) (pseudoE : Mv R n).obj))

/-- mv.py:1487-1494 `Mv.func`: apply a function to every coefficient. -/
def Mv.func (f : R → R) (A : Mv R n) : Mv R n :=
  Mv.ofExpr ((linearExpand A.obj).map fun t => (f t.1, t.2))

/-- mv.py:1496-1497 `Mv.trigsimp`.  SymPy's `trigsimp` rewrites a coefficient without changing its
value. -/
def Mv.trigsimp (A : Mv R n) : Mv R n := A.func id

/-- ga.py:2164-2167, 2175-2178: `X = mv(1); for b in basis: X = (X ^ b).trigsimp()`. -/
def wedgeAll (g : Matrix (Fin n) (Fin n) R) (basis : List (Mv R n)) : Mv R n :=
  basis.foldl (fun X b => (X.wedge g b).trigsimp) (Mv.scalarMv 1)

/-- ga.py:2168: `E_sq`. -/
def frameSq (g : Matrix (Fin n) (Fin n) R) (basis : List (Mv R n)) : R :=
  let E := wedgeAll g basis
  (E.mul g E).scalar

/-- ga.py:2172-2184: the unnormalised reciprocal vectors
`sgn * (basis[0]^..skip i..^basis[dim-1]) * E`. -/
def reciprocals (g : Matrix (Fin n) (Fin n) R) (basis : List (Mv R n)) : List (Mv R n) :=
  let E := wedgeAll g basis
  (List.range basis.length).map fun i =>
    let dual := wedgeAll g (basis.eraseIdx i)
    (((dual.smul ((-1 : R) ^ i)).mul g E)).trigsimp

/-- ga.py:2140-2198 `Ga.ReciprocalFrame` with mode `append` (any mode other than `norm`). -/
def reciprocalFrameAppend (g : Matrix (Fin n) (Fin n) R) (basis : List (Mv R n)) :
    List (Mv R n) × R := (reciprocals g basis, frameSq g basis)

section field
variable {K : Type*} [Field K] [DecidableEq K] [Invertible (2 : K)]
  (g : Matrix (Fin n) (Fin n) K)

/-- ga.py:689-710: the normalised pseudoscalar `Ga.i` and its inverse `Ga.i_inv`.  `sqrt` is SymPy's
square root; `plus` says which branch is taken: `e_sq > 0` for a number, the parameter `Isq == '+'`
otherwise. -/
def normI (sqrt : K → K) (plus : Bool) : Option (Mv K n × Mv K n) :=
  let s := if plus then sqrt (eSq g) else sqrt (-eSq g)
  ((pseudoE : Mv K n).divScalar s).map fun i => (i, if plus then i else i.neg)

/-- mv.py:1104-1117 `Mv.dual` with `Ga.i`, `Ga.i_inv` and the current `dual_mode_value`. -/
def Mv.dual (A i iInv : Mv K n) (mode : String) : Mv K n :=
  let sign : K := if mode.toList.contains '-' then -1 else 1
  let I := if (mode.toList.tails.any fun t => "Iinv".toList.isPrefixOf t) then iInv else i
  if mode.toList.head? = some '+' ∨ mode.toList.head? = some '-' then (I.smul sign).mul g A
  else (A.smul sign).mul g I

/-- mv.py:1119-1125 `Mv.undual`. -/
def Mv.undual (A i iInv : Mv K n) (mode : String) : Mv K n :=
  (i.pow g 2).mul g (A.dual g i iInv mode)

/-- ga.py:569 `Ga.dual_mode_lst`. -/
def dualModeLst : List String := ["+I", "I+", "-I", "I-", "+Iinv", "Iinv+", "-Iinv", "Iinv-"]

/-- ga.py:1850-1908 `Ga.r_basis`. -/
def rBasis : Option (List (Expr K n)) :=
  if isOrtho g then
    (List.finRange n).mapM fun i => if g i i = 0 then none else some [((g i i)⁻¹, .blade [i])]
  else some (rBasisNonOrtho g)

/-- ga.py:1951-1954 `Ga.r_basis_mv`. -/
def rBasisMv : Option (List (Mv K n)) := (rBasis g).map fun l => l.map Mv.ofExpr

/-- ga.py:906-921 `Ga.mvr`. -/
def mvr (norm : Bool) : Option (List (Mv K n)) :=
  if norm && !isOrtho g then (rBasisMv g).bind fun l => l.mapM fun r => r.divScalar (eSq g)
  else rBasisMv g

/-- ga.py:737-754 `Ga._reciprocal_of_basis_blade` of the blade with the given index; `rb` is
`Ga.r_basis`.  The final division by `e_sq**len(index)` is `none` when it divides by zero. -/
def recipOfBlade (rb : List (Expr K n)) (index : List (Fin n)) : Option (Expr K n) :=
  let rBlade := index.reverse.foldl (fun E (i : Fin n) => wedge E (rb.getD i errorE)) (scalarE 1)
  if isOrtho g then some rBlade
  else if (eSq g) ^ index.length = 0 then none
  else some (smulE ((eSq g) ^ index.length)⁻¹ rBlade)

/-- ga.py:1922-1938 `Ga.g_inv`: the (scalar) entry `[i, j]` for `j ≥ i`. -/
def gInvEntry (rb : List (Expr K n)) (i j : Fin n) : K :=
  let d := scalarPart (hestenesDot g (rb.getD i errorE) (rb.getD j errorE))
  if isOrtho g then d else d / (eSq g) ^ 2

/-- ga.py:1922-1938 `Ga.g_inv`; `none`: a division by zero. -/
def gInv : Option (Matrix (Fin n) (Fin n) K) :=
  (rBasis g).bind fun rb =>
    if isOrtho g = false ∧ eSq g = 0 then none
    else some (Matrix.of fun i j => if i ≤ j then gInvEntry g rb i j else gInvEntry g rb j i)

/-- ga.py:2186-2188: mode `norm` of `Ga.ReciprocalFrame`. -/
def reciprocalFrameNorm (basis : List (Mv K n)) : Option (List (Mv K n)) :=
  (reciprocals g basis).mapM fun r => r.divScalar (frameSq g basis)

end field

end GA
