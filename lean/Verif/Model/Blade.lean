import Verif.Model.Mv

/-!
# Blades and versors, projection, reflection, exponential
-/

namespace GA

variable {n : ℕ}

section ring
variable {R : Type*} [CommRing R] [DecidableEq R] [Invertible (2 : R)]
  (g : Matrix (Fin n) (Fin n) R)

/-- mv.py:117-169 `characterise_Mv`: the attribute `i_grade`, `none` unless exactly one grade occurs.
(The cached value is recomputed here; see `Model/Cache.lean` for the caching.) -/
def Mv.iGrade (A : Mv R n) : Option ℕ :=
  match gradesOf A.obj with
  | some [k] => some k
  | _ => none

/-- mv.py:982-1012 `is_versor`.  The generic vector `_XOX` (ga.py:724-725) has independent symbolic
coefficients `XOX_i`, so the product with it is a vector exactly when for every basis vector `e_i` the
product (the coefficient of `XOX_i`) is zero or a vector, and one of them is not zero.  For `n = 0`
the attribute `_XOX` does not exist and Python raises `AttributeError`; here the result is `false`. -/
def Mv.isVersor (V : Mv R n) : Bool :=
  let vRev := V.rev g
  let vv := V.mul g vRev
  if vv.isScalar g && !vv.isZero then
    let imgs := (List.finRange n).map fun i =>
      ((V.gInvol g).mul g (Mv.ofExpr (bladeE [i]))).mul g vRev
    imgs.all (fun y => y.isZero || y.isVector g) && imgs.any (fun y => y.isVector g)
  else false

/-- mv.py:928-973 `is_blade`. -/
def Mv.isBlade (B : Mv R n) : Bool :=
  match B.iGrade with
  | none => false
  | some r =>
    if B.isZero then false
    else if r ≤ 1 then true
    else if B.isVersor g then true
    else (B.wedge g B).isZero

end ring

section field
variable {K : Type*} [Field K] [DecidableEq K] [Invertible (2 : K)]
  (g : Matrix (Fin n) (Fin n) K)

/-- mv.py:436-445 `project_in_blade`; `none` is the `ValueError`. -/
def Mv.projectInBlade (A B : Mv K n) : Option (Mv K n) :=
  if B.isBlade g then
    let q := B.qform g
    if q = 0 then none
    else some ((A.left g B).mul g ((B.rev g).smul q⁻¹))
  else none

/-- mv.py:425-431: the loop of `reflect_in_blade` over the grades of `self`. -/
def reflectLoop (B Binv : Mv K n) (bladeGrade : ℕ) (d : Dict ℕ (Expr K n)) : Mv K n :=
  d.foldl (fun refl p =>
    let part := (B.mul g (Mv.ofExpr p.2)).mul g Binv
    if (p.1 * (bladeGrade + 1)) % 2 = 0 then refl.add g part else refl.sub g part) (Mv.scalarMv 0)

/-- mv.py:414-434 `reflect_in_blade`; `none` is the `ValueError`, or a `KeyError` of
`grade_decomposition`. -/
def Mv.reflectInBlade (A B : Mv K n) : Option (Mv K n) :=
  if B.isBlade g then
    let q := B.qform g
    if q = 0 then none
    else
      let Binv := (B.rev g).smul q⁻¹
      match gradeDecomposition (expand A.obj), B.iGrade with
      | some d, some r => some (reflectLoop g B Binv r d)
      | _, _ => none
  else none

/-- The elementary functions of SymPy that `exp` uses, on the field of coefficients, and the two
tests by which it picks a branch: `is_number` and `> 0`. -/
structure Elementary (K : Type*) [Field K] where
  cos : K → K
  sin : K → K
  cosh : K → K
  sinh : K → K
  sqrt : K → K
  isNumber : K → Bool
  isPos : K → Bool

/-- `cos(x) + sin(x) * u` or `cosh(x) + sinh(x) * u` as an expression; `u` is a sum of blades. -/
def trigE (c s : K) (u : Expr K n) : Expr K n := addE (scalarE c) (smulE s u)

/-- mv.py:1218-1270 `exp`; `plus` is `hint == '+'`, and `minus` is `hint == '-'`.  `none` is the
`ValueError`. -/
def Mv.exp (F : Elementary K) (plus minus : Bool) (A : Mv K n) : Option (Mv K n) :=
  let A := A.bladeRep g
  let A2 := A.mul g A
  if A2.isScalar g then
    let sq := scalarPart A2.obj
    if sq = 0 then some (A.addScalar 1)
    else
      match linearExpand A.obj with
      | [(c, b)] =>
        let baseMv := Mv.ofExpr [((1 : K), b)]
        let baseSq := (baseMv.mul g baseMv).scalar
        if minus then
          let m := F.sqrt (-baseSq)
          some (Mv.ofExpr (trigE (F.cos (m * c)) (F.sin (m * c)) [(m⁻¹, b)]))
        else
          let m := F.sqrt baseSq
          some (Mv.ofExpr (trigE (F.cosh (m * c)) (F.sinh (m * c)) [(m⁻¹, b)]))
      | _ =>
        if (if F.isNumber sq then F.isPos sq else plus) then
          let m := F.sqrt sq
          some (Mv.ofExpr (trigE (F.cosh m) (F.sinh m) (smulE m⁻¹ A.obj)))
        else
          let m := F.sqrt (-sq)
          some (Mv.ofExpr (trigE (F.cos m) (F.sin m) (smulE m⁻¹ A.obj)))
  else none

/-- mv.py:447-450 `rotate_multivector`. -/
def Mv.rotate (F : Elementary K) (plus minus : Bool) (A itheta : Mv K n) : Option (Mv K n) :=
  match Mv.exp g F plus minus (itheta.neg.smul ⅟2), Mv.exp g F plus minus (itheta.smul ⅟2) with
  | some Rm, some Rp => some ((Rm.mul g A).mul g Rp)
  | _, _ => none

end field
end GA
