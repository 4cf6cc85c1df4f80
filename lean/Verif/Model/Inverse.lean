import Verif.Model.Mv

/-!
# Closed-form and iterative inverses (mv.py:1422-1485)
-/

namespace GA
variable {n : ℕ} {K : Type*} [Field K] [DecidableEq K] [Invertible (2 : K)]
  (g : Matrix (Fin n) (Fin n) K)

/-- The exceptions `hitzer_inverse` and `shirokov_inverse` raise: mv.py:1479-1481
`NotImplementedError`, mv.py:1436 and 1484 `ValueError('Multivector has no inverse')`, and the
`UnboundLocalError` of mv.py:1438 when the loop of mv.py:1431 did not run. -/
inductive InvError
  | notImplemented
  | noInverse
  | unbound
  deriving DecidableEq, Repr

/-- mv.py:1447-1481: the `numerator` of `hitzer_inverse`, by the dimension of the algebra. -/
def Mv.hitzerNumerator (A : Mv K n) : Except InvError (Mv K n) :=
  if n = 0 then
    -- 1 + 0 * self
    .ok ((A.smul 0).addScalar 1)
  else if n = 1 then
    .ok (A.gInvol g)
  else if n = 2 then
    .ok (A.ccon g)
  else if n = 3 then
    let mvConj := A.ccon g
    let mvMulMvConj := A.mul g mvConj
    .ok (mvConj.mul g (mvMulMvConj.rev g))
  else if n = 4 then
    let mvConj := A.ccon g
    let mvMulMvConj := A.mul g mvConj
    let m34 := (mvMulMvConj.sub g ((mvMulMvConj.getGrade 3).smul 2)).sub g
      ((mvMulMvConj.getGrade 4).smul 2)
    .ok (mvConj.mul g m34)
  else if n = 5 then
    let mvConj := A.ccon g
    let mvMulMvConj := A.mul g mvConj
    let comboOp := mvConj.mul g (mvMulMvConj.rev g)
    let mvComboOp := A.mul g comboOp
    let m14 := (mvComboOp.sub g ((mvComboOp.getGrade 1).smul 2)).sub g
      ((mvComboOp.getGrade 4).smul 2)
    .ok (comboOp.mul g m14)
  else .error .notImplemented

/-- mv.py:1440-1485 `hitzer_inverse`. -/
def Mv.hitzerInverse (A : Mv K n) : Except InvError (Mv K n) :=
  match A.hitzerNumerator g with
  | .error e => .error e
  | .ok numerator =>
    let denominator := (A.mul g numerator).scalar
    if denominator = 0 then .error .noInverse else .ok (numerator.smul denominator⁻¹)

/-- mv.py:1432-1434: one pass of the loop of `shirokov_inverse`; the state is `Uk` and `adjU`
(`none` while it is unbound).  Simplification: the quotient `N / k` of two Python integers is a
float; here it is exact. -/
def Mv.shirokovStep (A : Mv K n) (N : ℕ) (s : Mv K n × Option (Mv K n)) (k : ℕ) :
    Mv K n × Option (Mv K n) :=
  let Ck := ((N : K) / k) * s.1.scalar
  let adjU := Mv.scalarSub Ck s.1
  (A.neg.mul g adjU, some adjU)

/-- mv.py:1422-1438 `shirokov_inverse`. -/
def Mv.shirokovInverse (A : Mv K n) : Except InvError (Mv K n) :=
  let N := 2 ^ ((n + 1) / 2)
  -- for k in range(1, N)
  let s := (List.range' 1 (N - 1)).foldl (A.shirokovStep g N) (A, none)
  if s.1.scalar = 0 then .error .noInverse
  else
    let detU := -s.1.scalar
    match s.2 with
    | none => .error .unbound
    | some adjU => .ok (adjU.smul detU⁻¹)

end GA
