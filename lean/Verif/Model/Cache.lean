import Verif.Model.Blade

/-!
# The cached classification of a multivector object (galgebra/mv.py)

A multivector object with its mutable attributes.  `Model/Blade` computes the classification of a
multivector from scratch; here are the attributes in which Python remembers it, and `set_coef`,
which changes the value of an existing object.
-/

namespace GA

variable {n : ℕ} {R : Type*} [CommRing R] [DecidableEq R]

/-- mv.py:350-365: the attributes of a multivector object that queries read and write. -/
structure MvObj (R : Type*) (n : ℕ) where
  obj : Expr R n
  isBladeRep : Bool
  charMv : Bool
  iGrade : Option ℕ
  grades : Option (List ℕ)
  bladeFlg : Option Bool
  versorFlg : Option Bool
deriving DecidableEq, Repr

/-- mv.py:142-162: one step of the loop of `characterise_Mv` over the terms, `none` after the
`return` for a symbol which is not a blade. -/
def gradeStep (acc : Option (List ℕ)) (t : R × Sym n) : Option (List ℕ) :=
  match acc with
  | none => none
  | some gs =>
    if t.2 = .blade [] then some (if 0 ∈ gs then gs else gs ++ [0])
    else if t.2 ∈ flat (blades n) then
      match (bladesToGrades n).get? t.2 with
      | some r => some (if r ∈ gs then gs else gs ++ [r])
      | none => none
    else none

/-- mv.py:142-162: the grades in order of appearance. -/
def gradesAppear (E : Expr R n) : Option (List ℕ) := E.foldl gradeStep (some [])

/-- mv.py:117-169 `characterise_Mv`.  `obj.is_commutative` holds when no blade symbol other than the
scalar one occurs. -/
def MvObj.characterise (A : MvObj R n) : MvObj R n :=
  if A.charMv then A
  else
    let E := expand A.obj
    if E.all fun t => decide (t.2 = .blade []) then
      { A with iGrade := some 0, isBladeRep := true, grades := some [0] }
    else
      let general : MvObj R n :=
        match gradesAppear E with
        | none => { A with charMv := true, isBladeRep := false, iGrade := none }
        | some gs =>
          { A with
            isBladeRep := true
            iGrade := (match gs with | [r] => some r | _ => none)
            grades := some gs
            charMv := true }
      match E with
      | [(c, s)] =>
        if c = 1 ∧ s ∈ flat (blades n) then
          { A with
            isBladeRep := true
            iGrade := (bladesToGrades n).get? s
            grades := ((bladesToGrades n).get? s).map fun r => [r]
            charMv := true
            bladeFlg := some true }
        else general
      | _ => general

/-- mv.py:374-392: a new object `Mv(expr)`. -/
def MvObj.ofExpr (E : Expr R n) : MvObj R n :=
  MvObj.characterise ⟨E, true, false, none, none, none, none⟩

/-- The value of the object: what every operation that reads it sees. -/
def MvObj.mv (A : MvObj R n) : Mv R n := ⟨expand A.obj, A.isBladeRep⟩

section half
variable [Invertible (2 : R)] (g : Matrix (Fin n) (Fin n) R)

/-- mv.py:982-1012 `is_versor`: the answer and the object afterwards. -/
def MvObj.isVersor (A : MvObj R n) : Bool × MvObj R n :=
  match A.versorFlg with
  | some b => (b, A)
  | none =>
    let A := A.characterise
    let b := A.mv.isVersor g
    (b, { A with versorFlg := some b })

/-- mv.py:928-973 `is_blade`: the answer and the object afterwards. -/
def MvObj.isBlade (A : MvObj R n) : Bool × MvObj R n :=
  match A.bladeFlg with
  | some b => (b, A)
  | none =>
    let A := A.characterise
    match A.iGrade with
    | none => (false, { A with bladeFlg := some false })
    | some r =>
      if A.mv.isZero then (false, { A with bladeFlg := some false })
      else if r ≤ 1 then (true, { A with bladeFlg := some true })
      else
        let (v, A) := A.isVersor g
        if v then (true, { A with bladeFlg := some true })
        else
          let b := (A.mv.wedge g A.mv).isZero
          (b, { A with bladeFlg := some b })

/-- mv.py:1533-1541 `pure_grade`: the answer and the object afterwards; `none` is the exception of
`self.grades[-1]` when `grades` is `None` or empty. -/
def MvObj.pureGrade (A : MvObj R n) : Option ℤ × MvObj R n :=
  let A := A.characterise
  match A.iGrade with
  | some r => (some r, A)
  | none => (A.grades.bind fun gs => gs.getLast?.map fun r => -(r : ℤ), A)

/-- mv.py:1272-1282 `set_coef`: `none` is an `IndexError`.  The test `if self.blade_rep` is of a
method object and always holds.  The cached attributes are not touched. -/
def MvObj.setCoef (A : MvObj R n) (igrade ibase : ℕ) (value : R) : Option (MvObj R n) :=
  match (blades n)[igrade]? with
  | none => none
  | some row =>
    match row[ibase]? with
    | none => none
    | some b =>
      match (linearExpand A.obj).find? fun t => decide (t.2 = b) with
      | some t => some { A with obj := addE A.obj [(value - t.1, b)] }
      | none => some { A with obj := addE A.obj [(value, b)] }

/-- The questions a user can ask of a multivector object. -/
inductive Query
  | characterise
  | isBlade
  | isVersor
  | pureGrade
  | isScalar
  | isVector
  | isZero
deriving DecidableEq, Repr

/-- The answers. -/
inductive Answer
  | none
  | bool (b : Bool)
  | grade (r : ℤ)
  | raised
deriving DecidableEq, Repr

/-- mv.py:117, 920, 924, 928, 982, 1028, 1532: the methods by which a user asks for the
classification of a multivector object. -/
def MvObj.ask (A : MvObj R n) : Query → Answer × MvObj R n
  | .characterise => (.none, A.characterise)
  | .isBlade => (.bool (A.isBlade g).1, (A.isBlade g).2)
  | .isVersor => (.bool (A.isVersor g).1, (A.isVersor g).2)
  | .pureGrade =>
    (match A.pureGrade.1 with
      | some r => .grade r
      | none => .raised, A.pureGrade.2)
  | .isScalar => (.bool (A.mv.isScalar g), A)
  | .isVector => (.bool (A.mv.isVector g), A)
  | .isZero => (.bool A.mv.isZero, A)

/-- A step of the life of an object: a question, or an update of a coefficient. -/
inductive Step (R : Type*)
  | ask (q : Query)
  | setCoef (igrade ibase : ℕ) (value : R)

/-- A failed update leaves the object as it is. -/
def MvObj.step (A : MvObj R n) : Step R → MvObj R n
  | .ask q => (A.ask g q).2
  | .setCoef i j v => (A.setCoef i j v).getD A

/-- The object after a history of steps. -/
def MvObj.run (A : MvObj R n) (h : List (Step R)) : MvObj R n := h.foldl (MvObj.step g) A

end half
end GA
