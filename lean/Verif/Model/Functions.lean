import Verif.Model.Pseudo

/-!
# Module level functions of galgebra/mv.py: `cross` and `compare`
-/

namespace GA

variable {n : ℕ} {K : Type*} [Field K] [DecidableEq K] [Invertible (2 : K)]
  (g : Matrix (Fin n) (Fin n) K)

/-- mv.py:2067-2075 `cross`, for two multivectors of one algebra; `i` is `Ga.I()`; `none` is the
`ValueError`. -/
def cross (i v₁ v₂ : Mv K n) : Option (Mv K n) :=
  if v₁.isVector g ∧ v₂.isVector g ∧ n = 3 then some (i.neg.mul g (v₁.wedge g v₂)) else none

/-- mv.py:1567-1577: the loop of `compare` over the terms after the first one, with the ratio `c`. -/
def compareLoop (c : K) : List ((K × Sym n) × (K × Sym n)) → K
  | [] => c
  | (a, b) :: l =>
    if b.1 ≠ 0 ∧ a.2 = b.2 then (if a.1 / b.1 ≠ c then 0 else compareLoop c l) else 0

/-- mv.py:1549-1579 `compare` of two multivectors. -/
def compare (A B : Mv K n) : K :=
  let a := linearExpand A.obj
  let b := linearExpand B.obj
  if a.length ≠ b.length then 0
  else if a.map Prod.snd ≠ b.map Prod.snd then 0
  else match a, b with
    | a0 :: as, b0 :: bs =>
      if b0.1 ≠ 0 ∧ a0.2 = b0.2 then compareLoop (a0.1 / b0.1) (as.zip bs) else 0
    | _, _ => 0

end GA
