import Verif.Model.Dop
import Verif.Spec.Mv

/-! # Well-formedness and normal form of differential operators -/

namespace GA
variable {V : Type*} [DecidableEq V]

/-- Python dictionaries have distinct keys. -/
def Pdop.WF (p : Pdop V) : Prop := (p.map Prod.fst).Nodup

/-- A scalar operator built from Python dictionaries. -/
def Sdop.WF {R : Type*} (s : Sdop R V) : Prop := ∀ t ∈ s, t.2.WF

/-- No two terms have the same partial derivative. -/
def Distinct {α : Type*} (l : List (α × Pdop V)) : Prop :=
  l.Pairwise fun s t => s.2.eqv t.2 = false

/-- A multivector operator built from multivectors in blade representation and Python
dictionaries. -/
def Dop.WF {n : ℕ} {K : Type*} [Field K] [DecidableEq K] [Invertible (2 : K)] (X : Fields V K n)
    (d : Dop V K n) : Prop :=
  ∀ t ∈ d.terms, (t.1.WF X.g ∧ t.1.isBladeRep = true) ∧ t.2.WF

/-- The derivatives of multivector fields by any two symbols commute. -/
def CommutingDerivatives {n : ℕ} {K : Type*} [Field K] [DecidableEq K] [Invertible (2 : K)]
    (X : Fields V K n) : Prop :=
  ∀ (i j : V) (A : Mv K n), A.WF X.g → A.isBladeRep = true →
    ((A.diffN X j 1).diffN X i 1).eq X.g ((A.diffN X i 1).diffN X j 1) = true

end GA
