import Verif.Spec.Denote
import Verif.Model.Mv

/-!
# Meaning and well-formedness of multivectors
-/

namespace GA
variable {n : ℕ} {R : Type*} [CommRing R] [DecidableEq R] [Invertible (2 : R)]

/-- The element of the Clifford algebra a multivector stands for. -/
noncomputable def Mv.val (g : Matrix (Fin n) (Fin n) R) (A : Mv R n) : Spec.Cl g := den g A.obj

/-- A multivector as the library builds them: like terms are collected and no coefficient is zero;
in blade representation (always, for an orthogonal basis) the symbols are basis blades of the
algebra, otherwise they are bases.  In particular the symbol `error` does not occur. -/
def Mv.WF (g : Matrix (Fin n) (Fin n) R) (A : Mv R n) : Prop :=
  (A.obj.map Prod.snd).Nodup ∧ (∀ t ∈ A.obj, t.1 ≠ 0) ∧
  ∀ t ∈ A.obj, ∃ l : List (Fin n), l.Pairwise (· < ·) ∧
    t.2 = if A.isBladeRep = true ∨ isOrtho g = true then .blade l else mkBase l

end GA
