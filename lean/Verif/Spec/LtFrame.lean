import Verif.Spec.Frame
import Verif.Spec.Lt

/-!
# Specification: the same linear transformation in two bases

`F[0], ..., F[n-1]` are vectors of the algebra with the metric `g`, and `h` is the metric of the algebra that
has them as basis (`gram`).  A transformation `L` of the new algebra is the same as a transformation `L'` of the
old one, if `L(v)`, written in the old algebra, is `L'` of `v` written in the old algebra, for every vector `v`.
-/

namespace GA
variable {n : ℕ} {R : Type*} [CommRing R] [DecidableEq R] [Invertible (2 : R)]

/-- `L(v)` and `L'(v)` are equal for every vector `v`. -/
def SameLt (h g : Matrix (Fin n) (Fin n) R) (F : Fin n → Mv R n) (L L' : Lt R n) : Prop :=
  ∀ v : Fin n → R, ((L.call h (Mv.vector v)).rewriteIn g F).eq g
    (L'.call g ((Mv.vector v).rewriteIn g F)) = true

/-- `L(v)` and `L'(v)` are equal for every basis vector `v` of the new algebra. -/
def SameOnBasis (h g : Matrix (Fin n) (Fin n) R) (F : Fin n → Mv R n) (L L' : Lt R n) : Prop :=
  ∀ i : Fin n, ((L.call h (Mv.vector (Pi.single i 1))).rewriteIn g F).eq g (L'.call g (F i)) = true

instance (h g : Matrix (Fin n) (Fin n) R) (F : Fin n → Mv R n) (L L' : Lt R n) :
    Decidable (SameOnBasis h g F L L') := Nat.decidableForallFin _

end GA
