import Verif.Spec.Outer
import Verif.Model.Lt

/-!
# Well-formed linear transformations and their matrices
-/

namespace GA
variable {n : ℕ} {R : Type*} [CommRing R] [DecidableEq R]

/-- A transformation as the constructors of the library build them: every basis vector, and nothing
else, is a key (once), every value is a linear combination of basis vectors, and a value that is
zero is the expression zero. -/
structure Lt.WF (L : Lt R n) : Prop where
  total : ∀ i : Fin n, ∃ E, L.get? (.blade [i]) = some E
  vals : ∀ p ∈ L, (∃ i : Fin n, p.1 = .blade [i]) ∧ (∀ t ∈ p.2, ∃ j : Fin n, t.2 = .blade [j]) ∧
    (p.2 = [] ∨ expand p.2 ≠ [])
  nodup : (L.map Prod.fst).Nodup

/-- The matrix of a transformation: entry `(j, i)` is the coefficient of `e_j` in the image of
`e_i`. -/
def Lt.mat (L : Lt R n) : Matrix (Fin n) (Fin n) R :=
  Matrix.of fun j i => coeff ((L.get? (.blade [i])).getD []) [j]

/-- A transformation given by a dictionary that may omit basis vectors. -/
structure Lt.PartialWF (L : Lt R n) : Prop where
  vals : ∀ p ∈ L, (∃ i : Fin n, p.1 = .blade [i]) ∧ (∀ t ∈ p.2, ∃ j : Fin n, t.2 = .blade [j]) ∧
    (p.2 = [] ∨ expand p.2 ≠ [])
  nodup : (L.map Prod.fst).Nodup

/-- The completion of a dictionary: the omitted basis vectors are fixed. -/
def Lt.complete (L : Lt R n) : Lt R n :=
  L ++ ((List.finRange n).filter fun i => (L.get? (.blade [i])).isNone).map fun i =>
    (.blade [i], [(1, .blade [i])])

end GA
