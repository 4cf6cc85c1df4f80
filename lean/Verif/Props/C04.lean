import Verif.Proofs.Reduce
import Verif.Proofs.Examples

/-!
# C04: normal ordering of products of basis vectors

`reduceBasis g l` models `Ga.reduce_basis`; it is a total function (its termination is part of its
definition).  `Spec.base g l` is the Clifford product of the basis vectors with indices `l`.
-/

set_option linter.unusedSectionVars false
set_option maxRecDepth 10000

namespace GA
variable {n : ℕ} {R : Type*} [CommRing R] [DecidableEq R] [Invertible (2 : R)]
  {g : Matrix (Fin n) (Fin n) R}

/-- C04: the result is a linear combination of products with strictly increasing indices, without
repeated entries, and denotes the product of the input list. -/
theorem C04_reduce_basis (hs : g.IsSymm) (l : List (Fin n)) :
    (∀ t ∈ reduceBasis g l, t.2.Pairwise (· < ·)) ∧ ((reduceBasis g l).map Prod.snd).Nodup ∧
    ((reduceBasis g l).map fun t => t.1 • Spec.base g t.2).sum = Spec.base g l := by
  obtain ⟨h1, h2, -, h4⟩ := reduceBasis_spec g (Spec.e g) (fun i => Spec.e_sq g i)
    (fun i j => by rw [Spec.e_mul_e_add_swap, hs.apply i j, two_mul]) l
  exact ⟨h2, h4, by simpa [Spec.base] using h1⟩

example : ((reduceBasis Ex.gN [2, 1, 0, 1]).map fun t => t.1 • Spec.base Ex.gN t.2).sum =
    Spec.base Ex.gN [2, 1, 0, 1] := (C04_reduce_basis Ex.gN_symm _).2.2

example : reduceBasis Ex.gN [1, 0] = [(-1, [0, 1]), (1, [])] := by decide +kernel

end GA
