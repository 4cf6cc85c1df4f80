import Verif.Proofs.SubspaceCon
import Verif.Props.C110

/-!
# C110: contractions of blades and their subspaces
-/

set_option linter.unusedSectionVars false
set_option maxRecDepth 10000

namespace Spec
open CliffordAlgebra
variable {n : ℕ} {K : Type*} [Field K] [Invertible (2 : K)] {g : Matrix (Fin n) (Fin n) K}
  {W W' : Submodule K (Fin n → K)} {x y : Cl g}

theorem BladeOf.reverse (h : BladeOf g W x) : BladeOf g W (CliffordAlgebra.reverse x) := by
  rw [(homogeneous_reverse h.homogeneous).2]
  exact h.smul (pow_ne_zero _ (neg_ne_zero.mpr one_ne_zero))

theorem bladeOf_reverse : BladeOf g W (CliffordAlgebra.reverse (Q := Q g) x) ↔ BladeOf g W x :=
  ⟨fun h => by simpa using h.reverse, BladeOf.reverse⟩

end Spec

namespace GA
variable {n : ℕ} {K : Type*} [Field K] [DecidableEq K] [Invertible (2 : K)]
  {g : Matrix (Fin n) (Fin n) K} {B B' : Mv K n} {W W' : Submodule K (Fin n → K)}

/-- C110: `B < B'` is zero exactly if a vector of the first subspace other than zero is orthogonal to the second one, and
otherwise it stands for the vectors of the second subspace that are orthogonal to the first one; in every metric. -/
theorem C110_left (hs : g.IsSymm) (hB : B.WF g) (hb : B.isBladeRep = true) (hB' : B'.WF g) (hb' : B'.isBladeRep = true)
    (h : StandsFor g B W) (h' : StandsFor g B' W') :
    ((B.left g B').isZero = false ↔ Disjoint W ((Matrix.toBilin' g).orthogonal W')) ∧
    (Disjoint W ((Matrix.toBilin' g).orthogonal W') →
      StandsFor g (B.left g B') (W' ⊓ (Matrix.toBilin' g).orthogonal W)) := by
  have r := Rep.of_wf hB hb
  have r' := Rep.of_wf hB' hb'
  have l := r.left hs r'
  obtain ⟨k1, k2⟩ := ((standsFor_iff hs r W).mp h).lc hs ((standsFor_iff hs r' W').mp h')
  exact ⟨by rw [isZero_false l, k1], fun hd => (standsFor_iff hs l _).mpr (k2 hd)⟩

/-- C110: the same for `B' > B`. -/
theorem C110_right (hs : g.IsSymm) (hB : B.WF g) (hb : B.isBladeRep = true) (hB' : B'.WF g) (hb' : B'.isBladeRep = true)
    (h : StandsFor g B W) (h' : StandsFor g B' W') :
    ((B'.right g B).isZero = false ↔ Disjoint W ((Matrix.toBilin' g).orthogonal W')) ∧
    (Disjoint W ((Matrix.toBilin' g).orthogonal W') →
      StandsFor g (B'.right g B) (W' ⊓ (Matrix.toBilin' g).orthogonal W)) := by
  have r := Rep.of_wf hB hb
  have r' := Rep.of_wf hB' hb'
  have l := r'.right hs r
  obtain ⟨k1, k2⟩ := ((standsFor_iff hs r W).mp h).reverse.lc hs ((standsFor_iff hs r' W').mp h').reverse
  rw [Spec.rc_eq] at l
  refine ⟨?_, fun hd => (standsFor_iff hs l _).mpr (k2 hd).reverse⟩
  rw [isZero_false l, ← k1, not_iff_not]
  exact ⟨fun h0 => by simpa using congrArg CliffordAlgebra.reverse h0, fun h0 => by rw [h0, map_zero]⟩

/-- C110: `B | B'` and `B' | B` are these contractions if the dimension of the first subspace is not zero and not larger
than that of the second one. -/
theorem C110_dot (hs : g.IsSymm) (hB : B.WF g) (hb : B.isBladeRep = true) (hB' : B'.WF g) (hb' : B'.isBladeRep = true)
    (h : StandsFor g B W) (h' : StandsFor g B' W') (h0 : W ≠ ⊥) (hle : Module.finrank K W ≤ Module.finrank K W') :
    (B.dot g B').eq g (B.left g B') = true ∧ (B'.dot g B).eq g (B'.right g B) = true := by
  have r := Rep.of_wf hB hb
  have r' := Rep.of_wf hB' hb'
  have x1 := ((standsFor_iff hs r W).mp h).homogeneous
  have x2 := ((standsFor_iff hs r' W').mp h').homogeneous
  have hp : Module.finrank K W ≠ 0 := fun e => h0 (Submodule.finrank_eq_zero.mp e)
  rw [(r.dot hs r').eq_iff hs (r.left hs r'), (r'.dot hs r).eq_iff hs (r'.right hs r)]
  constructor
  · rw [Spec.hestenesDot, Spec.leftContraction, Spec.gradedProduct_homogeneous _ x1 x2, Spec.gradedProduct_homogeneous _ x1 x2]
    rw [if_neg (by omega), if_pos hle, max_eq_right hle, min_eq_left hle]
  · rw [Spec.hestenesDot, Spec.rightContraction, Spec.gradedProduct_homogeneous _ x2 x1, Spec.gradedProduct_homogeneous _ x2 x1]
    rw [if_neg (by omega), if_pos hle, max_eq_left hle, min_eq_right hle]

namespace Ex

/-- The vectors of the first plane that are orthogonal to the first basis vector. -/
example : StandsFor gN ((outerOf gN (List.ofFn ![![1, 0, 0]])).left gN plane1)
    (sub1 ⊓ (Matrix.toBilin' gN).orthogonal (Submodule.span ℚ (Set.range ![![1, 0, 0]]))) := by
  have r := rep_outerOf gN_symm (List.ofFn ![![(1 : ℚ), 0, 0]])
  have h := C110_left gN_symm r.wf r.flag plane1_ok.1 plane1_ok.2.1
    ((C110_span gN_symm ![![(1 : ℚ), 0, 0]]).2 ((C110_span gN_symm _).1.mp (by decide +kernel))) plane1_ok.2.2
  exact h.2 (h.1.mp (by decide +kernel))

/-- The two planes are not orthogonal in the sense of `C110_right`: their contraction is a number other than zero, which
stands for the subspace of the zero vector. -/
example : StandsFor gN (plane1.right gN plane2) (sub1 ⊓ (Matrix.toBilin' gN).orthogonal sub2) := by
  have h := C110_right gN_symm plane2_ok.1 plane2_ok.2.1 plane1_ok.1 plane1_ok.2.1 plane2_ok.2.2 plane1_ok.2.2
  exact h.2 (h.1.mp (by decide +kernel))

end Ex

end GA
