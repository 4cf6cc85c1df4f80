import Verif.Proofs.Dop
import Verif.Proofs.Isometry

/-!
# Algebra endomorphisms that map vectors to vectors
-/

set_option linter.unusedSectionVars false

namespace Spec
variable {n : ℕ} {R : Type*} [CommRing R] [Invertible (2 : R)] {g : Matrix (Fin n) (Fin n) R}

/-- An algebra endomorphism that maps vectors to vectors keeps exterior products and grades. -/
theorem algHom_keeps (f : Cl g →ₐ[R] Cl g) (hv : ∀ i : Fin n, ∃ u, f (vec g (Pi.single i 1)) = vec g u) :
    (∀ x y, f (wedge g x y) = wedge g (f x) (f y)) ∧ ∀ r x, f (grade g r x) = grade g r (f x) := by
  choose u hu using hv
  obtain ⟨M, hMu⟩ : ∃ M : Matrix (Fin n) (Fin n) R, ∀ k i, M k i = u i k :=
    ⟨Matrix.of fun k i => u i k, fun _ _ => rfl⟩
  have hM : ∀ v : Fin n → R, f (vec g v) = vec g (M.mulVec v) := by
    intro v
    have e1 : M.mulVec v = ∑ i, v i • u i := by
      funext k
      simp only [hMu, Matrix.mulVec, dotProduct, Finset.sum_apply, Pi.smul_apply, smul_eq_mul]
      exact Finset.sum_congr rfl fun i _ => mul_comm _ _
    have e2 : v = ∑ i, v i • (Pi.single i 1 : Fin n → R) := by
      funext k
      simp [Finset.sum_apply, Pi.single_apply]
    rw [e1]
    conv_lhs => rw [e2]
    simp only [vec, map_sum, map_smul]
    exact Finset.sum_congr rfl fun i _ => congrArg _ (hu i)
  have hout := algHom_eq_outer f M hM
  refine ⟨fun x y => ?_, fun r x => ?_⟩
  · rw [hout, hout, hout, outer_wedge]
  · rw [hout, hout, homogeneous_outer]

end Spec

namespace GA
variable {n : ℕ} {K : Type*} [Field K] [DecidableEq K] [Invertible (2 : K)]
  {g : Matrix (Fin n) (Fin n) K}

/-- An algebra endomorphism that keeps grades respects all products. -/
theorem opS_of_grade {f : Spec.Cl g →ₐ[K] Spec.Cl g} (hw : ∀ x y, f (Spec.wedge g x y) = Spec.wedge g (f x) (f y))
    (hg : ∀ r x, f (Spec.grade g r x) = Spec.grade g r (f x)) (op : ProdOp) (x y : Spec.Cl g) :
    f (opS g op x y) = opS g op (f x) (f y) := by
  have hG : ∀ c, f (Spec.gradedProduct g c x y) = Spec.gradedProduct g c (f x) (f y) := by
    intro c
    simp only [Spec.gradedProduct, map_sum]
    refine Finset.sum_congr rfl fun r _ => Finset.sum_congr rfl fun s _ => ?_
    cases c r s with
    | none => simp
    | some t => simp only [hg, map_mul]
  cases op
  · exact map_mul f x y
  · exact hw x y
  all_goals exact hG _

theorem mulOp_spec (hs : g.IsSymm) (op : ProdOp) {A B : Mv K n} (hA : A.WF g) (hB : B.WF g) :
    (Mv.mulOp g op A B).WF g ∧ (Mv.mulOp g op A B).val g = opS g op (A.val g) (B.val g) := by
  cases op
  · exact mul_spec' hs hA hB
  · exact wedge_spec' hs hA hB
  · exact dot_spec hs hA hB
  · exact left_spec hs hA hB
  · exact right_spec hs hA hB

end GA
