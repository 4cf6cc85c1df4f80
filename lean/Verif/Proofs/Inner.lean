import Verif.Proofs.DotOrtho

/-! The inner products of expressions are the specified products. -/

set_option linter.unusedSectionVars false

namespace GA
variable {n : ℕ} {R : Type*} [CommRing R] [DecidableEq R] [Invertible (2 : R)]
  (g : Matrix (Fin n) (Fin n) R)

/-- `Spec.gradedProduct` as a bilinear map. -/
noncomputable def gradedL (f : ℕ → ℕ → Option ℕ) : Spec.Cl g →ₗ[R] Spec.Cl g →ₗ[R] Spec.Cl g :=
  ∑ r ∈ Finset.range (n + 1), ∑ s ∈ Finset.range (n + 1),
    match f r s with
    | none => 0
    | some t => ((LinearMap.mul R (Spec.Cl g)).compl₁₂ (Spec.grade g r) (Spec.grade g s)).compr₂
        (Spec.grade g t)

theorem gradedL_apply (f : ℕ → ℕ → Option ℕ) (x y : Spec.Cl g) :
    gradedL g f x y = Spec.gradedProduct g f x y := by
  simp only [gradedL, Spec.gradedProduct, LinearMap.sum_apply]
  refine Finset.sum_congr rfl fun r _ => Finset.sum_congr rfl fun s _ => ?_
  cases f r s <;> rfl

theorem symLen_le {s : Sym n} (h : IsBl s) : symLen s ≤ n := by
  obtain ⟨l, rfl, hl⟩ := h
  exact length_le_of_lt hl

theorem gradedL_symDen (f : ℕ → ℕ → Option ℕ) {s t : Sym n} (hs : IsBl s) (ht : IsBl t) :
    gradedL g f (symDen g s) (symDen g t) = gradedVal g f s t := by
  rw [gradedL_apply, Spec.gradedProduct]
  rw [Finset.sum_eq_single (symLen s), Finset.sum_eq_single (symLen t)]
  · rw [gradedVal, grade_symDen g hs, grade_symDen g ht, if_pos rfl, if_pos rfl]
    rfl
  · intro b _ hb
    rw [grade_symDen g ht, if_neg (Ne.symm hb), mul_zero]
    cases f (symLen s) b <;> simp
  · intro h
    exact absurd (Finset.mem_range.mpr (Nat.lt_succ_of_le (symLen_le ht))) h
  · intro b _ hb
    refine Finset.sum_eq_zero fun c _ => ?_
    rw [grade_symDen g hs, if_neg (Ne.symm hb), zero_mul]
    cases f b c <;> simp
  · intro h
    exact absurd (Finset.mem_range.mpr (Nat.lt_succ_of_le (symLen_le hs))) h

/-- The inner product with a given grade function, for the two code paths and their combination. -/
theorem uas_graded {tbl : Sym n → Sym n → Expr R n} {rg : ℕ → ℕ → Option ℕ}
    (htbl : ∀ s t, IsBl s → IsBl t →
      AllSyms IsBl (tbl s t) ∧ den g (tbl s t) = gradedVal g rg s t)
    {A B : Expr R n} (hA : Valid A) (hB : Valid B) :
    Valid (updateAndSubstitute tbl A B) ∧
      den g (updateAndSubstitute tbl A B) = Spec.gradedProduct g rg (den g A) (den g B) := by
  refine ⟨allSyms_uas (valid_iff.mp hA) (valid_iff.mp hB) isBl_one isBl_one
    fun s t hs ht => (htbl s t hs ht).1, ?_⟩
  rw [← gradedL_apply]
  exact lin_uas (symDen g) (symDen g) (symDen g) (gradedL g rg) (valid_iff.mp hA)
    (valid_iff.mp hB) isBl_one isBl_one fun s t hs ht => by
      rw [gradedL_symDen g rg hs ht]; exact (htbl s t hs ht).2

theorem hestenesGrade_eq : hestenesGrade =
    fun r s => if r = 0 ∨ s = 0 then none else some (max r s - min r s) := by
  funext r s
  rw [hestenesGrade]
  split_ifs
  · rfl
  · congr 1; omega

theorem leftGrade_eq : leftGrade = fun r s => if r ≤ s then some (s - r) else none := by
  funext r s
  simp only [leftGrade]
  split_ifs
  · omega
  · rfl
  · congr 1; omega
  · omega

theorem rightGrade_eq : rightGrade = fun r s => if s ≤ r then some (r - s) else none := by
  funext r s
  simp only [rightGrade]
  split_ifs
  · omega
  · rfl
  · congr 1; omega
  · omega

/-- Summing over all grades of a factor. -/
theorem sum_grade (x : Spec.Cl g) : ∑ r ∈ Finset.range (n + 1), Spec.grade g r x = x := by
  have h : ∀ y : ExteriorAlgebra R (Fin n → R),
      ∑ r ∈ Finset.range (n + 1), Spec.grade g r ((Spec.toExt g).symm y) = (Spec.toExt g).symm y := by
    intro y
    have hy := (Pi.basisFun R (Fin n)).ExteriorAlgebra.mem_span y
    induction hy using Submodule.span_induction with
    | mem x hx =>
      obtain ⟨s, rfl⟩ := hx
      rw [Spec.extBasis_apply]
      have : ∀ r, Spec.grade g r ((Spec.toExt g).symm (Spec.extBlade R (s.sort (· ≤ ·)))) =
          if s.card = r then Spec.blade g (s.sort (· ≤ ·)) else 0 := by
        intro r
        have := Spec.grade_blade g r (s.sort (· ≤ ·))
        rwa [Finset.length_sort, Spec.blade] at this
      simp only [this]
      rw [Finset.sum_ite_eq, if_pos]
      · rfl
      · rw [Finset.mem_range]
        have := Finset.card_le_univ s
        rw [Fintype.card_fin] at this
        omega
    | zero => simp
    | add x y _ _ hx hy => simp only [map_add, Finset.sum_add_distrib, hx, hy]
    | smul c x _ hx => simp only [map_smul, ← Finset.smul_sum, hx]
  simpa using h (Spec.toExt g x)

theorem gradedProduct_scalar (x y : Spec.Cl g) :
    Spec.gradedProduct g scalarGrade x y = Spec.scalarProduct g x y := by
  rw [Spec.gradedProduct, Spec.scalarProduct]
  simp only [scalarGrade]
  conv_rhs => rw [← sum_grade g x, ← sum_grade g y]
  simp only [Finset.sum_mul, Finset.mul_sum, map_sum]
  exact Finset.sum_comm

end GA
