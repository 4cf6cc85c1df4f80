import Verif.Proofs.Inner
import Verif.Model.Mv

/-! Interface lemmas: validity and meaning of every operation on valid expressions. -/

set_option linter.unusedSectionVars false

namespace GA
variable {n : ℕ} {R : Type*} [CommRing R] [DecidableEq R]

theorem valid_addE {A B : Expr R n} (hA : Valid A) (hB : Valid B) : Valid (addE A B) :=
  (valid_iff.mp hA).addE (valid_iff.mp hB)
theorem valid_subE {A B : Expr R n} (hA : Valid A) (hB : Valid B) : Valid (subE A B) :=
  (valid_iff.mp hA).subE (valid_iff.mp hB)
theorem valid_negE {A : Expr R n} (hA : Valid A) : Valid (negE A) := (valid_iff.mp hA).negE
theorem valid_smulE (c : R) {A : Expr R n} (hA : Valid A) : Valid (smulE c A) :=
  (valid_iff.mp hA).smulE c
theorem valid_scalarE (c : R) : Valid (scalarE c : Expr R n) := by
  intro t ht
  rw [scalarE, List.mem_singleton] at ht
  subst ht
  exact isBl_one
theorem valid_nil : Valid ([] : Expr R n) := by intro t ht; simp at ht


theorem valid_bladeE {l : List (Fin n)} (h : l.Pairwise (· < ·)) : Valid (bladeE l : Expr R n) := by
  intro t ht
  rw [bladeE, List.mem_singleton] at ht
  subst ht
  exact ⟨l, rfl, h⟩

section
variable [Invertible (2 : R)] (g : Matrix (Fin n) (Fin n) R)

theorem den_bladeE (l : List (Fin n)) : den g (bladeE l : Expr R n) = Spec.blade g l := by
  simp [bladeE, den, symDen]

theorem coeff_addE (A B : Expr R n) : coeff (addE A B) = coeff A + coeff B := by
  funext l; simp [coeff_eq_lin, lin_addE]
theorem coeff_smulE (c : R) (A : Expr R n) : coeff (smulE c A) = c • coeff A := by
  funext l; simp [coeff_eq_lin]
theorem coeff_negE (A : Expr R n) : coeff (negE A) = -coeff A := by
  funext l; simp [coeff_eq_lin]
theorem coeff_subE (A B : Expr R n) : coeff (subE A B) = coeff A - coeff B := by
  funext l; simp [coeff_eq_lin]
theorem coeff_expand (A : Expr R n) : coeff (expand A) = coeff A := by
  funext l; simp [coeff_eq_lin]
theorem coeff_nil : coeff ([] : Expr R n) = 0 := by funext l; simp [coeff]
theorem coeff_scalarE (c : R) (l : List (Fin n)) :
    coeff (scalarE c : Expr R n) l = if l = [] then c else 0 := by
  simp only [coeff, scalarE, List.map_cons, List.map_nil, List.sum_cons, List.sum_nil, add_zero,
    Sym.blade.injEq, eq_comm]

/-- Coefficient equality from equality in the Clifford algebra. -/
theorem coeff_ext {A B : Expr R n} (hA : Valid A) (hB : Valid B) (h : den g A = den g B) :
    coeff A = coeff B := (den_eq_iff' g hA hB).mp h

theorem hestenesDot_spec (hs : g.IsSymm) {A B : Expr R n} (hA : Valid A) (hB : Valid B) :
    Valid (hestenesDot g A B) ∧
      den g (hestenesDot g A B) = Spec.hestenesDot g (den g A) (den g B) := by
  rw [Spec.hestenesDot, ← hestenesGrade_eq]
  exact uas_graded g (fun s t h1 h2 => dotBlades_spec g hs goodGrade_hestenes h1 h2) hA hB

theorem leftContract_spec (hs : g.IsSymm) {A B : Expr R n} (hA : Valid A) (hB : Valid B) :
    Valid (leftContract g A B) ∧
      den g (leftContract g A B) = Spec.leftContraction g (den g A) (den g B) := by
  rw [Spec.leftContraction, ← leftGrade_eq]
  exact uas_graded g (fun s t h1 h2 => dotBlades_spec g hs goodGrade_left h1 h2) hA hB

theorem rightContract_spec (hs : g.IsSymm) {A B : Expr R n} (hA : Valid A) (hB : Valid B) :
    Valid (rightContract g A B) ∧
      den g (rightContract g A B) = Spec.rightContraction g (den g A) (den g B) := by
  rw [Spec.rightContraction, ← rightGrade_eq]
  exact uas_graded g (fun s t h1 h2 => dotBlades_spec g hs goodGrade_right h1 h2) hA hB

theorem scalarProduct_spec (hs : g.IsSymm) {A B : Expr R n} (hA : Valid A) (hB : Valid B) :
    Valid (scalarProduct g A B) ∧
      den g (scalarProduct g A B) = Spec.scalarProduct g (den g A) (den g B) := by
  rw [← gradedProduct_scalar]
  exact uas_graded g (fun s t h1 h2 => dotBlades_spec g hs goodGrade_scalar h1 h2) hA hB

/-- Every element of the Clifford algebra is the meaning of a valid expression. -/
theorem exists_expr (x : Spec.Cl g) : ∃ A : Expr R n, Valid A ∧ den g A = x := by
  have h : ∀ y : ExteriorAlgebra R (Fin n → R),
      ∃ A : Expr R n, Valid A ∧ den g A = (Spec.toExt g).symm y := by
    intro y
    have hy := (Pi.basisFun R (Fin n)).ExteriorAlgebra.mem_span y
    induction hy using Submodule.span_induction with
    | mem x hx =>
      obtain ⟨s, rfl⟩ := hx
      refine ⟨bladeE (s.sort (· ≤ ·)), valid_bladeE (sort_lt s), ?_⟩
      rw [den_bladeE, Spec.extBasis_apply, Spec.blade]
    | zero => exact ⟨[], valid_nil, by simp⟩
    | add x y _ _ hx hy =>
      obtain ⟨A, hA, hA'⟩ := hx
      obtain ⟨B, hB, hB'⟩ := hy
      exact ⟨addE A B, valid_addE hA hB, by rw [den_addE, hA', hB', map_add]⟩
    | smul c x _ hx =>
      obtain ⟨A, hA, hA'⟩ := hx
      exact ⟨smulE c A, valid_smulE c hA, by rw [den_smulE, hA', map_smul]⟩
  obtain ⟨A, hA, hA'⟩ := h (Spec.toExt g x)
  exact ⟨A, hA, by simpa using hA'⟩

end

/-! ### Vectors -/


theorem valid_vecE (v : Fin n → R) : Valid (vecE v) := by
  intro t ht
  obtain ⟨i, -, rfl⟩ := List.mem_map.mp ht
  exact ⟨[i], rfl, by simp⟩

theorem den_vecE [Invertible (2 : R)] (g : Matrix (Fin n) (Fin n) R) (v : Fin n → R) :
    den g (vecE v) = Spec.vec g v := by
  rw [Spec.vec_eq_sum, den, vecE, List.map_map, ← List.ofFn_eq_map, List.sum_ofFn]
  simp only [Function.comp_apply, symDen, Spec.blade_singleton]

end GA
