import Verif.Proofs.Examples
import Verif.Proofs.SpecLaws

/-!
# C10, C11, C12: inner products

`dot`, `left`, `right` model `|`, `<`, `>`; `scalarProduct` models `Ga.scalar_product`.
The products of `Spec` are the bilinear extensions of the grade projections of the Clifford product.
-/

set_option linter.unusedSectionVars false
set_option maxRecDepth 10000

namespace GA
variable {n : ℕ} {R : Type*} [CommRing R] [DecidableEq R] [Invertible (2 : R)]
  {g : Matrix (Fin n) (Fin n) R}

/-- C10: the four inner products for an orthogonal basis. -/
theorem C10_inner_products_ortho (hg : ∀ i j, i ≠ j → g i j = 0) {A B : Mv R n} (hA : A.WF g)
    (hB : B.WF g) :
    ((A.dot g B).WF g ∧ (A.dot g B).val g = Spec.hestenesDot g (A.val g) (B.val g)) ∧
    ((A.left g B).WF g ∧ (A.left g B).val g = Spec.leftContraction g (A.val g) (B.val g)) ∧
    ((A.right g B).WF g ∧ (A.right g B).val g = Spec.rightContraction g (A.val g) (B.val g)) ∧
    (Valid (scalarProduct g A.obj B.obj) ∧
      den g (scalarProduct g A.obj B.obj) = Spec.scalarProduct g (A.val g) (B.val g)) := by
  have hs : g.IsSymm := Matrix.IsSymm.ext fun i j => by
    by_cases h : i = j
    · rw [h]
    · rw [hg j i (Ne.symm h), hg i j h]
  have ho : isOrtho g = true := (isOrtho_iff g).mpr fun i j h => hg i j h.ne
  exact ⟨dot_spec hs hA hB, left_spec hs hA hB, right_spec hs hA hB,
    scalarProduct_spec g hs (hA.valid (Or.inr ho)) (hB.valid (Or.inr ho))⟩

example : (Ex.A.left Ex.gO Ex.B).val Ex.gO =
    Spec.leftContraction Ex.gO (Ex.A.val Ex.gO) (Ex.B.val Ex.gO) :=
  (C10_inner_products_ortho Ex.gO_diag (Ex.A_wf _) (Ex.B_wf _)).2.1.2

example : (Ex.A.left Ex.gO Ex.B).bladeCoefs = [0, 0, 1, 13, 0, -1, 10, 5] := by decide +kernel

/-- C11: the four inner products for any symmetric metric tensor; `|`, `<`, `>` accept both
representations. -/
theorem C11_inner_products (hs : g.IsSymm) {A B : Mv R n} (hA : A.WF g) (hB : B.WF g) :
    ((A.dot g B).WF g ∧ (A.dot g B).val g = Spec.hestenesDot g (A.val g) (B.val g)) ∧
    ((A.left g B).WF g ∧ (A.left g B).val g = Spec.leftContraction g (A.val g) (B.val g)) ∧
    ((A.right g B).WF g ∧ (A.right g B).val g = Spec.rightContraction g (A.val g) (B.val g)) ∧
    (A.isBladeRep = true → B.isBladeRep = true → Valid (scalarProduct g A.obj B.obj) ∧
      den g (scalarProduct g A.obj B.obj) = Spec.scalarProduct g (A.val g) (B.val g)) :=
  ⟨dot_spec hs hA hB, left_spec hs hA hB, right_spec hs hA hB, fun a b =>
    scalarProduct_spec g hs (hA.valid (Or.inl a)) (hB.valid (Or.inl b))⟩

example : isOrtho Ex.gN = false ∧ (Ex.P.dot Ex.gN Ex.B).val Ex.gN =
    Spec.hestenesDot Ex.gN (Ex.P.val Ex.gN) (Ex.B.val Ex.gN) :=
  ⟨by decide +kernel, (C11_inner_products Ex.gN_symm Ex.P_wf (Ex.B_wf _)).1.2⟩

/-- C10/C11 on homogeneous multivectors: `A_r|B_s = <A_r*B_s>_|r-s|` (0 if `r = 0` or `s = 0`),
`A_r<B_s = <A_r*B_s>_(s-r)` (0 if `r > s`), `A_r>B_s = <A_r*B_s>_(r-s)` (0 if `r < s`). -/
theorem C11_homogeneous (hs : g.IsSymm) {A B : Mv R n} (hA : A.WF g) (hB : B.WF g) {r s : ℕ}
    (hr : Spec.Homogeneous g r (A.val g)) (hs' : Spec.Homogeneous g s (B.val g)) :
    (A.dot g B).val g = (if r = 0 ∨ s = 0 then 0 else
      Spec.grade g (max r s - min r s) ((A.mul g B).val g)) ∧
    (A.left g B).val g = (if r ≤ s then Spec.grade g (s - r) ((A.mul g B).val g) else 0) ∧
    (A.right g B).val g = (if s ≤ r then Spec.grade g (r - s) ((A.mul g B).val g) else 0) := by
  rw [(dot_spec hs hA hB).2, (left_spec hs hA hB).2, (right_spec hs hA hB).2,
    (mul_spec' hs hA hB).2, Spec.hestenesDot, Spec.leftContraction, Spec.rightContraction]
  simp only [Spec.gradedProduct_homogeneous _ hr hs']
  refine ⟨?_, ?_, ?_⟩ <;> split_ifs <;> rfl

example : ((Mv.vector ![1, 2, 3]).left Ex.gN Ex.C).val Ex.gN =
    ((Mv.vector ![1, 2, 3]).left Ex.gN Ex.C).val Ex.gN ∧
    Spec.Homogeneous Ex.gN 1 ((Mv.vector ![1, 2, 3]).val Ex.gN) ∧
    Spec.Homogeneous Ex.gN 2 ((Ex.B.getGrade 2).val Ex.gN) := by
  refine ⟨rfl, ?_, ?_⟩
  · rw [(vector_spec _).2.2]; exact Spec.homogeneous_vec _
  · rw [(getGrade_spec (Ex.B_wf _) (Or.inl Ex.B_blade) 2).2.2]; exact Spec.homogeneous_grade _ _

/-- C12: on a diagonal metric the algorithms for orthogonal and for general bases compute the same
coefficients for `*`, `|`, `<`, `>` and the scalar product (`updateAndSubstitute` is the common
bilinear extension, ga.py:96-120; the two arguments are the two product tables). -/
theorem C12_paths_agree (hg : ∀ i j, i ≠ j → g i j = 0) {A B : Expr R n} (hA : Valid A)
    (hB : Valid B) :
    coeff (updateAndSubstitute (gpBladesOrtho g) A B) =
      coeff (updateAndSubstitute (gpBladesNonOrtho g) A B) ∧
    ∀ rg ∈ [hestenesGrade, leftGrade, rightGrade, scalarGrade],
      coeff (updateAndSubstitute (dotBladesOrtho g rg) A B) =
        coeff (updateAndSubstitute (dotBladesNonOrtho g rg) A B) := by
  have hs : g.IsSymm := Matrix.IsSymm.ext fun i j => by
    by_cases h : i = j
    · rw [h]
    · rw [hg j i (Ne.symm h), hg i j h]
  constructor
  · apply coeff_ext g
      (allSyms_uas (valid_iff.mp hA) (valid_iff.mp hB) isBl_one isBl_one fun s t h1 h2 =>
        (gpBladesOrtho_spec g hg h1 h2).1)
      (allSyms_uas (valid_iff.mp hA) (valid_iff.mp hB) isBl_one isBl_one fun s t h1 h2 =>
        (gpBladesNonOrtho_spec g hs (Or.inl h1) (Or.inl h2)).1)
    rw [den_eq_lin, den_eq_lin,
      lin_uas (symDen g) (symDen g) (symDen g) (LinearMap.mul R (Spec.Cl g)) (valid_iff.mp hA)
        (valid_iff.mp hB) isBl_one isBl_one fun s t h1 h2 => (gpBladesOrtho_spec g hg h1 h2).2,
      lin_uas (symDen g) (symDen g) (symDen g) (LinearMap.mul R (Spec.Cl g)) (valid_iff.mp hA)
        (valid_iff.mp hB) isBl_one isBl_one fun s t h1 h2 =>
          (gpBladesNonOrtho_spec g hs (Or.inl h1) (Or.inl h2)).2]
  · have key : ∀ rg, GoodGrade rg → coeff (updateAndSubstitute (dotBladesOrtho g rg) A B) =
        coeff (updateAndSubstitute (dotBladesNonOrtho g rg) A B) := by
      intro rg hrg
      have h1 := uas_graded g (tbl := dotBladesOrtho g rg) (rg := rg)
        (fun s t a b => dotBladesOrtho_spec g hg hrg a b) hA hB
      have h2 := uas_graded g (tbl := dotBladesNonOrtho g rg) (rg := rg)
        (fun s t a b => dotBladesNonOrtho_spec g hs a b) hA hB
      exact coeff_ext g h1.1 h2.1 (h1.2.trans h2.2.symm)
    intro rg hrg
    simp only [List.mem_cons, List.not_mem_nil, or_false] at hrg
    rcases hrg with rfl | rfl | rfl | rfl
    · exact key _ goodGrade_hestenes
    · exact key _ goodGrade_left
    · exact key _ goodGrade_right
    · exact key _ goodGrade_scalar

example : coeff (updateAndSubstitute (gpBladesOrtho Ex.gO) Ex.A.obj Ex.B.obj) =
    coeff (updateAndSubstitute (gpBladesNonOrtho Ex.gO) Ex.A.obj Ex.B.obj) :=
  (C12_paths_agree Ex.gO_diag ((Ex.A_wf Ex.gO).valid (Or.inl Ex.A_blade))
    ((Ex.B_wf Ex.gO).valid (Or.inl Ex.B_blade))).1

end GA
