import Verif.Proofs.Examples
import Verif.Proofs.SpecLaws

/-!
# C02, C03: the geometric product is the Clifford product

`A.mul g B` models `A * B`; `val g` is the element of the Clifford algebra of the quadratic form
`∑ g i j v i v j` that a multivector stands for.
-/

set_option linter.unusedSectionVars false
set_option maxRecDepth 10000

namespace GA
variable {n : ℕ} {R : Type*} [CommRing R] [DecidableEq R] [Invertible (2 : R)]
  {g : Matrix (Fin n) (Fin n) R}

/-- C02: orthogonal basis. -/
theorem C02_geometric_product_ortho (hg : ∀ i j, i ≠ j → g i j = 0) {A B : Mv R n} (hA : A.WF g)
    (hB : B.WF g) : (A.mul g B).WF g ∧ (A.mul g B).val g = A.val g * B.val g := by
  refine mul_spec' (Matrix.IsSymm.ext fun i j => ?_) hA hB
  by_cases h : i = j
  · rw [h]
  · rw [hg j i (Ne.symm h), hg i j h]

example : (Ex.A.mul Ex.gO Ex.B).val Ex.gO = Ex.A.val Ex.gO * Ex.B.val Ex.gO :=
  (C02_geometric_product_ortho Ex.gO_diag (Ex.A_wf _) (Ex.B_wf _)).2

example : ((Ex.A.mul Ex.gO Ex.B).mul Ex.gO Ex.C).eq Ex.gO (Ex.A.mul Ex.gO (Ex.B.mul Ex.gO Ex.C)) = true := by
  decide +kernel

/-- C02 for `Ga.mul` on expressions in the basis blades, on the orthogonal code path. -/
theorem C02_ga_mul_ortho (hg : ∀ i j, i ≠ j → g i j = 0) {A B : Expr R n} (hA : Valid A)
    (hB : Valid B) : isOrtho g = true ∧ Valid (mul g A B) ∧ den g (mul g A B) = den g A * den g B := by
  have hs : g.IsSymm := Matrix.IsSymm.ext fun i j => by
    by_cases h : i = j
    · rw [h]
    · rw [hg j i (Ne.symm h), hg i j h]
  exact ⟨(isOrtho_iff g).mpr fun i j h => hg i j h.ne, mul_valid g hs hA hB, den_mul g hs hA hB⟩

example : den Ex.gO (mul Ex.gO Ex.A.obj Ex.B.obj) = den Ex.gO Ex.A.obj * den Ex.gO Ex.B.obj :=
  (C02_ga_mul_ortho Ex.gO_diag ((Ex.A_wf Ex.gO).valid (Or.inl Ex.A_blade))
    ((Ex.B_wf Ex.gO).valid (Or.inl Ex.B_blade))).2.2

/-- C03: any symmetric metric tensor; each operand may be in blade or in base representation. -/
theorem C03_geometric_product (hs : g.IsSymm) {A B : Mv R n} (hA : A.WF g) (hB : B.WF g) :
    (A.mul g B).WF g ∧ (A.mul g B).val g = A.val g * B.val g := mul_spec' hs hA hB

example : isOrtho Ex.gN = false ∧ (Ex.P.mul Ex.gN Ex.B).val Ex.gN = Ex.P.val Ex.gN * Ex.B.val Ex.gN :=
  ⟨by decide +kernel, (C03_geometric_product Ex.gN_symm Ex.P_wf (Ex.B_wf _)).2⟩

/-- C03 for `Ga.mul` on expressions in the basis blades. -/
theorem C03_ga_mul (hs : g.IsSymm) {A B : Expr R n} (hA : Valid A) (hB : Valid B) :
    Valid (mul g A B) ∧ den g (mul g A B) = den g A * den g B :=
  ⟨mul_valid g hs hA hB, den_mul g hs hA hB⟩

example : den Ex.gN (mul Ex.gN Ex.A.obj Ex.B.obj) = den Ex.gN Ex.A.obj * den Ex.gN Ex.B.obj :=
  (C03_ga_mul Ex.gN_symm ((Ex.A_wf Ex.gN).valid (Or.inl Ex.A_blade))
    ((Ex.B_wf Ex.gN).valid (Or.inl Ex.B_blade))).2

end GA
