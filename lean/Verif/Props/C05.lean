import Verif.Proofs.Examples

/-!
# C05: multivectors form an associative unital algebra

`A.eq g B` models `A == B` (see C06 for its meaning).
-/

set_option linter.unusedSectionVars false
set_option maxRecDepth 10000

namespace GA
variable {n : ℕ} {R : Type*} [CommRing R] [DecidableEq R] [Invertible (2 : R)]
  {g : Matrix (Fin n) (Fin n) R}

/-- C05: associativity of `*`. -/
theorem C05_assoc (hs : g.IsSymm) {A B C : Mv R n} (hA : A.WF g) (hB : B.WF g) (hC : C.WF g) :
    ((A.mul g B).mul g C).eq g (A.mul g (B.mul g C)) = true := by
  have h1 := mul_spec' hs hA hB
  have h2 := mul_spec' hs hB hC
  have h3 := mul_spec' hs h1.1 hC
  have h4 := mul_spec' hs hA h2.1
  rw [eq_spec hs h3.1 h4.1, h3.2, h4.2, h1.2, h2.2, mul_assoc]

/-- C05: distributivity on both sides. -/
theorem C05_distrib (hs : g.IsSymm) {A B C : Mv R n} (hA : A.WF g) (hB : B.WF g) (hC : C.WF g) :
    (A.mul g (B.add g C)).eq g ((A.mul g B).add g (A.mul g C)) = true ∧
    ((A.add g B).mul g C).eq g ((A.mul g C).add g (B.mul g C)) = true := by
  have hAB := mul_spec' hs hA hB
  have hAC := mul_spec' hs hA hC
  have hBC := mul_spec' hs hB hC
  have h1 := add_spec hs hB hC
  have h2 := add_spec hs hA hB
  have h3 := mul_spec' hs hA h1.1
  have h4 := mul_spec' hs h2.1 hC
  have h5 := add_spec hs hAB.1 hAC.1
  have h6 := add_spec hs hAC.1 hBC.1
  constructor
  · rw [eq_spec hs h3.1 h5.1, h3.2, h5.2, h1.2, hAB.2, hAC.2, mul_add]
  · rw [eq_spec hs h4.1 h6.1, h4.2, h6.2, h2.2, hAC.2, hBC.2, add_mul]

/-- C05: the scalar multivector 1 is a two-sided unit. -/
theorem C05_one (hs : g.IsSymm) {A : Mv R n} (hA : A.WF g) :
    ((Mv.scalarMv 1).mul g A).eq g A = true ∧ (A.mul g (Mv.scalarMv 1)).eq g A = true := by
  have h1 := scalarMv_spec (g := g) (n := n) (1 : R)
  have h2 := mul_spec' hs h1.1 hA
  have h3 := mul_spec' hs hA h1.1
  constructor
  · rw [eq_spec hs h2.1 hA, h2.2, h1.2.2, map_one, one_mul]
  · rw [eq_spec hs h3.1 hA, h3.2, h1.2.2, map_one, mul_one]

/-- C05: scalars can be moved through products; multiplying by a scalar is the same as multiplying
by the scalar multivector. -/
theorem C05_smul (hs : g.IsSymm) (c : R) {A B : Mv R n} (hA : A.WF g) (hB : B.WF g) :
    ((A.smul c).mul g B).eq g ((A.mul g B).smul c) = true ∧
    (A.mul g (B.smul c)).eq g ((A.mul g B).smul c) = true ∧
    ((Mv.scalarMv c).mul g A).eq g (A.smul c) = true := by
  have h1 := smul_spec c hA
  have h2 := smul_spec c hB
  have h3 := mul_spec' hs hA hB
  have h4 := smul_spec c h3.1
  have h5 := mul_spec' hs h1.1 hB
  have h6 := mul_spec' hs hA h2.1
  have h7 := scalarMv_spec (g := g) (n := n) c
  have h8 := mul_spec' hs h7.1 hA
  refine ⟨?_, ?_, ?_⟩
  · rw [eq_spec hs h5.1 h4.1, h5.2, h4.2, h1.2, h3.2, smul_mul_assoc]
  · rw [eq_spec hs h6.1 h4.1, h6.2, h4.2, h2.2, h3.2, mul_smul_comm]
  · rw [eq_spec hs h8.1 h1.1, h8.2, h1.2, h7.2.2, Algebra.smul_def]

/-- C05: `+` is commutative and associative with unit zero; `A - A` is the zero multivector and
`A - B = A + (-B)`. -/
theorem C05_add_group (hs : g.IsSymm) {A B C : Mv R n} (hA : A.WF g) (hB : B.WF g) (hC : C.WF g) :
    (A.add g B).eq g (B.add g A) = true ∧
    ((A.add g B).add g C).eq g (A.add g (B.add g C)) = true ∧
    (A.add g Mv.zero).eq g A = true ∧ (A.sub g A).isZero = true ∧
    (A.sub g B).eq g (A.add g B.neg) = true := by
  have h1 := add_spec hs hA hB
  have h2 := add_spec hs hB hA
  have h3 := add_spec hs h1.1 hC
  have h4 := add_spec hs hB hC
  have h5 := add_spec hs hA h4.1
  have h6 := add_spec hs hA (zero_spec (g := g)).1
  have h7 := sub_spec hs hA hA
  have h8 := sub_spec hs hA hB
  have h9 := neg_spec hB
  have h10 := add_spec hs hA h9.1
  refine ⟨?_, ?_, ?_, ?_, ?_⟩
  · rw [eq_spec hs h1.1 h2.1, h1.2, h2.2, add_comm]
  · rw [eq_spec hs h3.1 h5.1, h3.2, h5.2, h1.2, h4.2, add_assoc]
  · rw [eq_spec hs h6.1 hA, h6.2, zero_spec.2, add_zero]
  · rw [Mv.isZero, decide_eq_true_eq, ← val_eq_zero h7.1, h7.2, sub_self]
  · rw [eq_spec hs h8.1 h10.1, h8.2, h10.2, h9.2, sub_eq_add_neg]

example : ((Ex.P.mul Ex.gN Ex.B).mul Ex.gN Ex.C).eq Ex.gN (Ex.P.mul Ex.gN (Ex.B.mul Ex.gN Ex.C)) = true :=
  C05_assoc Ex.gN_symm Ex.P_wf (Ex.B_wf _) (Ex.C_wf _)

example : ((Ex.A.add Ex.gN Ex.P).mul Ex.gN Ex.C).eq Ex.gN
    ((Ex.A.mul Ex.gN Ex.C).add Ex.gN (Ex.P.mul Ex.gN Ex.C)) = true :=
  (C05_distrib Ex.gN_symm (Ex.A_wf _) Ex.P_wf (Ex.C_wf _)).2

example : (Ex.A.mul Ex.gO Ex.B).eq Ex.gO (Ex.B.mul Ex.gO Ex.A) = false := by decide +kernel

end GA
