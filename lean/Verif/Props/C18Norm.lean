import Verif.Props.C108
import Verif.Props.C18

/-!
C18 (continued), mv.py:1089-1117 `Mv.dual`: passing to duals keeps the scalar product `sp(A, B, 'rev')`, the quadratic form
and the norm, up to one sign that belongs to the algebra.
-/

namespace GA

variable {n : ℕ} {K : Type*} [Field K] [DecidableEq K] [Invertible (2 : K)] {g : Matrix (Fin n) (Fin n) K}

omit [DecidableEq K] in
theorem reverse_pseudo_mul (hs : g.IsSymm) :
    CliffordAlgebra.reverse (Spec.pseudo g) * Spec.pseudo g = algebraMap K _ g.det ∧
      Spec.pseudo g * CliffordAlgebra.reverse (Spec.pseudo g) = algebraMap K _ g.det := by
  have h := (Spec.homogeneous_reverse (Spec.homogeneous_pseudo (g := g))).2
  have e : ((-1 : K) ^ (n * (n - 1) / 2)) * ((-1) ^ (n * (n - 1) / 2) * g.det) = g.det := by
    rw [← mul_assoc, ← mul_pow, neg_one_mul, neg_neg, one_pow, one_mul]
  rw [h, smul_mul_assoc, mul_smul_comm, Spec.pseudo_sq hs, Algebra.smul_def, ← map_mul, e]
  exact ⟨rfl, rfl⟩

/-- C18: the pseudoscalar has quadratic form `1` or `-1`, and in each of the eight modes `dual` multiplies every scalar
product `sp(A, B, 'rev')`, and so every quadratic form, by that sign. -/
theorem C18_product (hs : g.IsSymm) {sqrt : K → K} {plus : Bool} {i iInv : Mv K n}
    (hI : normI g sqrt plus = some (i, iInv))
    (hsq : sqrt (if plus then eSq g else -eSq g) * sqrt (if plus then eSq g else -eSq g) =
      if plus then eSq g else -eSq g)
    {mode : String} (hm : mode ∈ dualModeLst) {A B : Mv K n} (hA : A.WF g) (hA' : A.isBladeRep = true) (hB : B.WF g)
    (hB' : B.isBladeRep = true) :
    (i.qform g = 1 ∨ i.qform g = -1) ∧
    (A.dual g i iInv mode).spRev g (B.dual g i iInv mode) = i.qform g * A.spRev g B ∧
    (A.dual g i iInv mode).qform g = i.qform g * A.qform g := by
  obtain ⟨c, h1, h2, h3⟩ := normI_spec hs hI hsq
  obtain ⟨k, hk, hd⟩ := dual_spec hs h1 h2 hm
  have hk2 : k * k = c * c := by
    have : (if plus then c else -c) = c ∨ (if plus then c else -c) = -c := by cases plus <;> simp
    rcases hk with rfl | rfl | rfl | rfl <;> rcases this with h | h <;> simp [h]
  obtain ⟨l, r⟩ := reverse_pseudo_mul hs
  have hi : i.qform g = c * c * g.det := by
    rw [qform_sp hs h1, Spec.sp_smul_left, Spec.sp_smul_right, ← mul_assoc]
    congr 1
    exact Spec.sc_unique (by rw [l, grade_zero_algebraMap])
  have key : ∀ {A B : Mv K n} {x y : Spec.Cl g}, Rep g A x → Rep g B y →
      (A.dual g i iInv mode).spRev g (B.dual g i iInv mode) = i.qform g * A.spRev g B := by
    intro A B x y rA rB
    rw [hi, ← hk2, spRev_spec hs rA rB]
    rcases hd with hd | hd
    · rw [spRev_spec hs (hd _ _ rA) (hd _ _ rB), Spec.sp_smul_left, Spec.sp_smul_right, Spec.sp_mul_left,
        ← mul_assoc (CliffordAlgebra.reverse _), l, ← Algebra.smul_def, Spec.sp_smul_right]
      ring
    · rw [spRev_spec hs (hd _ _ rA) (hd _ _ rB), Spec.sp_smul_left, Spec.sp_smul_right, Spec.sp_mul_right,
        mul_assoc y, r, ← Algebra.commutes, ← Algebra.smul_def, Spec.sp_smul_right]
      ring
  have rA := Rep.of_wf hA hA'
  refine ⟨?_, key rA (Rep.of_wf hB hB'), key rA rA⟩
  rw [hi]
  rw [eSq_eq hs] at h3
  rcases neg_one_pow_eq_or K (n * (n - 1) / 2) with e | e <;> rw [e] at h3 <;> cases plus <;>
    simp only [if_true, if_false, Bool.false_eq_true, one_mul, neg_mul, mul_neg, neg_inj] at h3
  · exact .inr h3
  · exact .inl h3
  · exact .inl h3
  · exact .inr (by rw [← h3, neg_neg])

end GA

namespace GA
variable {n : ℕ} {K : Type*} [Field K] [LinearOrder K] [IsStrictOrderedRing K] [Invertible (2 : K)]
  {g : Matrix (Fin n) (Fin n) K}

/-- C18: `dual` keeps `|qform(A)|`, and so the norm; it keeps `qform(A)` if the metric has positive determinant, and changes
its sign if the determinant is negative. -/
theorem C18_norm (hs : g.IsSymm) {sqrt : K → K} {plus : Bool} {i iInv : Mv K n}
    (hI : normI g sqrt plus = some (i, iInv))
    (hsq : sqrt (if plus then eSq g else -eSq g) * sqrt (if plus then eSq g else -eSq g) =
      if plus then eSq g else -eSq g)
    {mode : String} (hm : mode ∈ dualModeLst) {A : Mv K n} (hA : A.WF g) (hA' : A.isBladeRep = true) :
    |(A.dual g i iInv mode).qform g| = |A.qform g| ∧
    (0 < g.det → (A.dual g i iInv mode).qform g = A.qform g) ∧
    (g.det < 0 → (A.dual g i iInv mode).qform g = -A.qform g) := by
  obtain ⟨h1, -, h2⟩ := C18_product hs hI hsq hm hA hA' hA hA'
  obtain ⟨c, r1, -, h3⟩ := normI_spec hs hI hsq
  have hi : i.qform g = c * c * g.det := by
    rw [qform_sp hs r1, Spec.sp_smul_left, Spec.sp_smul_right, ← mul_assoc]
    congr 1
    exact Spec.sc_unique (by rw [(reverse_pseudo_mul hs).1, grade_zero_algebraMap])
  rw [h2]
  refine ⟨?_, fun hd => ?_, fun hd => ?_⟩
  · rcases h1 with h | h <;> rw [h] <;> simp
  · rcases h1 with h | h
    · rw [h, one_mul]
    · have := mul_nonneg (mul_self_nonneg c) hd.le
      rw [← hi, h] at this
      linarith
  · rcases h1 with h | h
    · have := mul_nonpos_of_nonneg_of_nonpos (mul_self_nonneg c) hd.le
      rw [← hi, h] at this
      linarith
    · rw [h, neg_one_mul]

example : (Ex.B.dual Ex.gN (Mv.ofExpr [(1/3, .blade [0, 1, 2])]) (Mv.ofExpr [(1/3, .blade [0, 1, 2])]) "Iinv-").spRev Ex.gN
      (Ex.B.dual Ex.gN (Mv.ofExpr [(1/3, .blade [0, 1, 2])]) (Mv.ofExpr [(1/3, .blade [0, 1, 2])]) "Iinv-") =
    (Mv.ofExpr [(1/3, .blade [0, 1, 2])] : Mv ℚ 3).qform Ex.gN * Ex.B.spRev Ex.gN Ex.B :=
  (C18_product Ex.gN_symm Ex.normI_gN Ex.sqrt9_ok (by decide) (Ex.B_wf _) Ex.B_blade (Ex.B_wf _) Ex.B_blade).2.1

/-- The metric of that example has negative determinant, and the quadratic form of its multivector is not zero. -/
example : Ex.gN.det < 0 ∧ Ex.B.qform Ex.gN ≠ 0 ∧
    (Ex.B.dual Ex.gN (Mv.ofExpr [(1/3, .blade [0, 1, 2])]) (Mv.ofExpr [(1/3, .blade [0, 1, 2])]) "Iinv-").qform Ex.gN =
      -Ex.B.qform Ex.gN := by
  have h : Ex.gN.det < 0 := by simp [Ex.gN, Matrix.det_fin_three]
  exact ⟨h, by decide +kernel, (C18_norm Ex.gN_symm Ex.normI_gN Ex.sqrt9_ok (by decide) (Ex.B_wf _) Ex.B_blade).2.2 h⟩

/-- In the Euclidean plane the quadratic form is kept. -/
example : ((Mv.ofExpr [(2, .blade [0]), (3, .blade [])] : Mv ℚ 2).dual !![1, 0; 0, 1] (Mv.ofExpr [(1, .blade [0, 1])])
    (Mv.ofExpr [(-1, .blade [0, 1])]) "I+").qform !![1, 0; 0, 1] = 13 := by decide +kernel

end GA
