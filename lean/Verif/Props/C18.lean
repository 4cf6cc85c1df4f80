import Verif.Proofs.Pseudo
import Verif.Proofs.Examples

/-!
# C18, C20: duals and the pseudoscalar

`normI g sqrt plus` models the normalised pseudoscalar `Ga.i` (`Ga.I()`) and `Ga.i_inv`;
`plus` tells which branch of `Ga.__init__` is taken, and `sqrt` is SymPy's square root, of which only
`sqrt(x) * sqrt(x) = x` for the number at hand is used.  `normI` is `none` exactly when the division
by `sqrt` is a division by zero.
-/

set_option linter.unusedSectionVars false
set_option maxRecDepth 10000

namespace GA
variable {n : ℕ} {K : Type*} [Field K] [DecidableEq K] [Invertible (2 : K)]
  {g : Matrix (Fin n) (Fin n) K}

theorem normI_spec (hs : g.IsSymm) {sqrt : K → K} {plus : Bool} {i iInv : Mv K n}
    (hI : normI g sqrt plus = some (i, iInv))
    (hsq : sqrt (if plus then eSq g else -eSq g) * sqrt (if plus then eSq g else -eSq g) =
      if plus then eSq g else -eSq g) :
    ∃ c : K, Rep g i (c • Spec.pseudo g) ∧
      Rep g iInv ((if plus then c else -c) • Spec.pseudo g) ∧
      c * c * eSq g = if plus then 1 else -1 := by
  cases plus with
  | true =>
    simp only [normI, Mv.divScalar, if_true] at hI hsq ⊢
    split_ifs at hI with h0
    · cases hI
    simp only [Option.map_some, Option.some.injEq, Prod.mk.injEq] at hI
    obtain ⟨rfl, rfl⟩ := hI
    have h1 := Rep.smul (sqrt (eSq g))⁻¹ (pseudoE_rep (g := g))
    refine ⟨_, h1, h1, ?_⟩
    rw [← mul_inv, hsq]
    exact inv_mul_cancel₀ (by rw [← hsq]; exact mul_ne_zero h0 h0)
  | false =>
    simp only [normI, Mv.divScalar, Bool.false_eq_true, if_false] at hI hsq ⊢
    split_ifs at hI with h0
    · cases hI
    simp only [Option.map_some, Option.some.injEq, Prod.mk.injEq] at hI
    obtain ⟨rfl, rfl⟩ := hI
    have h1 := Rep.smul (sqrt (-eSq g))⁻¹ (pseudoE_rep (g := g))
    refine ⟨_, h1, ?_, ?_⟩
    · have := h1.neg
      rwa [← neg_smul] at this
    rw [← mul_inv, hsq]
    have h : -eSq g ≠ 0 := by rw [← hsq]; exact mul_ne_zero h0 h0
    have := inv_mul_cancel₀ h
    linear_combination -this

theorem smul_pseudo_sq (hs : g.IsSymm) (a b : K) :
    (a • Spec.pseudo g) * (b • Spec.pseudo g) = algebraMap K _ (a * b * eSq g) := by
  rw [smul_mul_smul_comm, eSq_val hs, Algebra.smul_def, ← map_mul]

/-- C20: the square of the product `E` of all basis vectors is the scalar
`(-1)^(n(n-1)/2) det g`, for every symmetric metric; both ways the library computes `e_sq` agree. -/
theorem C20_pseudoscalar_square (hs : g.IsSymm) :
    ((pseudoE : Mv K n).mul g pseudoE).eq g (Mv.scalarMv ((-1) ^ (n * (n - 1) / 2) * g.det)) = true ∧
    eSq g = (-1) ^ (n * (n - 1) / 2) * g.det ∧ eSq g = eSqSym g := by
  refine ⟨?_, eSq_eq hs, eSq_eq hs⟩
  rw [(Rep.mul hs pseudoE_rep pseudoE_rep).eq_iff hs (Rep.scalarMv _), Spec.pseudo_sq hs]

/-- C20: the normalised pseudoscalar squares to `+1` or `-1` (according to the branch), and
`I_inv * I = I * I_inv = 1`. -/
theorem C20_normalised (hs : g.IsSymm) {sqrt : K → K} {plus : Bool} {i iInv : Mv K n}
    (hI : normI g sqrt plus = some (i, iInv))
    (hsq : sqrt (if plus then eSq g else -eSq g) * sqrt (if plus then eSq g else -eSq g) =
      if plus then eSq g else -eSq g) :
    (i.mul g i).eq g (Mv.scalarMv (if plus then 1 else -1)) = true ∧
    (iInv.mul g i).eq g (Mv.scalarMv 1) = true ∧ (i.mul g iInv).eq g (Mv.scalarMv 1) = true := by
  obtain ⟨c, h1, h2, h3⟩ := normI_spec hs hI hsq
  rw [(Rep.mul hs h1 h1).eq_iff hs (Rep.scalarMv _), (Rep.mul hs h2 h1).eq_iff hs (Rep.scalarMv _),
    (Rep.mul hs h1 h2).eq_iff hs (Rep.scalarMv _), smul_pseudo_sq hs, smul_pseudo_sq hs,
    smul_pseudo_sq hs, h3]
  refine ⟨rfl, ?_, ?_⟩
  all_goals
    congr 1
    cases plus
    · simp only [Bool.false_eq_true, if_false] at *; linear_combination -h3
    · simpa using h3

/-- C20: the pseudoscalar can be normalised (no division by zero) when the metric is
non-degenerate. -/
theorem C20_normalisable (hs : g.IsSymm) (hd : g.det ≠ 0) {sqrt : K → K} {plus : Bool}
    (hsq : sqrt (if plus then eSq g else -eSq g) * sqrt (if plus then eSq g else -eSq g) =
      if plus then eSq g else -eSq g) : (normI g sqrt plus).isSome = true := by
  have he : eSq g ≠ 0 := by
    rw [eSq_eq hs]
    exact mul_ne_zero (pow_ne_zero _ (by norm_num)) hd
  rw [normI, Mv.divScalar, if_neg]
  · rfl
  · intro h0
    cases plus
    · simp only [Bool.false_eq_true, if_false] at *
      rw [h0] at hsq; simp at hsq; exact he hsq
    · simp only [if_true] at *
      rw [h0] at hsq; simp at hsq; exact he hsq.symm

theorem dual_spec (hs : g.IsSymm) {i iInv : Mv K n} {c d : K} (h1 : Rep g i (c • Spec.pseudo g))
    (h2 : Rep g iInv (d • Spec.pseudo g)) {mode : String} (hm : mode ∈ dualModeLst) :
    ∃ k : K, (k = c ∨ k = -c ∨ k = d ∨ k = -d) ∧
      ((∀ A x, Rep g A x → Rep g (A.dual g i iInv mode) (k • (Spec.pseudo g * x))) ∨
       (∀ A x, Rep g A x → Rep g (A.dual g i iInv mode) (k • (x * Spec.pseudo g)))) := by
  have hL : ∀ {I : Mv K n} {c : K} (s : K), Rep g I (c • Spec.pseudo g) → ∀ A x, Rep g A x →
      Rep g ((I.smul s).mul g A) ((s * c) • (Spec.pseudo g * x)) := fun s hI A x hA =>
    (Rep.mul hs (hI.smul s) hA).congr (by rw [smul_smul, smul_mul_assoc])
  have hR : ∀ {I : Mv K n} {c : K} (s : K), Rep g I (c • Spec.pseudo g) → ∀ A x, Rep g A x →
      Rep g ((A.smul s).mul g I) ((s * c) • (x * Spec.pseudo g)) := fun s hI A x hA =>
    (Rep.mul hs (hA.smul s) hI).congr (by rw [smul_mul_smul_comm])
  simp only [dualModeLst, List.mem_cons, List.not_mem_nil, or_false] at hm
  rcases hm with rfl | rfl | rfl | rfl | rfl | rfl | rfl | rfl
  · exact ⟨1 * c, by simp, Or.inl fun A x hA => hL 1 h1 A x hA⟩
  · exact ⟨1 * c, by simp, Or.inr fun A x hA => hR 1 h1 A x hA⟩
  · exact ⟨-1 * c, by simp, Or.inl fun A x hA => hL (-1) h1 A x hA⟩
  · exact ⟨-1 * c, by simp, Or.inr fun A x hA => hR (-1) h1 A x hA⟩
  · exact ⟨1 * d, by simp, Or.inl fun A x hA => hL 1 h2 A x hA⟩
  · exact ⟨1 * d, by simp, Or.inr fun A x hA => hR 1 h2 A x hA⟩
  · exact ⟨-1 * d, by simp, Or.inl fun A x hA => hL (-1) h2 A x hA⟩
  · exact ⟨-1 * d, by simp, Or.inr fun A x hA => hR (-1) h2 A x hA⟩

/-- C18: in each of the eight modes `dual` and `undual` are inverse to each other, and `dual` maps a
multivector of grade `r` to one of grade `n - r`. -/
theorem C18_dual (hs : g.IsSymm) {sqrt : K → K} {plus : Bool} {i iInv : Mv K n}
    (hI : normI g sqrt plus = some (i, iInv))
    (hsq : sqrt (if plus then eSq g else -eSq g) * sqrt (if plus then eSq g else -eSq g) =
      if plus then eSq g else -eSq g)
    {mode : String} (hm : mode ∈ dualModeLst) {A : Mv K n} (hA : A.WF g)
    (hb : A.isBladeRep = true) :
    ((A.dual g i iInv mode).undual g i iInv mode).eq g A = true ∧
    ((A.undual g i iInv mode).dual g i iInv mode).eq g A = true ∧
    (∀ r, Spec.Homogeneous g r (A.val g) →
      Spec.Homogeneous g (n - r) ((A.dual g i iInv mode).val g)) := by
  obtain ⟨c, h1, h2, h3⟩ := normI_spec hs hI hsq
  obtain ⟨k, hk, hd⟩ := dual_spec hs h1 h2 hm
  set d : K := if plus then c else -c with hdd
  have hk2 : k * k = c * c := by
    have : d = c ∨ d = -c := by
      rw [hdd]; cases plus <;> simp
    rcases hk with rfl | rfl | rfl | rfl <;> rcases this with h | h <;> simp [h]
  have rA := Rep.of_wf hA hb
  have hi2 := Rep.pow hs h1 2
  have hone : k * k * eSq g * (k * k * eSq g) = 1 := by
    rw [hk2, h3]; cases plus <;> simp
  have hii : (c • Spec.pseudo g) ^ 2 = algebraMap K _ (k * k * eSq g) := by
    rw [pow_two, smul_pseudo_sq hs, hk2]
  have cancel : ∀ y : Spec.Cl g, (k * k * eSq g) • (k * k * eSq g) • y = y := fun y => by
    rw [smul_smul, hone, one_smul]
  rcases hd with hd | hd
  · have dA := hd _ _ rA
    have ddA := hd _ _ dA
    have uA := Rep.mul hs hi2 dA
    have uddA := Rep.mul hs hi2 ddA
    have duA := hd _ _ uA
    have e1 : ∀ y : Spec.Cl g, k • (Spec.pseudo g * (k • (Spec.pseudo g * y))) =
        (k * k * eSq g) • y := fun y => by
      rw [mul_smul_comm, ← mul_assoc, eSq_val hs, smul_smul, ← Algebra.smul_def, smul_smul]
    refine ⟨?_, ?_, fun r hr => ?_⟩
    · rw [Mv.undual, uddA.eq_iff hs rA, hii, e1, ← Algebra.smul_def, cancel]
    · rw [Mv.undual, duA.eq_iff hs rA, hii, ← Algebra.smul_def, mul_smul_comm, smul_comm k, e1,
        cancel]
    · rw [dA.val]; exact (Spec.grade_pseudo_mul hr).smul k
  · have dA := hd _ _ rA
    have ddA := hd _ _ dA
    have uA := Rep.mul hs hi2 dA
    have uddA := Rep.mul hs hi2 ddA
    have duA := hd _ _ uA
    have e1 : ∀ y : Spec.Cl g, k • ((k • (y * Spec.pseudo g)) * Spec.pseudo g) =
        (k * k * eSq g) • y := fun y => by
      rw [smul_mul_assoc, mul_assoc, eSq_val hs, smul_smul, ← Algebra.commutes, ← Algebra.smul_def,
        smul_smul]
    refine ⟨?_, ?_, fun r hr => ?_⟩
    · rw [Mv.undual, uddA.eq_iff hs rA, hii, e1, ← Algebra.smul_def, cancel]
    · rw [Mv.undual, duA.eq_iff hs rA, hii, ← Algebra.smul_def, smul_mul_assoc, smul_comm k, e1,
        cancel]
    · rw [dA.val]; exact (Spec.grade_mul_pseudo hr).smul k

/-! ### The hypotheses hold in concrete algebras -/

/-- A square root good for the numbers of the examples. -/
def Ex.sqrt9 : ℚ → ℚ := fun x => if x = 9 then 3 else 0

theorem Ex.eSq_gN : eSq Ex.gN = 9 := by decide +kernel

theorem Ex.normI_gN : normI Ex.gN Ex.sqrt9 true =
    some (Mv.ofExpr [(1/3, .blade [0, 1, 2])], Mv.ofExpr [(1/3, .blade [0, 1, 2])]) := by
  decide +kernel

theorem Ex.sqrt9_ok : Ex.sqrt9 (if true then eSq Ex.gN else -eSq Ex.gN) *
    Ex.sqrt9 (if true then eSq Ex.gN else -eSq Ex.gN) = if true then eSq Ex.gN else -eSq Ex.gN := by
  simp only [if_true, Ex.eSq_gN]; decide +kernel

example : ((Ex.B.dual Ex.gN (Mv.ofExpr [(1/3, .blade [0, 1, 2])])
      (Mv.ofExpr [(1/3, .blade [0, 1, 2])]) "-Iinv").undual Ex.gN
      (Mv.ofExpr [(1/3, .blade [0, 1, 2])]) (Mv.ofExpr [(1/3, .blade [0, 1, 2])]) "-Iinv").eq
      Ex.gN Ex.B = true :=
  (C18_dual Ex.gN_symm Ex.normI_gN Ex.sqrt9_ok (by decide) (Ex.B_wf _) Ex.B_blade).1

example : (Ex.B.dual Ex.gN (Mv.ofExpr [(1/3, .blade [0, 1, 2])]) (Mv.ofExpr [(1/3, .blade [0, 1, 2])])
    "I+").eq Ex.gN Ex.B = false := by decide +kernel

example : (normI Ex.gN Ex.sqrt9 true).isSome = true :=
  C20_normalisable Ex.gN_symm (by simp [Ex.gN, Matrix.det_fin_three]) Ex.sqrt9_ok

/-- The other branch: `E² = -1` in the Euclidean plane. -/
example : eSq (!![1, 0; 0, 1] : Matrix (Fin 2) (Fin 2) ℚ) = -1 ∧
    normI (!![1, 0; 0, 1] : Matrix (Fin 2) (Fin 2) ℚ) (fun _ => 1) false =
      some (Mv.ofExpr [(1, .blade [0, 1])], Mv.ofExpr [(-1, .blade [0, 1])]) := by decide +kernel

/-- C20 (limitation): for a degenerate metric `Ga.__init__` divides by zero. -/
theorem C20_degenerate (hs : g.IsSymm) (hd : g.det = 0) (sqrt : K → K) (h0 : sqrt 0 = 0)
    (plus : Bool) : normI g sqrt plus = none := by
  have he : eSq g = 0 := by rw [eSq_eq hs, hd, mul_zero]
  rw [normI, he, neg_zero, h0, Mv.divScalar]
  simp

end GA
