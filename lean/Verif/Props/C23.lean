import Verif.Proofs.Flags
import Verif.Proofs.Invert
import Verif.Proofs.Examples

/-!
# C23, C26, C27: inverse, integer powers, commutators

`Mv.inv g A` models `A.inv()`; `none` stands for the `TypeError` and for a division by zero (SymPy's
`zoo`).  `Mv.zpow g A k` models `A**k` for an integer `k`.
-/

set_option linter.unusedSectionVars false
set_option maxRecDepth 10000

namespace GA

section field
variable {n : ℕ} {K : Type*} [Field K] [DecidableEq K] [Invertible (2 : K)]
  {g : Matrix (Fin n) (Fin n) K}

theorem inv_spec (hs : g.IsSymm) {A B : Mv K n} (hA : A.WF g) (h : A.inv g = some B) :
    B.WF g ∧ A.val g * B.val g = 1 ∧ B.val g * A.val g = 1 := by
  rw [Mv.inv] at h
  dsimp only at h
  split_ifs at h with h1 h2 h2 h3 h3 h4
  · -- scalar
    have e := Option.some.inj h; subst e
    obtain ⟨c, hc⟩ := (isScalar_iff hs hA).mp h1
    have hp := scalarPart_of_val hA hc
    rw [hp] at h2 ⊢
    refine ⟨(scalarMv_spec _).1, ?_, ?_⟩
    · rw [(scalarMv_spec (g := g) _).2.2, hc, ← map_mul, mul_inv_cancel₀ h2, map_one]
    · rw [(scalarMv_spec (g := g) _).2.2, hc, ← map_mul, inv_mul_cancel₀ h2, map_one]
  · -- scalar square
    have e := Option.some.inj h; subst e
    have hm := mul_spec' hs hA hA
    obtain ⟨c, hc⟩ := (isScalar_iff hs hm.1).mp h2
    have hp := scalarPart_of_val hm.1 hc
    rw [hp] at h3 ⊢
    have hsm := smul_spec c⁻¹ hA
    rw [hm.2] at hc
    refine ⟨hsm.1, ?_, ?_⟩
    · rw [hsm.2, mul_smul_comm, hc, Algebra.smul_def, ← map_mul, inv_mul_cancel₀ h3, map_one]
    · rw [hsm.2, smul_mul_assoc, hc, Algebra.smul_def, ← map_mul, inv_mul_cancel₀ h3, map_one]
  · -- versor
    have e := Option.some.inj h; subst e
    have hr := rev_spec hs hA
    have hm := mul_spec' hs hA hr.1
    obtain ⟨c, hc⟩ := (isScalar_iff hs hm.1).mp h3
    have hp := scalarPart_of_val hm.1 hc
    rw [hp] at h4 ⊢
    have hsm := smul_spec c⁻¹ hr.1
    rw [hm.2] at hc
    have hright : A.val g * (c⁻¹ • (A.rev g).val g) = 1 := by
      rw [mul_smul_comm, hc, Algebra.smul_def, ← map_mul, inv_mul_cancel₀ h4, map_one]
    refine ⟨hsm.1, by rw [hsm.2]; exact hright, ?_⟩
    rw [hsm.2]
    exact Spec.mul_eq_one_symm hright

/-- C23: whenever `A.inv()` returns `B`, `A*B = B*A = 1`. -/
theorem C23_inverse (hs : g.IsSymm) {A B : Mv K n} (hA : A.WF g) (h : A.inv g = some B) :
    (A.mul g B).eq g (Mv.scalarMv 1) = true ∧ (B.mul g A).eq g (Mv.scalarMv 1) = true := by
  obtain ⟨hB, h1, h2⟩ := inv_spec hs hA h
  have m1 := mul_spec' hs hA hB
  have m2 := mul_spec' hs hB hA
  have o := scalarMv_spec (g := g) 1
  refine ⟨?_, ?_⟩
  · rw [eq_spec hs m1.1 o.1, m1.2, o.2.2, h1, map_one]
  · rw [eq_spec hs m2.1 o.1, m2.2, o.2.2, h2, map_one]

/-- C23, completeness: `A.inv()` returns a value whenever `A * rev(A)` is a non-zero scalar, in
particular for every non-zero scalar and every product of vectors with non-zero squares. -/
theorem C23_inverse_exists (hs : g.IsSymm) {A : Mv K n} (hA : A.WF g) {c : K} (hc : c ≠ 0)
    (h : (A.mul g (A.rev g)).eq g (Mv.scalarMv c) = true) : ∃ B, A.inv g = some B := by
  have hr := rev_spec hs hA
  have hm := mul_spec' hs hA hr.1
  have hm2 := mul_spec' hs hA hA
  have o := scalarMv_spec (g := g) c
  rw [eq_spec hs hm.1 o.1, hm.2, o.2.2] at h
  have hinv : A.val g * (c⁻¹ • (A.rev g).val g) = 1 := by
    rw [mul_smul_comm, h, Algebra.smul_def, ← map_mul, inv_mul_cancel₀ hc, map_one]
  have hinv' := Spec.mul_eq_one_symm hinv
  have hnz : A.val g ≠ 0 := by
    intro h0
    rw [h0, zero_mul, ← map_zero (algebraMap K (Spec.Cl g)), ← map_one (algebraMap K (Spec.Cl g))]
      at hinv
    exact zero_ne_one (algebraMap_inj g hinv)
  rw [Mv.inv]
  dsimp only
  split_ifs with h1 h2 h2 h3 h3 h4
  · obtain ⟨d, hd⟩ := (isScalar_iff hs hA).mp h1
    rw [scalarPart_of_val hA hd] at h2
    rw [hd, h2, map_zero] at hnz
    exact absurd rfl hnz
  · exact ⟨_, rfl⟩
  · obtain ⟨d, hd⟩ := (isScalar_iff hs hm2.1).mp h2
    rw [scalarPart_of_val hm2.1 hd] at h3
    rw [hm2.2, h3, map_zero] at hd
    refine absurd ?_ hnz
    rw [← one_mul (A.val g), ← hinv', mul_assoc, hd, mul_zero]
  · exact ⟨_, rfl⟩
  · obtain ⟨d, hd⟩ := (isScalar_iff hs hm.1).mp h3
    rw [scalarPart_of_val hm.1 hd] at h4
    rw [hm.2, h, h4] at hd
    exact absurd (algebraMap_inj g hd) hc
  · exact ⟨_, rfl⟩
  · exact absurd ((isScalar_iff hs hm.1).mpr ⟨c, by rw [hm.2, h]⟩) h3

example : (Ex.A.inv Ex.gN).isSome = false := by decide +kernel
example : ((Mv.vector (n := 3) ![1, 2, (3 : ℚ)]).inv Ex.gN).isSome = true := by decide +kernel
example : (((Mv.vector (n := 3) ![1, 2, (3 : ℚ)]).mul Ex.gN (Mv.vector ![0, 1, 1])).inv Ex.gN).isSome
    = true := by decide +kernel
example : ((Mv.vector (n := 3) ![1, 2, (3 : ℚ)]).mul Ex.gN
    ((Mv.vector (n := 3) ![1, 2, (3 : ℚ)]).rev Ex.gN)).eq Ex.gN (Mv.scalarMv 35) = true := by
  decide +kernel

/-- C26: a negative power, when it is defined, is the two-sided inverse of the positive power. -/
theorem C26_negative_power (hs : g.IsSymm) {A B : Mv K n} (hA : A.WF g) {m : ℕ} (hm : 0 < m)
    (h : A.zpow g (-m) = some B) :
    ((A.pow g m).mul g B).eq g (Mv.scalarMv 1) = true ∧
    (B.mul g (A.pow g m)).eq g (Mv.scalarMv 1) = true := by
  rw [Mv.zpow, if_pos (by omega)] at h
  have e : (-(-(m : ℤ))).toNat = m := by omega
  rw [e] at h
  exact C23_inverse hs (pow_spec hs hA m).1 h

/-- C26: `A**k` for `k ≥ 0` never raises. -/
theorem C26_nonneg_power (A : Mv K n) (m : ℕ) : A.zpow g m = some (A.pow g m) := by
  rw [Mv.zpow, if_neg (by omega)]
  simp

example : ((Mv.vector (n := 3) ![1, 2, (3 : ℚ)]).zpow Ex.gN (-3)).isSome = true := by decide +kernel

end field

variable {n : ℕ} {R : Type*} [CommRing R] [DecidableEq R] [Invertible (2 : R)]
  {g : Matrix (Fin n) (Fin n) R}

/-- C26: `A**0 = 1`, `A**1 = A` and `A**(m+k) = A**m * A**k`. -/
theorem C26_powers (hs : g.IsSymm) {A : Mv R n} (hA : A.WF g) (m k : ℕ) :
    (A.pow g 0).eq g (Mv.scalarMv 1) = true ∧
    (A.pow g 1).eq g A = true ∧
    (A.pow g (m + k)).eq g ((A.pow g m).mul g (A.pow g k)) = true := by
  have p0 := pow_spec hs hA 0
  have p1 := pow_spec hs hA 1
  have pm := pow_spec hs hA m
  have pk := pow_spec hs hA k
  have pmk := pow_spec hs hA (m + k)
  have h := mul_spec' hs pm.1 pk.1
  have o := scalarMv_spec (g := g) 1
  refine ⟨?_, ?_, ?_⟩
  · rw [eq_spec hs p0.1 o.1, p0.2, o.2.2, pow_zero, map_one]
  · rw [eq_spec hs p1.1 hA, p1.2, pow_one]
  · rw [eq_spec hs pmk.1 h.1, pmk.2, h.2, pm.2, pk.2, pow_add]

example : (Ex.B.pow Ex.gN 3).eq Ex.gN ((Ex.B.pow Ex.gN 1).mul Ex.gN (Ex.B.pow Ex.gN 2)) = true :=
  (C26_powers Ex.gN_symm (Ex.B_wf _) 1 2).2.2

/-- C27: commutator and anticommutator. -/
theorem C27_commutator (hs : g.IsSymm) {A B : Mv R n} (hA : A.WF g) (hB : B.WF g) :
    (A.mul g B).eq g ((A.comm g B).add g (A.antiComm g B)) = true ∧
    (A.comm g B).eq g (B.comm g A).neg = true ∧
    (A.antiComm g B).eq g (B.antiComm g A) = true := by
  have m := mul_spec' hs hA hB
  have c1 := comm_spec hs hA hB
  have c2 := comm_spec hs hB hA
  have a1 := antiComm_spec hs hA hB
  have a2 := antiComm_spec hs hB hA
  have s := add_spec hs c1.1 a1.1
  have ng := neg_spec c2.1
  refine ⟨?_, ?_, ?_⟩
  · rw [eq_spec hs m.1 s.1, m.2, s.2, c1.2, a1.2, ← smul_add]
    have : A.val g * B.val g - B.val g * A.val g + (A.val g * B.val g + B.val g * A.val g) =
      (2 : R) • (A.val g * B.val g) := by rw [two_smul]; abel
    rw [this, smul_smul, invOf_mul_self, one_smul]
  · rw [eq_spec hs c1.1 ng.1, ng.2, c1.2, c2.2, ← smul_neg, neg_sub]
  · rw [eq_spec hs a1.1 a2.1, a1.2, a2.2, add_comm]

/-- C27: Jacobi identity. -/
theorem C27_jacobi (hs : g.IsSymm) {A B C : Mv R n} (hA : A.WF g) (hB : B.WF g) (hC : C.WF g) :
    (((A.comm g (B.comm g C)).add g (B.comm g (C.comm g A))).add g (C.comm g (A.comm g B))).eq g
      Mv.zero = true := by
  have b1 := comm_spec hs hB hC
  have b2 := comm_spec hs hC hA
  have b3 := comm_spec hs hA hB
  have c1 := comm_spec hs hA b1.1
  have c2 := comm_spec hs hB b2.1
  have c3 := comm_spec hs hC b3.1
  have s1 := add_spec hs c1.1 c2.1
  have s2 := add_spec hs s1.1 c3.1
  have z := zero_spec (g := g)
  rw [eq_spec hs s2.1 z.1, s2.2, s1.2, c1.2, c2.2, c3.2, b1.2, b2.2, b3.2, z.2]
  simp only [mul_smul_comm, smul_mul_assoc, ← smul_sub, ← smul_add]
  have : ∀ a b c : Spec.Cl g, a * (b * c - c * b) - (b * c - c * b) * a +
      (b * (c * a - a * c) - (c * a - a * c) * b) + (c * (a * b - b * a) - (a * b - b * a) * c) = 0 := by
    intro a b c; noncomm_ring
  rw [this, smul_zero, smul_zero]

/-- C27: the commutator is a derivation of the geometric product. -/
theorem C27_derivation (hs : g.IsSymm) {A B C : Mv R n} (hA : A.WF g) (hB : B.WF g) (hC : C.WF g) :
    (A.comm g (B.mul g C)).eq g (((A.comm g B).mul g C).add g (B.mul g (A.comm g C))) = true := by
  have m := mul_spec' hs hB hC
  have c1 := comm_spec hs hA m.1
  have c2 := comm_spec hs hA hB
  have c3 := comm_spec hs hA hC
  have m1 := mul_spec' hs c2.1 hC
  have m2 := mul_spec' hs hB c3.1
  have s := add_spec hs m1.1 m2.1
  rw [eq_spec hs c1.1 s.1, s.2, m1.2, m2.2, c1.2, c2.2, c3.2, m.2]
  simp only [mul_smul_comm, smul_mul_assoc, ← smul_add]
  congr 1
  noncomm_ring

example : (Ex.A.comm Ex.gN (Ex.P.mul Ex.gN Ex.C)).eq Ex.gN
    (((Ex.A.comm Ex.gN Ex.P).mul Ex.gN Ex.C).add Ex.gN (Ex.P.mul Ex.gN (Ex.A.comm Ex.gN Ex.C))) = true :=
  C27_derivation Ex.gN_symm (Ex.A_wf _) Ex.P_wf (Ex.C_wf _)

example : (Ex.A.comm Ex.gN Ex.B).eq Ex.gN Mv.zero = false := by decide +kernel

end GA
