import Verif.Props.C18
import Verif.Proofs.Versor
import Verif.Proofs.Div

/-!
# C20: which multivectors commute with the pseudoscalar, and which commute with everything

`pseudoE` is `Ga.E()`, `gInvol` is `Mv.g_invol()` and `Mv.vector v` is a vector with the coefficients `v`.
-/

set_option linter.unusedSectionVars false
set_option maxRecDepth 10000

namespace Spec
open GA CliffordAlgebra
variable {n : ℕ} {K : Type*} [Field K] [Invertible (2 : K)] {g : Matrix (Fin n) (Fin n) K}

theorem pseudo_vec (v : Fin n → K) : pseudo g * vec g v = (-(-1 : K) ^ n) • (vec g v * pseudo g) := by
  have h := two_smul_wedge_vec (g := g) v (pseudo g)
  rw [wedge_pseudo, smul_zero, homogeneous_involute homogeneous_pseudo, smul_mul_assoc] at h
  have h2 : (-1 : K) ^ n * (-1) ^ n = 1 := by rw [← mul_pow, neg_one_mul, neg_neg, one_pow]
  rw [eq_neg_of_add_eq_zero_left h.symm, smul_neg, neg_smul, neg_neg, smul_smul, h2, one_smul]

/-- The pseudoscalar commutes with everything if the dimension is odd, and up to the grade involution if it is
even. -/
theorem pseudo_comm (x : Cl g) :
    pseudo g * x = (if n % 2 = 1 then x else involute x) * pseudo g := by
  split_ifs with hn
  · have e : (-(-1 : K) ^ n) = 1 := by rw [(Nat.odd_iff.mpr hn).neg_one_pow, neg_neg]
    induction x using CliffordAlgebra.induction with
    | algebraMap r => exact (Algebra.commutes _ _).symm
    | ι v => exact (pseudo_vec v).trans (by rw [e, one_smul]; rfl)
    | mul a b ha hb => rw [← mul_assoc, ha, mul_assoc, hb, mul_assoc]
    | add a b ha hb => rw [mul_add, ha, hb, add_mul]
  · have e : (-(-1 : K) ^ n) = -1 := by rw [(Nat.even_iff.mpr (by omega)).neg_one_pow]
    induction x using CliffordAlgebra.induction with
    | algebraMap r => rw [AlgHom.commutes]; exact (Algebra.commutes _ _).symm
    | ι v => rw [involute_ι]; exact (pseudo_vec v).trans (by rw [e, neg_one_smul, neg_mul]; rfl)
    | mul a b ha hb => rw [← mul_assoc, ha, mul_assoc, hb, map_mul, mul_assoc]
    | add a b ha hb => rw [mul_add, ha, hb, map_add, add_mul]

/-- The elements that commute with all vectors. -/
theorem center_iff (hs : g.IsSymm) (hd : g.det ≠ 0) (x : Cl g) :
    (∀ v, x * vec g v = vec g v * x) ↔
      ∃ c d : K, (n % 2 = 0 → d = 0) ∧ x = algebraMap K _ c + d • pseudo g := by
  constructor
  · intro h
    have hi : ∀ v, involute x * vec g v = vec g v * involute x := fun v => by
      have := congrArg (involute (Q := Q g)) (h v)
      rw [map_mul, map_mul, vec, involute_ι, mul_neg, neg_mul, neg_inj] at this
      exact this
    obtain ⟨c, hc⟩ := scalar_of_fix hs hd (W := x + involute x) fun v => by
      rw [map_add, involute_involute, add_mul, h, hi, mul_add, add_comm]
    have hsq := pseudo_sq (g := g) hs
    obtain ⟨d, hdd⟩ := scalar_of_fix hs hd (W := (x - involute x) * pseudo g) fun v => by
      have h2 : (-1 : K) ^ n * (-1) ^ n = 1 := by rw [← mul_pow, neg_one_mul, neg_neg, one_pow]
      rw [map_mul, map_sub, involute_involute, homogeneous_involute homogeneous_pseudo, mul_smul_comm,
        smul_mul_assoc, mul_assoc, pseudo_vec, mul_smul_comm, smul_smul, mul_neg, h2, neg_one_smul, ← mul_assoc,
        sub_mul, h, hi, ← mul_sub, mul_assoc, ← mul_neg, ← neg_mul, neg_sub]
    set q : K := (-1) ^ (n * (n - 1) / 2) * g.det with hq
    have hq0 : q ≠ 0 := mul_ne_zero (pow_ne_zero _ (by simp)) hd
    have h3 : x - involute x = (d / q) • pseudo g := by
      have := congrArg (· * pseudo g) hdd
      simp only [mul_assoc] at this
      rw [hsq, ← Algebra.commutes, ← Algebra.smul_def, ← Algebra.smul_def] at this
      rw [div_eq_inv_mul, mul_smul, ← this, smul_smul, inv_mul_cancel₀ hq0, one_smul]
    have h4 : x = algebraMap K _ (⅟2 * c) + (⅟2 * (d / q)) • pseudo g := by
      rw [mul_smul, ← h3, map_mul, ← hc, ← Algebra.smul_def, ← smul_add, add_add_sub_cancel, ← two_smul K x, smul_smul,
        invOf_mul_self, one_smul]
    refine ⟨⅟2 * c, if n % 2 = 0 then 0 else ⅟2 * (d / q), fun hn => by rw [if_pos hn], ?_⟩
    split_ifs with hn
    · have h5 : involute (x - involute x) = x - involute x := by
        rw [h3, map_smul, homogeneous_involute homogeneous_pseudo, (Nat.even_iff.mpr hn).neg_one_pow, one_smul]
      rw [map_sub, involute_involute] at h5
      have h6 : (2 : K) • (x - involute x) = 0 := by
        rw [two_smul]; nth_rw 1 [← h5]; abel
      have h7 : x - involute x = 0 := by
        rw [← one_smul K (x - involute x), ← invOf_mul_self (2 : K), mul_smul, h6, smul_zero]
      rw [mul_smul, ← h3, h7, smul_zero] at h4
      rw [zero_smul]
      exact h4
    · exact h4
  · rintro ⟨c, d, hn, rfl⟩ v
    rw [add_mul, mul_add, Algebra.commutes, smul_mul_assoc, mul_smul_comm]
    congr 1
    by_cases h : n % 2 = 0
    · rw [hn h, zero_smul, zero_smul]
    · rw [pseudo_comm, if_pos (by omega)]

end Spec

namespace GA
variable {n : ℕ} {K : Type*} [Field K] [DecidableEq K] [Invertible (2 : K)] {g : Matrix (Fin n) (Fin n) K}

/-- C20: `E()*A == A*E()` if the dimension is odd and `E()*A == A.g_invol()*E()` if it is even. -/
theorem C20_commute (hs : g.IsSymm) {A : Mv K n} (hA : A.WF g) (hA' : A.isBladeRep = true) :
    (n % 2 = 1 → ((pseudoE : Mv K n).mul g A).eq g (A.mul g pseudoE) = true) ∧
    (n % 2 = 0 → ((pseudoE : Mv K n).mul g A).eq g ((A.gInvol g).mul g pseudoE) = true) := by
  have rA := Rep.of_wf hA hA'
  have rI := pseudoE_rep (g := g)
  constructor <;> intro hn
  · rw [(Rep.mul hs rI rA).eq_iff hs (Rep.mul hs rA rI), Spec.pseudo_comm, if_pos hn]
  · rw [(Rep.mul hs rI rA).eq_iff hs (Rep.mul hs (Rep.gInvol hs rA) rI), Spec.pseudo_comm, if_neg (by omega)]

/-- C20: if the metric tensor is not degenerate, the multivectors that commute with all vectors are `c + d*E()` in
odd dimensions, and the scalars in even dimensions. -/
theorem C20_center (hs : g.IsSymm) (hd : g.det ≠ 0) {A : Mv K n} (hA : A.WF g) (hA' : A.isBladeRep = true) :
    (∀ v : Fin n → K, (A.mul g (Mv.vector v)).eq g ((Mv.vector v).mul g A) = true) ↔
      ∃ c d : K, (n % 2 = 0 → d = 0) ∧
        A.eq g ((Mv.scalarMv c).add g ((pseudoE : Mv K n).smul d)) = true := by
  have rA := Rep.of_wf hA hA'
  have rI := pseudoE_rep (g := g)
  rw [forall_congr' fun v => (Rep.mul hs rA (Rep.vector v)).eq_iff hs (Rep.mul hs (Rep.vector v) rA),
    Spec.center_iff hs hd]
  refine exists_congr fun c => exists_congr fun d => and_congr_right fun _ => ?_
  rw [rA.eq_iff hs (Rep.add hs (Rep.scalarMv c) (rI.smul d))]

/-- C20: the normalised pseudoscalar is `E()` divided by the root of `E()*E()` or of its negative. -/
theorem C20_orientation (hs : g.IsSymm) {sqrt : K → K} {plus : Bool} {i iInv : Mv K n}
    (hI : normI g sqrt plus = some (i, iInv)) :
    (i.smul (sqrt (if plus then eSq g else -eSq g))).eq g pseudoE = true ∧
      iInv.eq g (if plus then i else i.neg) = true := by
  have rI := pseudoE_rep (g := g)
  have e : (if plus then sqrt (eSq g) else sqrt (-eSq g)) = sqrt (if plus then eSq g else -eSq g) := by
    cases plus <;> rfl
  simp only [normI, e] at hI
  generalize sqrt (if plus then eSq g else -eSq g) = q at hI ⊢
  rw [Mv.divScalar] at hI
  split_ifs at hI with hp h0 h0
  · cases hI
  · simp only [Option.map_some, Option.some.injEq, Prod.mk.injEq] at hI
    obtain ⟨rfl, rfl⟩ := hI
    have rj := rI.smul q⁻¹
    rw [if_pos hp]
    refine ⟨((rj.smul q).eq_iff hs rI).mpr ?_, (rj.eq_iff hs rj).mpr rfl⟩
    rw [smul_smul, mul_inv_cancel₀ h0, one_smul]
  · cases hI
  · simp only [Option.map_some, Option.some.injEq, Prod.mk.injEq] at hI
    obtain ⟨rfl, rfl⟩ := hI
    have rj := rI.smul q⁻¹
    rw [if_neg hp]
    refine ⟨((rj.smul q).eq_iff hs rI).mpr ?_, (rj.neg.eq_iff hs rj.neg).mpr rfl⟩
    rw [smul_smul, mul_inv_cancel₀ h0, one_smul]

/-- The hypotheses hold for a metric that is not orthogonal, in three dimensions. -/
example : (Ex.gN : Matrix (Fin 3) (Fin 3) ℚ).IsSymm ∧ Ex.gN.det ≠ 0 ∧
    ((Mv.scalarMv 2 : Mv ℚ 3).add Ex.gN ((pseudoE : Mv ℚ 3).smul 5)).WF Ex.gN := by
  refine ⟨Ex.gN_symm, ?_, (Rep.add Ex.gN_symm (Rep.scalarMv 2) ((pseudoE_rep (g := Ex.gN)).smul 5)).wf⟩
  rw [Matrix.det_fin_three]
  decide +kernel

example : ((Mv.ofExpr [(1/3, .blade [0, 1, 2])] : Mv ℚ 3).smul (Ex.sqrt9 (eSq Ex.gN))).eq Ex.gN pseudoE = true :=
  (C20_orientation Ex.gN_symm Ex.normI_gN).1

end GA
