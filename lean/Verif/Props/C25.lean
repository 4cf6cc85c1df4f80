import Verif.Model.Inverse
import Verif.Proofs.Shirokov
import Verif.Proofs.Invert
import Verif.Proofs.Examples
import Verif.Spec.Witness

/-!
# C25: the iterative inverse
-/

set_option linter.unusedSectionVars false
set_option maxRecDepth 10000

universe u

namespace GA
variable {n : ℕ} {K : Type u} [Field K] [DecidableEq K] [Invertible (2 : K)]
  {g : Matrix (Fin n) (Fin n) K}

theorem shirokov_loop (hs : g.IsSymm) {A : Mv K n} {x : Spec.Cl g} (h : Rep g A x) (N m : ℕ) :
    let s := (List.range' 1 m).foldl (A.shirokovStep g N) (A, none)
    Rep g s.1 (Spec.shU x N m) ∧
      (m = 0 → s.2 = none) ∧
      ∀ k, m = k + 1 → ∃ a, s.2 = some a ∧ Rep g a (Spec.shAdj x N k) := by
  induction m with
  | zero => exact ⟨h, fun _ => rfl, fun k hk => by omega⟩
  | succ m ih =>
    dsimp only at ih ⊢
    rw [List.range'_concat, List.foldl_append, List.foldl_cons, List.foldl_nil]
    set s := (List.range' 1 m).foldl (A.shirokovStep g N) (A, none) with hsdef
    have hadj : Rep g (Mv.scalarSub (((N : K) / ((1 + 1 * m : ℕ) : K)) * s.1.scalar) s.1)
        (Spec.shAdj x N m) := by
      refine (ih.1.scalarSub _).congr ?_
      rw [Spec.shAdj, ih.1.scalar_sc, one_mul, add_comm 1 m]
    refine ⟨?_, fun h => by omega, fun k hk => ⟨_, rfl, ?_⟩⟩
    · rw [Spec.shU_succ]
      exact h.neg.mul hs hadj
    · obtain rfl : m = k := by omega
      exact hadj

/-- C25: in every dimension `n ≥ 1` and for every symmetric metric (in exact arithmetic, over a field
of characteristic 0), whatever `shirokov_inverse` returns is a two-sided inverse; it returns exactly
when the multivector has an inverse, and otherwise raises `ValueError`.  The multivector is in blade
representation, as the constructors and the operators return it. -/
theorem C25_shirokov_partial [CharZero K] (hs : g.IsSymm) (hn : 0 < n) {A : Mv K n} (hA : A.WF g)
    (hb : A.isBladeRep = true) :
    (∀ B, A.shirokovInverse g = .ok B →
      B.WF g ∧ A.val g * B.val g = 1 ∧ B.val g * A.val g = 1) ∧
    (IsUnit (A.val g) → ∃ B, A.shirokovInverse g = .ok B) ∧
    (¬ IsUnit (A.val g) → A.shirokovInverse g = .error .noInverse) := by
  have h := Rep.of_wf hA hb
  obtain ⟨N, hN⟩ : ∃ N, N = 2 ^ ((n + 1) / 2) := ⟨_, rfl⟩
  have hN2 : 2 ≤ N := by
    rw [hN]
    calc 2 = 2 ^ 1 := rfl
      _ ≤ 2 ^ ((n + 1) / 2) := Nat.pow_le_pow_right (by norm_num) (by omega)
  obtain ⟨hU, hu⟩ := Spec.shirokov (A.val g) hN
  obtain ⟨hr, -, hadj⟩ := shirokov_loop hs h N (N - 1)
  obtain ⟨a, ha, har⟩ := hadj (N - 2) (by omega)
  set s := (List.range' 1 (N - 1)).foldl (A.shirokovStep g N) (A, none) with hsdef
  have hsc := hr.scalar_sc
  have hval : A.shirokovInverse g =
      if s.1.scalar = 0 then .error .noInverse else .ok (a.smul (-s.1.scalar)⁻¹) := by
    rw [Mv.shirokovInverse, ← hN]
    dsimp only
    rw [← hsdef, ha]
  set d := Spec.sc (Spec.shU (A.val g) N (N - 1)) with hd
  have hmul : A.val g * Spec.shAdj (A.val g) N (N - 2) = algebraMap K _ (-d) := by
    rw [map_neg, ← hU, show N - 1 = N - 2 + 1 by omega, Spec.shU_succ, neg_mul, neg_neg]
  have key : d ≠ 0 → (a.smul (-d)⁻¹).WF g ∧ A.val g * (a.smul (-d)⁻¹).val g = 1 ∧
      (a.smul (-d)⁻¹).val g * A.val g = 1 := by
    intro hd0
    have hr' := har.smul (-d)⁻¹
    have h1 : A.val g * (a.smul (-d)⁻¹).val g = 1 := by
      rw [hr'.val, mul_smul_comm, hmul, Algebra.smul_def, ← map_mul,
        inv_mul_cancel₀ (neg_ne_zero.mpr hd0), map_one]
    exact ⟨hr'.wf, h1, Spec.mul_eq_one_symm h1⟩
  rw [hval, hsc]
  refine ⟨fun B hB => ?_, fun hx => ?_, fun hx => ?_⟩
  · by_cases hd0 : d = 0
    · rw [if_pos hd0] at hB; simp at hB
    · rw [if_neg hd0] at hB
      injection hB with hB
      subst hB
      exact key hd0
  · rw [if_neg (hu hx)]
    exact ⟨_, rfl⟩
  · rw [if_pos]
    by_contra hd0
    obtain ⟨-, h1, h2⟩ := key hd0
    exact hx (isUnit_iff_exists.mpr ⟨_, h1, h2⟩)

/-- C25: in the program's own arithmetic, `A * A.shirokov_inverse() == 1`, on both sides. -/
theorem C25_shirokov_eq_partial [CharZero K] (hs : g.IsSymm) (hn : 0 < n) {A B : Mv K n} (hA : A.WF g)
    (hb : A.isBladeRep = true) (hB : A.shirokovInverse g = .ok B) :
    (A.mul g B).eq g (Mv.scalarMv 1) = true ∧ (B.mul g A).eq g (Mv.scalarMv 1) = true := by
  obtain ⟨hw, h1, h2⟩ := (C25_shirokov_partial hs hn hA hb).1 B hB
  have h1r := scalarMv_spec (g := g) (1 : K)
  constructor
  · rw [eq_spec hs (mul_spec' hs hA hw).1 h1r.1, (mul_spec' hs hA hw).2, h1, h1r.2.2, map_one]
  · rw [eq_spec hs (mul_spec' hs hw hA).1 h1r.1, (mul_spec' hs hw hA).2, h2, h1r.2.2, map_one]

/-- C25 fails in dimension 0: the loop never binds its result, so every invertible scalar raises
`UnboundLocalError`. -/
theorem C25_dimension_zero_counterexample (g : Matrix (Fin 0) (Fin 0) K) (A : Mv K 0)
    (hA : A.scalar ≠ 0) : A.shirokovInverse g = .error .unbound := by
  have : List.range' 1 (2 ^ ((0 + 1) / 2) - 1) = [] := rfl
  rw [Mv.shirokovInverse]
  dsimp only
  rw [this, List.foldl_nil, if_neg hA]

namespace Ex

/-- A non-orthogonal metric, in which one basis vector is null. -/
example : (A.mul gN ((A.shirokovInverse gN).toOption.getD Mv.zero)).eq gN (Mv.scalarMv 1) = true ∧
    ∃ B, A.shirokovInverse gN = .ok B := by
  have h : ∃ B, A.shirokovInverse gN = .ok B := by
    have : (A.shirokovInverse gN).isOk = true := by decide +kernel
    cases hB : A.shirokovInverse gN with
    | ok B => exact ⟨B, rfl⟩
    | error e => rw [hB] at this; simp [Except.isOk, Except.toBool] at this
  obtain ⟨B, hB⟩ := h
  refine ⟨?_, B, hB⟩
  rw [hB]
  exact (C25_shirokov_eq_partial gN_symm (by decide) (A_wf _) A_blade hB).1

/-- `1 + e_0` has no inverse where `e_0` squares to 1, and the call says so. -/
example : (Mv.ofExpr [(1, .blade []), (1, .blade [0])] : Mv ℚ 3).shirokovInverse gO =
    .error .noInverse := by decide +kernel

example : (Mv.scalarMv 3 : Mv ℚ 0).shirokovInverse (fun _ _ => 0) = .error .unbound := by
  decide +kernel

/-- C25 fails for multivectors in base representation: in the metric `gN` the product `e_0 e_1`,
written in the base symbols, is given something which is not its inverse. -/
theorem C25_base_representation_counterexample : gN.IsSymm ∧
    (Mv.ofExpr [(1, .base [0, 1])] : Mv ℚ 3).WF gN ∧
    ∃ B, (Mv.ofExpr [(1, .base [0, 1])] : Mv ℚ 3).shirokovInverse gN = .ok B ∧
      ((Mv.ofExpr [(1, .base [0, 1])] : Mv ℚ 3).mul gN B).eq gN (Mv.scalarMv 1) = false := by
  refine ⟨gN_symm, ⟨by decide +kernel, by decide +kernel, ?_⟩, ?_⟩
  · intro t ht
    have : t = (1, .base [0, 1]) := by
      have h : (Mv.ofExpr [(1, .base [0, 1])] : Mv ℚ 3).obj = [(1, .base [0, 1])] := by
        decide +kernel
      rw [h] at ht; simpa using ht
    subst this
    exact ⟨[0, 1], by decide, by decide +kernel⟩
  · have h : ((Mv.ofExpr [(1, .base [0, 1])] : Mv ℚ 3).shirokovInverse gN).toOption.any (fun B =>
        !((Mv.ofExpr [(1, .base [0, 1])] : Mv ℚ 3).mul gN B).eq gN (Mv.scalarMv 1)) = true := by
      decide +kernel
    cases hB : (Mv.ofExpr [(1, .base [0, 1])] : Mv ℚ 3).shirokovInverse gN with
    | ok B =>
      rw [hB] at h
      refine ⟨B, rfl, ?_⟩
      simpa [Except.toOption] using h
    | error e => rw [hB] at h; simp [Except.toOption] at h

end Ex

end GA
