import Verif.Proofs.GradeBound

/-! The algebra behind the closed-form inverses in up to five dimensions. -/

set_option linter.unusedSectionVars false

namespace Spec
open GA CliffordAlgebra
variable {n : ℕ} {R : Type*} [CommRing R] [Invertible (2 : R)]
  {g : Matrix (Fin n) (Fin n) R}

theorem eq_zero_of_eq_neg {x : Cl g} (h : x = -x) : x = 0 := by
  have h2 : (2 : R) • x = 0 := by rw [two_smul]; nth_rewrite 2 [h]; exact add_neg_cancel x
  rw [← one_smul R x, ← invOf_mul_self (2 : R), mul_smul, h2, smul_zero]

theorem grade_involute (k : ℕ) (x : Cl g) :
    grade g k (involute x) = (-1 : R) ^ k • grade g k x := by
  induction x using blade_induction g with
  | h0 => simp
  | hadd x y hx hy => rw [map_add, map_add, map_add, hx, hy, smul_add]
  | hsm c l hl =>
    rw [map_smul, map_smul, map_smul, homogeneous_involute (homogeneous_blade l), map_smul, grade_blade]
    split_ifs with h
    · rw [h, smul_comm]
    · simp

theorem grade_reverse' (k : ℕ) (x : Cl g) :
    grade g k (reverse x) = (-1 : R) ^ (k * (k - 1) / 2) • grade g k x := by
  rw [grade_reverse, (homogeneous_reverse (homogeneous_grade k x)).2]

/-- Clifford conjugation. -/
noncomputable def cconj (x : Cl g) : Cl g := reverse (involute x)

theorem cconj_mul (x y : Cl g) : cconj (x * y) = cconj y * cconj x := by
  rw [cconj, map_mul, reverse.map_mul]; rfl

theorem cconj_cconj (x : Cl g) : cconj (cconj x) = x := by
  rw [cconj, cconj, ← reverse_involute, involute_involute, reverse_reverse]

theorem grade_conj (k : ℕ) (x : Cl g) :
    grade g k (cconj x) = ((-1 : R) ^ (k * (k - 1) / 2) * (-1 : R) ^ k) • grade g k x := by
  rw [cconj, grade_reverse', grade_involute, smul_smul]

theorem grade_of_reverse_eq {x : Cl g} (h : reverse x = x) {k : ℕ} (hk : (k * (k - 1) / 2) % 2 = 1) :
    grade g k x = 0 := by
  have := grade_reverse' k x
  rw [h, (Nat.odd_iff.mpr hk).neg_one_pow, neg_one_smul] at this
  exact eq_zero_of_eq_neg this

theorem grade_of_reverse_neg {x : Cl g} (h : reverse x = -x) {k : ℕ}
    (hk : (k * (k - 1) / 2) % 2 = 0) : grade g k x = 0 := by
  have := grade_reverse' k x
  rw [h, (Nat.even_iff.mpr hk).neg_one_pow, one_smul, map_neg] at this
  exact eq_zero_of_eq_neg this.symm

theorem grade_of_cconj_eq {x : Cl g} (h : cconj x = x) {k : ℕ}
    (hk : (k * (k - 1) / 2 + k) % 2 = 1) : grade g k x = 0 := by
  have := grade_conj k x
  rw [h, ← pow_add, (Nat.odd_iff.mpr hk).neg_one_pow, neg_one_smul] at this
  exact eq_zero_of_eq_neg this

theorem reverse_sq {r : ℕ} {x : Cl g} (hx : Homogeneous g r x) : reverse (x * x) = x * x := by
  rw [reverse.map_mul, (homogeneous_reverse hx).2, smul_mul_smul_comm, ← mul_pow, neg_one_mul,
    neg_neg, one_pow, one_smul]

theorem tri_mod (k : ℕ) (hk : k % 4 = 2) : (k * (k - 1) / 2) % 2 = 1 := by
  obtain ⟨m, rfl⟩ : ∃ m, k = 4 * m + 2 := ⟨k / 4, by omega⟩
  have : (4 * m + 2) * (4 * m + 2 - 1) / 2 = 2 * (4 * m * m + 3 * m) + 1 := by
    rw [show (4 * m + 2) - 1 = 4 * m + 1 by omega,
      show (4 * m + 2) * (4 * m + 1) = 2 * (2 * (4 * m * m + 3 * m) + 1) by ring]
    omega
  omega

/-- The square of a grade-`r` element has only grades `0, 4, 8, ...`. -/
theorem grade_sq {r : ℕ} {x : Cl g} (hx : Homogeneous g r x) {k : ℕ} (hk : k % 4 ≠ 0) :
    grade g k (x * x) = 0 := by
  by_cases h : k % 2 = 0
  · exact grade_of_reverse_eq (reverse_sq hx) (tri_mod k (by omega))
  · exact grade_mul_homogeneous hx hx fun j _ _ => by omega

theorem sq_scalar {r : ℕ} {x : Cl g} (hx : Homogeneous g r x) (hr : r < 2 ∨ n < r + 2) :
    Homogeneous g 0 (x * x) := by
  intro k hk
  by_cases h : k % 4 = 0
  · rcases hr with hr | hr
    · exact grade_mul_homogeneous hx hx fun j _ _ => by omega
    · exact grade_mul_upper hx hx (by omega)
  · exact grade_sq hx h

theorem anticomm_scalar {r : ℕ} {x y : Cl g} (hx : Homogeneous g r x) (hy : Homogeneous g r y)
    (hr : r < 2 ∨ n < r + 2) : Homogeneous g 0 (x * y + y * x) := by
  have : x * y + y * x = (x + y) * (x + y) - x * x - y * y := by noncomm_ring
  rw [this]
  exact ((sq_scalar (hx.add hy) hr).sub (sq_scalar hx hr)).sub (sq_scalar hy hr)

theorem scalar_comm {x : Cl g} (hx : Homogeneous g 0 x) (y : Cl g) : x * y = y * x := by
  obtain ⟨c, rfl⟩ := homogeneous_zero_iff.mp hx
  exact Algebra.commutes c y

theorem scalar_mul_scalar {x y : Cl g} (hx : Homogeneous g 0 x) (hy : Homogeneous g 0 y) :
    Homogeneous g 0 (x * y) := by
  obtain ⟨c, rfl⟩ := homogeneous_zero_iff.mp hx
  obtain ⟨d, rfl⟩ := homogeneous_zero_iff.mp hy
  rw [← map_mul]; exact homogeneous_algebraMap _

theorem conj_norm (x : Cl g) : cconj (x * cconj x) = x * cconj x := by
  rw [cconj_mul, cconj_cconj]

/-- The numerator of the closed formula for `x⁻¹` in `n ≤ 5` dimensions. -/
noncomputable def hitzerNum (g : Matrix (Fin n) (Fin n) R) (x : Cl g) : Cl g :=
  if n = 0 then 1 + (0 : R) • x
  else if n = 1 then involute x
  else if n = 2 then cconj x
  else if n = 3 then cconj x * reverse (x * cconj x)
  else if n = 4 then
    cconj x * (x * cconj x - (2 : R) • grade g 3 (x * cconj x) - (2 : R) • grade g 4 (x * cconj x))
  else
    cconj x * reverse (x * cconj x) *
      (x * (cconj x * reverse (x * cconj x)) - (2 : R) • grade g 1 (x * (cconj x * reverse (x * cconj x))) -
        (2 : R) • grade g 4 (x * (cconj x * reverse (x * cconj x))))

theorem grade_eq_zero_gt {k : ℕ} (hk : n < k) (x : Cl g) : grade g k x = 0 := grade_gt hk x

theorem hitzer3 (h : n = 3) (x : Cl g) : Homogeneous g 0 (x * (cconj x * reverse (x * cconj x))) := by
  have hN := conj_norm x
  rw [← mul_assoc]
  set N := x * cconj x with hNdef
  clear_value N
  have e0 : N = grade g 0 N + grade g 3 N := by
    classical
    conv_lhs => rw [← sum_grade g N]
    rw [Finset.sum_eq_add_of_mem 0 3 (by simp) (by simp [h]) (by decide)]
    intro k hk hk'
    have : k = 1 ∨ k = 2 := by simp at hk; omega
    rcases this with rfl | rfl <;> exact grade_of_cconj_eq hN (by decide)
  set s := grade g 0 N with hs
  set t := grade g 3 N with ht
  have hs0 : Homogeneous g 0 s := homogeneous_grade 0 N
  have ht3 : Homogeneous g 3 t := homogeneous_grade 3 N
  have er : reverse N = s - t := by
    rw [e0, map_add, (homogeneous_reverse hs0).2, (homogeneous_reverse ht3).2]
    norm_num [sub_eq_add_neg]
  have : N * reverse N = s * s - t * t := by
    rw [er]; nth_rewrite 1 [e0]
    have := scalar_comm hs0 t
    rw [add_mul, mul_sub, mul_sub, this]; abel
  rw [this]
  exact (scalar_mul_scalar hs0 hs0).sub (sq_scalar ht3 (by omega))

theorem grade_two_sub (k j : ℕ) (hkj : k ≠ j) (x : Cl g) :
    (x - (2 : R) • grade g k x - (2 : R) • grade g j x) -
      (2 : R) • grade g k (x - (2 : R) • grade g k x - (2 : R) • grade g j x) -
      (2 : R) • grade g j (x - (2 : R) • grade g k x - (2 : R) • grade g j x) = x := by
  simp only [map_sub, map_smul, grade_grade, if_true, if_neg hkj, if_neg (Ne.symm hkj), smul_zero,
    sub_zero]
  simp only [two_smul]
  abel

theorem hitzer4 (h : n = 4) (x : Cl g) : Homogeneous g 0 (x *
    (cconj x * (x * cconj x - (2 : R) • grade g 3 (x * cconj x) - (2 : R) • grade g 4 (x * cconj x)))) := by
  have hN := conj_norm x
  rw [← mul_assoc]
  set N := x * cconj x with hNdef
  clear_value N
  have e0 : N = grade g 0 N + (grade g 3 N + grade g 4 N) := by
    classical
    conv_lhs => rw [← sum_grade g N]
    have hr : Finset.range (n + 1) = {0, 1, 2, 3, 4} := by rw [h]; decide
    rw [hr]
    simp [grade_of_cconj_eq hN (k := 1) (by decide), grade_of_cconj_eq hN (k := 2) (by decide)]
  set s := grade g 0 N with hs
  set t := grade g 3 N with ht
  set p := grade g 4 N with hp
  have hs0 : Homogeneous g 0 s := homogeneous_grade 0 N
  have ht3 : Homogeneous g 3 t := homogeneous_grade 3 N
  have hp4 : Homogeneous g 4 p := homogeneous_grade 4 N
  have htp : t * p + p * t = 0 := by
    classical
    rw [← sum_grade g (t * p + p * t)]
    refine Finset.sum_eq_zero fun k _ => ?_
    by_cases hk : k = 1
    · subst hk
      refine grade_of_reverse_neg ?_ (by decide)
      rw [map_add, reverse.map_mul, reverse.map_mul, (homogeneous_reverse ht3).2,
        (homogeneous_reverse hp4).2]
      norm_num
    · rw [map_add]
      rcases Nat.eq_zero_or_pos k with h0 | h0
      · rw [grade_mul_homogeneous ht3 hp4 fun j _ _ => by omega,
          grade_mul_homogeneous hp4 ht3 fun j _ _ => by omega, add_zero]
      · rw [grade_mul_upper ht3 hp4 (by omega), grade_mul_upper hp4 ht3 (by omega), add_zero]
  have er : N - (2 : R) • t - (2 : R) • p = s - (t + p) := by
    nth_rewrite 1 [e0]; rw [two_smul, two_smul]; abel
  have : N * (N - (2 : R) • t - (2 : R) • p) = s * s - t * t - p * p := by
    rw [er]; nth_rewrite 1 [e0]
    have h1 := scalar_comm hs0 t
    have h2 := scalar_comm hs0 p
    have h3 : p * t = -(t * p) := eq_neg_of_add_eq_zero_right htp
    simp only [add_mul, mul_sub, mul_add, h1, h2, h3]
    abel
  rw [this]
  exact ((scalar_mul_scalar hs0 hs0).sub (sq_scalar ht3 (by omega))).sub (sq_scalar hp4 (by omega))

theorem hitzer5 (h : n = 5) (x : Cl g) : Homogeneous g 0 (x * (cconj x * reverse (x * cconj x) *
      (x * (cconj x * reverse (x * cconj x)) - (2 : R) • grade g 1 (x * (cconj x * reverse (x * cconj x))) -
        (2 : R) • grade g 4 (x * (cconj x * reverse (x * cconj x)))))) := by
  have hN := conj_norm x
  rw [← mul_assoc, ← mul_assoc x (cconj x)]
  set N := x * cconj x with hNdef
  clear_value N
  have e0 : N = grade g 0 N + grade g 3 N + grade g 4 N := by
    classical
    conv_lhs => rw [← sum_grade g N]
    have hr : Finset.range (n + 1) = {0, 1, 2, 3, 4, 5} := by rw [h]; decide
    rw [hr]
    simp [grade_of_cconj_eq hN (k := 1) (by decide), grade_of_cconj_eq hN (k := 2) (by decide),
      grade_of_cconj_eq hN (k := 5) (by decide), add_assoc]
  have hs0 : Homogeneous g 0 (grade g 0 N) := homogeneous_grade 0 N
  have ht3 : Homogeneous g 3 (grade g 3 N) := homogeneous_grade 3 N
  have hp4 : Homogeneous g 4 (grade g 4 N) := homogeneous_grade 4 N
  generalize grade g 0 N = s at e0 hs0
  generalize grade g 3 N = t at e0 ht3
  generalize grade g 4 N = p at e0 hp4
  have er : reverse N = s - t + p := by
    rw [e0, map_add, map_add, (homogeneous_reverse hs0).2, (homogeneous_reverse ht3).2,
      (homogeneous_reverse hp4).2]
    norm_num [sub_eq_add_neg]
  -- the commutator of `t` and `p` is a vector
  have hv : Homogeneous g 1 (t * p - p * t) := by
    intro k hk
    have hrev : reverse (t * p - p * t) = t * p - p * t := by
      rw [map_sub, reverse.map_mul, reverse.map_mul, (homogeneous_reverse ht3).2,
        (homogeneous_reverse hp4).2]
      norm_num
      abel
    by_cases h3 : k = 3
    · subst h3; exact grade_of_reverse_eq hrev (by decide)
    · rw [map_sub]
      by_cases hk2 : k % 2 = 0
      · rw [grade_mul_homogeneous ht3 hp4 fun j _ _ => by omega,
          grade_mul_homogeneous hp4 ht3 fun j _ _ => by omega, sub_zero]
      · rw [grade_mul_upper ht3 hp4 (by omega), grade_mul_upper hp4 ht3 (by omega), sub_zero]
  -- `t²` is a scalar plus a 4-vector
  obtain ⟨c, q, hc, hq, hcq⟩ : ∃ c q : Cl g, Homogeneous g 0 c ∧ Homogeneous g 4 q ∧ t * t = c + q := by
    refine ⟨_, _, homogeneous_grade 0 (t * t), homogeneous_grade 4 (t * t), ?_⟩
    classical
    conv_lhs => rw [← sum_grade g (t * t)]
    rw [Finset.sum_eq_add_of_mem 0 4 (by simp) (by simp [h]) (by decide)]
    intro k hk hk'
    simp at hk
    exact grade_sq ht3 (by omega)
  have hp2 := sq_scalar hp4 (by omega)
  have hN2 : N * reverse N = (s * s + p * p - c) + (t * p - p * t) + (s * p + s * p - q) := by
    have h1 := scalar_comm hs0 t
    have h2 := scalar_comm hs0 p
    have h3 : q = t * t - c := by rw [hcq]; abel
    rw [er]; nth_rewrite 1 [e0]
    rw [h3]
    simp only [add_mul, mul_sub, mul_add, h1, h2]
    abel
  have ha : Homogeneous g 0 (s * s + p * p - c) := ((scalar_mul_scalar hs0 hs0).add hp2).sub hc
  have hsp : Homogeneous g 4 (s * p) := by
    obtain ⟨c, rfl⟩ := homogeneous_zero_iff.mp hs0
    rw [← Algebra.smul_def]; exact hp4.smul c
  have hq4 : Homogeneous g 4 (s * p + s * p - q) := (hsp.add hsp).sub hq
  rw [hN2]
  have hvp : (t * p - p * t) * p + p * (t * p - p * t) = 0 := by
    have := scalar_comm hp2 t
    calc _ = t * (p * p) - p * p * t := by noncomm_ring
      _ = 0 := by rw [this, sub_self]
  have htq : t * q = q * t := by
    have h3 : q = t * t - c := by rw [hcq]; abel
    rw [h3, mul_sub, sub_mul, mul_assoc, scalar_comm hc t]
  have hvq : (t * p - p * t) * q + q * (t * p - p * t) = 0 := by
    have h4 := scalar_comm (anticomm_scalar hp4 hq (by omega)) t
    calc (t * p - p * t) * q + q * (t * p - p * t)
        = t * p * q - p * (t * q) + q * t * p - q * p * t := by noncomm_ring
      _ = t * p * q - p * (q * t) + t * q * p - q * p * t := by rw [htq]
      _ = t * (p * q + q * p) - (p * q + q * p) * t := by noncomm_ring
      _ = 0 := by rw [h4, sub_self]
  have hanti : (t * p - p * t) * (s * p + s * p - q) + (s * p + s * p - q) * (t * p - p * t) = 0 := by
    have h5 := scalar_comm hs0 (t * p - p * t)
    calc _ = (t * p - p * t) * s * p + (t * p - p * t) * s * p - (t * p - p * t) * q
          + s * (p * (t * p - p * t)) + s * (p * (t * p - p * t)) - q * (t * p - p * t) := by noncomm_ring
      _ = s * (t * p - p * t) * p + s * (t * p - p * t) * p - (t * p - p * t) * q
          + s * (p * (t * p - p * t)) + s * (p * (t * p - p * t)) - q * (t * p - p * t) := by rw [h5]
      _ = s * ((t * p - p * t) * p + p * (t * p - p * t)) + s * ((t * p - p * t) * p + p * (t * p - p * t))
          - ((t * p - p * t) * q + q * (t * p - p * t)) := by noncomm_ring
      _ = 0 := by rw [hvp, hvq]; simp
  clear hN2 hvp hvq hcq htq er e0
  generalize s * s + p * p - c = a at ha
  generalize t * p - p * t = v at hv hanti
  generalize s * p + s * p - q = w at hq4 hanti
  have g1 : grade g 1 (a + v + w) = v := by
    rw [map_add, map_add, ha 1 (by decide), hv.grade_eq, hq4 1 (by decide)]; simp
  have g4 : grade g 4 (a + v + w) = w := by
    rw [map_add, map_add, ha 4 (by decide), hv 4 (by decide), hq4.grade_eq]; simp
  rw [g1, g4]
  have : (a + v + w) * (a + v + w - (2 : R) • v - (2 : R) • w) = a * a - v * v - w * w := by
    have h1 := scalar_comm ha v
    have h2 := scalar_comm ha w
    have h3 : w * v = -(v * w) := eq_neg_of_add_eq_zero_right hanti
    rw [show a + v + w - (2 : R) • v - (2 : R) • w = a - v - w by rw [two_smul, two_smul]; abel]
    simp only [add_mul, mul_sub, h1, h2, h3]
    abel
  rw [this]
  exact ((scalar_mul_scalar ha ha).sub (sq_scalar hv (by omega))).sub (sq_scalar hq4 (by omega))

/-- The product with the numerator is a scalar. -/
theorem mul_hitzerNum (h : n ≤ 5) (x : Cl g) : Homogeneous g 0 (x * hitzerNum g x) := by
  classical
  rw [hitzerNum]
  have hz : ∀ y : Cl g, cconj y = y → n ≤ 2 → Homogeneous g 0 y := by
    intro y hy hn k hk
    rcases Nat.lt_or_ge n k with h | h
    · exact grade_gt h y
    · have : k = 1 ∨ k = 2 := by omega
      rcases this with rfl | rfl <;> exact grade_of_cconj_eq hy (by decide)
  split_ifs with h0 h1 h2 h3 h4
  · rw [zero_smul, add_zero, mul_one]
    intro k hk
    exact grade_gt (by omega) x
  · have : involute x = cconj x := by
      have hsum : ∀ y : Cl g, y = grade g 0 y + grade g 1 y := fun y => by
        conv_lhs => rw [← sum_grade g y]
        have hr : Finset.range (n + 1) = {0, 1} := by rw [h1]; decide
        rw [hr]; simp
      rw [hsum (involute x), hsum (cconj x), grade_involute, grade_involute, grade_conj, grade_conj]
      norm_num
    rw [this]
    exact hz _ (conj_norm x) (by omega)
  · exact hz _ (conj_norm x) (by omega)
  · exact hitzer3 h3 x
  · exact hitzer4 h4 x
  · exact hitzer5 (by omega) x

/-- If `x` is invertible the numerator does not vanish. -/
theorem hitzerNum_ne_zero [Nontrivial R] {x : Cl g} (hx : IsUnit x) :
    hitzerNum g x ≠ 0 := by
  classical
  have hnt : (0 : Cl g) ≠ 1 := fun h => by
    have : algebraMap R (Cl g) 0 = algebraMap R (Cl g) 1 := by rw [map_zero, map_one, h]
    exact zero_ne_one (algebraMap_inj g this)
  have : Nontrivial (Cl g) := ⟨0, 1, hnt⟩
  have hinv : IsUnit (involute x) := hx.map involute
  have hrev : ∀ {y : Cl g}, IsUnit y → IsUnit (reverse y) := by
    rintro y ⟨u, rfl⟩
    refine isUnit_iff_exists.mpr ⟨reverse (u⁻¹ : (Cl g)ˣ).val, ?_, ?_⟩
    · rw [← reverse.map_mul, Units.inv_mul, reverse.map_one]
    · rw [← reverse.map_mul, Units.mul_inv, reverse.map_one]
  have hc : IsUnit (cconj x) := hrev hinv
  have hsub : ∀ k j, k ≠ j → ∀ y : Cl g, IsUnit y →
      y - (2 : R) • grade g k y - (2 : R) • grade g j y ≠ 0 := by
    intro k j hkj y hy h0
    have := grade_two_sub k j hkj y
    rw [h0] at this
    simp only [map_zero, smul_zero, sub_zero] at this
    exact hy.ne_zero this.symm
  have hm := hx.mul hc
  rw [hitzerNum]
  split_ifs
  · rw [zero_smul, add_zero]; exact one_ne_zero
  · exact hinv.ne_zero
  · exact hc.ne_zero
  · exact (hc.mul (hrev hm)).ne_zero
  · intro h0
    exact hsub 3 4 (by decide) _ hm ((hc.mul_right_eq_zero).mp h0)
  · intro h0
    exact hsub 1 4 (by decide) _ (hx.mul (hc.mul (hrev hm)))
      (((hc.mul (hrev hm)).mul_right_eq_zero).mp h0)

end Spec
