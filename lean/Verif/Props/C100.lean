import Verif.Model.Correlation
import Verif.Spec.Correlation

/-!
# C100: `correlation`
-/

namespace GA
open Spec
variable {m : ℕ}

theorem centreLoop_length {K : Type*} [Field K] (a : K) (u : List K) :
    centreLoop a u.length u = u.map (· - a) := by
  induction u with
  | nil => rfl
  | cons x u ih => rw [List.length_cons, centreLoop, ih, List.map_cons]

theorem foldl_add_eq {K : Type*} [Field K] (u : List K) (s : K) : u.foldl (· + ·) s = s + u.sum := by
  induction u generalizing s with
  | nil => simp
  | cons x u ih => rw [List.foldl_cons, ih, List.sum_cons, add_assoc]

theorem centre_ofFn (u : Fin m → ℝ) :
    centre m (List.ofFn u) = List.ofFn fun i => u i - mean u := by
  have h := centreLoop_length ((List.ofFn u).sum / m) (List.ofFn u)
  rw [List.length_ofFn] at h
  rw [centre, List.take_of_length_le (by simp), foldl_add_eq, zero_add, h, List.map_ofFn, List.sum_ofFn]
  rfl

theorem dotList_ofFn (u v : Fin m → ℝ) : dotList (List.ofFn u) (List.ofFn v) = ∑ i, u i * v i := by
  rw [dotList, ← List.sum_ofFn]
  congr 1
  apply List.ext_getElem <;> simp

theorem cov_self_eq_zero (u : Fin m → ℝ) : cov u u = 0 ↔ Constant u := by
  rw [cov, Finset.sum_eq_zero_iff_of_nonneg fun i _ => mul_self_nonneg _]
  constructor
  · intro h i j
    have hi := mul_self_eq_zero.mp (h i (Finset.mem_univ i))
    have hj := mul_self_eq_zero.mp (h j (Finset.mem_univ j))
    linarith
  · intro h i _
    have : mean u = u i := by
      rw [mean, Finset.sum_congr rfl fun j _ => h j i, Finset.sum_const, Finset.card_univ, Fintype.card_fin,
        nsmul_eq_mul, mul_div_cancel_left₀]
      have := i.pos
      positivity
    rw [this]; simp

theorem cov_self_nonneg (u : Fin m → ℝ) : 0 ≤ cov u u := Finset.sum_nonneg fun _ _ => mul_self_nonneg _

theorem correlation_ofFn (u v : Fin m → ℝ) : correlation Real.sqrt true (List.ofFn u) (List.ofFn v) =
    if √(cov u u) * √(cov v v) = 0 then none else some (pearson u v) := by
  rw [correlation, if_pos (by simp)]
  simp only [if_pos, List.length_ofFn]
  rw [centre_ofFn, centre_ofFn, dotList_ofFn, dotList_ofFn, dotList_ofFn]
  rfl

/-- C100: of two column vectors, neither of them constant, `correlation` is Pearson's correlation coefficient; if
one is constant the denominator is zero. -/
theorem C100_pearson_partial (u v : Fin m → ℝ) :
    (¬ Constant u → ¬ Constant v →
      correlation Real.sqrt true (List.ofFn u) (List.ofFn v) = some (pearson u v)) ∧
    (Constant u ∨ Constant v → correlation Real.sqrt true (List.ofFn u) (List.ofFn v) = none) := by
  rw [correlation_ofFn]
  have key : √(cov u u) * √(cov v v) = 0 ↔ Constant u ∨ Constant v := by
    rw [mul_eq_zero, Real.sqrt_eq_zero (cov_self_nonneg u), Real.sqrt_eq_zero (cov_self_nonneg v),
      cov_self_eq_zero, cov_self_eq_zero]
  exact ⟨fun hu hv => if_neg (by rw [key]; tauto), fun h => if_pos (key.mpr h)⟩

theorem pearson_inner (u v : Fin m → ℝ) : pearson u v =
    inner ℝ (WithLp.toLp 2 (fun i => u i - mean u)) (WithLp.toLp 2 (fun i => v i - mean v) :
      EuclideanSpace ℝ (Fin m)) / (‖(WithLp.toLp 2 (fun i => u i - mean u) : EuclideanSpace ℝ (Fin m))‖ *
      ‖(WithLp.toLp 2 (fun i => v i - mean v) : EuclideanSpace ℝ (Fin m))‖) := by
  have hc : ∀ u : Fin m → ℝ, cov u u = ∑ i, (u i - mean u) ^ 2 := fun u =>
    Finset.sum_congr rfl fun i _ => (sq _).symm
  rw [pearson, EuclideanSpace.norm_eq, EuclideanSpace.norm_eq, hc, hc]
  simp only [cov, PiLp.inner_apply, Real.norm_eq_abs, sq_abs]
  congr 1
  exact Finset.sum_congr rfl fun i _ => mul_comm _ _

/-- C100: whatever `correlation` returns for column vectors is in `[-1, 1]`, it does not depend on the order of
the arguments, and it is 1 for a vector with itself. -/
theorem C100_range (u v : List ℝ) {r : ℝ} (h : correlation Real.sqrt true u v = some r) :
    -1 ≤ r ∧ r ≤ 1 ∧ correlation Real.sqrt true v u = some r ∧
      correlation Real.sqrt true u u = some 1 := by
  have hl : u.length = v.length := by
    by_contra hn; rw [correlation, if_neg hn] at h; cases h
  obtain ⟨m, u, rfl⟩ : ∃ m, ∃ f : Fin m → ℝ, u = List.ofFn f := ⟨_, _, (List.ofFn_get u).symm⟩
  obtain ⟨v, rfl⟩ : ∃ f : Fin m → ℝ, v = List.ofFn f := by
    rw [List.length_ofFn] at hl
    subst hl
    exact ⟨_, (List.ofFn_get v).symm⟩
  rw [correlation_ofFn] at h
  split_ifs at h with h0
  cases h
  have hb := abs_le.mp (by rw [pearson_inner]; exact abs_real_inner_div_norm_mul_norm_le_one _ _ :
    |pearson u v| ≤ 1)
  refine ⟨hb.1, hb.2, ?_, ?_⟩
  · rw [correlation_ofFn, if_neg (by rwa [mul_comm])]
    rw [pearson, pearson, mul_comm √(cov v v)]
    congr 2
    exact Finset.sum_congr rfl fun i _ => mul_comm _ _
  · have hu : √(cov u u) ≠ 0 := fun h => h0 (by rw [h, zero_mul])
    rw [correlation_ofFn, if_neg (by rw [mul_self_eq_zero]; exact hu), pearson,
      Real.mul_self_sqrt (cov_self_nonneg u), div_self]
    intro h; exact hu (by rw [h, Real.sqrt_zero])

theorem mean_affine (hm : 0 < m) (a b : ℝ) (u : Fin m → ℝ) :
    mean (fun i => a * u i + b) = a * mean u + b := by
  rw [mean, mean, Finset.sum_add_distrib, ← Finset.mul_sum, Finset.sum_const, Finset.card_univ,
    Fintype.card_fin, nsmul_eq_mul]
  have : (m : ℝ) ≠ 0 := by positivity
  field_simp

theorem cov_affine (hm : 0 < m) (a b c d : ℝ) (u v : Fin m → ℝ) :
    cov (fun i => a * u i + b) (fun i => c * v i + d) = a * c * cov u v := by
  rw [cov, cov, mean_affine hm, mean_affine hm, Finset.mul_sum]
  exact Finset.sum_congr rfl fun i _ => by ring

/-- C100: the units and the origins in which the two columns are given do not matter, except for the sign: for
`a, c ≠ 0`, `correlation(a*u + b, c*v + d)` is `correlation(u, v)`, times `-1` if `a` and `c` have opposite
signs. -/
theorem C100_affine (u v : List ℝ) {r : ℝ} (h : correlation Real.sqrt true u v = some r) {a c : ℝ}
    (ha : a ≠ 0) (hc : c ≠ 0) (b d : ℝ) :
    correlation Real.sqrt true (u.map fun x => a * x + b) (v.map fun x => c * x + d) =
      some (if 0 < a * c then r else -r) := by
  have hl : u.length = v.length := by
    by_contra hn; rw [correlation, if_neg hn] at h; cases h
  obtain ⟨m, u, rfl⟩ : ∃ m, ∃ f : Fin m → ℝ, u = List.ofFn f := ⟨_, _, (List.ofFn_get u).symm⟩
  obtain ⟨v, rfl⟩ : ∃ f : Fin m → ℝ, v = List.ofFn f := by
    rw [List.length_ofFn] at hl
    subst hl
    exact ⟨_, (List.ofFn_get v).symm⟩
  rw [correlation_ofFn] at h
  split_ifs at h with h0
  cases h
  have hm : 0 < m := by
    rcases Nat.eq_zero_or_pos m with rfl | h
    · exact absurd (by simp [cov]) h0
    · exact h
  rw [List.map_ofFn, List.map_ofFn, correlation_ofFn]
  simp only [Function.comp_def]
  have e1 : √(cov (fun i => a * u i + b) fun i => a * u i + b) = |a| * √(cov u u) := by
    rw [cov_affine hm, Real.sqrt_mul (mul_self_nonneg a), Real.sqrt_mul_self_eq_abs]
  have e2 : √(cov (fun i => c * v i + d) fun i => c * v i + d) = |c| * √(cov v v) := by
    rw [cov_affine hm, Real.sqrt_mul (mul_self_nonneg c), Real.sqrt_mul_self_eq_abs]
  have hac : |a| * |c| ≠ 0 := mul_ne_zero (abs_ne_zero.mpr ha) (abs_ne_zero.mpr hc)
  have e3 : (|a| * √(cov u u)) * (|c| * √(cov v v)) = |a| * |c| * (√(cov u u) * √(cov v v)) := by ring
  rw [if_neg (by rw [e1, e2, e3]; exact mul_ne_zero hac h0), pearson, cov_affine hm, e1, e2, e3, pearson]
  congr 1
  rw [← abs_mul]
  rw [← abs_mul] at hac
  rw [mul_div_mul_comm]
  split_ifs with hp
  · rw [abs_of_pos hp, div_self (ne_of_gt hp), one_mul]
  · have hn : a * c < 0 := lt_of_le_of_ne (not_lt.mp hp) (mul_ne_zero ha hc)
    rw [abs_of_neg hn, div_neg, div_self (ne_of_lt hn), neg_one_mul]

/-- C100: the extreme values: `correlation` is 1 or -1 exactly when one vector is a multiple of the other, up to
a constant. -/
theorem C100_extreme (u v : Fin m → ℝ) (hu : ¬ Constant u) {r : ℝ}
    (h : correlation Real.sqrt true (List.ofFn u) (List.ofFn v) = some r) :
    |r| = 1 ↔ ∃ a b : ℝ, a ≠ 0 ∧ ∀ i, v i = a * u i + b := by
  rw [correlation_ofFn] at h
  split_ifs at h with h0
  cases h
  rw [pearson_inner, abs_real_inner_div_norm_mul_norm_eq_one_iff]
  constructor
  · rintro ⟨-, a, ha, h⟩
    refine ⟨a, mean v - a * mean u, ha, fun i => ?_⟩
    have := congrArg (fun w : EuclideanSpace ℝ (Fin m) => w i) h
    simp only [PiLp.smul_apply, smul_eq_mul] at this
    linarith
  · rintro ⟨a, b, ha, h⟩
    have hm : 0 < m := by
      rcases Nat.eq_zero_or_pos m with rfl | h
      · exact absurd (fun i => i.elim0) hu
      · exact h
    refine ⟨fun h' => hu ?_, a, ha, ?_⟩
    · intro i j
      have hi := congrArg (fun w : EuclideanSpace ℝ (Fin m) => w i) h'
      have hj := congrArg (fun w : EuclideanSpace ℝ (Fin m) => w j) h'
      simp only [PiLp.zero_apply] at hi hj
      linarith
    · obtain rfl : v = fun i => a * u i + b := funext h
      ext i
      simp only [PiLp.smul_apply, smul_eq_mul, mean_affine hm]
      ring

/-- C100 fails for row vectors: only the first entry is moved.  `correlation` of `(1, 2, 3)` and `(3, 4, 5)`,
which differ by a constant, is not 1. -/
theorem C100_row_counterexample : correlation Real.sqrt true [1, 2, 3] [3, 4, 5] = some 1 ∧
    correlation Real.sqrt false [1, 2, 3] [3, 4, 5] = some (23 / (√13 * √41)) ∧ (23 / (√13 * √41) : ℝ) ≠ 1 := by
  have h13 : (0 : ℝ) < √13 := Real.sqrt_pos.mpr (by norm_num)
  have h41 : (0 : ℝ) < √41 := Real.sqrt_pos.mpr (by norm_num)
  have h2 : (0 : ℝ) < √2 := Real.sqrt_pos.mpr (by norm_num)
  refine ⟨?_, ?_, ?_⟩
  · have e1 : centre 3 ([1, 2, 3] : List ℝ) = [-1, 0, 1] := by
      norm_num [centre, centreLoop]
    have e2 : centre 3 ([3, 4, 5] : List ℝ) = [-1, 0, 1] := by
      norm_num [centre, centreLoop]
    have e3 : dotList ([-1, 0, 1] : List ℝ) [-1, 0, 1] = 2 := by norm_num [dotList]
    simp only [correlation, List.length_cons, List.length_nil, if_true]
    norm_num only
    rw [e1, e2, e3, Real.mul_self_sqrt (by norm_num), if_neg (by norm_num), div_self (by norm_num)]
  · have e1 : centre 1 ([1, 2, 3] : List ℝ) = [0, 2, 3] := by
      norm_num [centre, centreLoop]
    have e2 : centre 1 ([3, 4, 5] : List ℝ) = [0, 4, 5] := by
      norm_num [centre, centreLoop]
    have e3 : dotList ([0, 2, 3] : List ℝ) [0, 2, 3] = 13 := by norm_num [dotList]
    have e4 : dotList ([0, 4, 5] : List ℝ) [0, 4, 5] = 41 := by norm_num [dotList]
    have e5 : dotList ([0, 2, 3] : List ℝ) [0, 4, 5] = 23 := by norm_num [dotList]
    simp only [correlation, List.length_cons, List.length_nil, if_true]
    rw [if_neg (show ¬ (false = true) by decide), e1, e2, e3, e4, e5, if_neg (by positivity)]
  · intro h
    rw [div_eq_one_iff_eq (by positivity), ← Real.sqrt_mul (by norm_num)] at h
    have := congrArg (· ^ 2) h
    rw [Real.sq_sqrt (by norm_num)] at this
    norm_num at this

/-- The vectors `(1, 2, 4)` and `(0, 1, 1)` satisfy the hypotheses. -/
example : ∃ r, correlation Real.sqrt true [1, 2, 4] [0, 1, 1] = some r ∧ -1 ≤ r ∧ r ≤ 1 := by
  have hu : ¬ Constant (![1, 2, 4] : Fin 3 → ℝ) := fun h => by
    have := h 0 1; norm_num at this
  have hv : ¬ Constant (![0, 1, 1] : Fin 3 → ℝ) := fun h => by
    have := h 0 1; norm_num at this
  have := (C100_pearson_partial _ _).1 hu hv
  exact ⟨_, this, (C100_range _ _ this).1, (C100_range _ _ this).2.1⟩

end GA
