import Verif.Spec.ExpSeries
import Verif.Spec.Elementary
import Verif.Proofs.Exp
import Verif.Props.C42
import Mathlib.Analysis.SpecialFunctions.Trigonometric.Series
import Mathlib.Analysis.SpecialFunctions.Trigonometric.Deriv

/-! The exponential series and the derivative of the exponential. -/

set_option linter.unusedSectionVars false

namespace GA
open Filter Topology

section functional
variable {n : ℕ} {K : Type*} [Field K] [DecidableEq K] [Invertible (2 : K)]
  {g : Matrix (Fin n) (Fin n) K}

/-- The coefficient of a basis blade is a linear function on the Clifford algebra. -/
theorem exists_coeff (g : Matrix (Fin n) (Fin n) K) (l : List (Fin n)) :
    ∃ f : Spec.Cl g →ₗ[K] K, ∀ {A : Mv K n} {x}, Rep g A x → f x = coeff A.obj l := by
  choose F hF using fun x : Spec.Cl g => exists_rep g x
  have key : ∀ {E : Expr K n}, Valid E → ∀ x, den g E = x → coeff (F x).obj l = coeff E l :=
    fun hE x hx => congrFun (coeff_ext g (hF x).valid hE ((hF x).den.trans hx.symm)) l
  refine ⟨⟨⟨fun x => coeff (F x).obj l, fun x y => ?_⟩, fun c x => ?_⟩, fun hA => ?_⟩
  · rw [key (valid_addE (hF x).valid (hF y).valid) (x + y) (by
      rw [den_addE, (hF x).den, (hF y).den]), coeff_addE]
    rfl
  · change coeff (F (c • x)).obj l = c • coeff (F x).obj l
    rw [key (valid_smulE c (hF x).valid) (c • x) (by rw [den_smulE, (hF x).den]), coeff_smulE]
    rfl
  · exact key hA.valid _ hA.den

/-- The value of the partial sums. -/
theorem expSum_rep (hs : g.IsSymm) {A : Mv K n} {x : Spec.Cl g} (hA : Rep g A x) (N : ℕ) :
    Rep g (expSum g A N) (∑ k ∈ Finset.range N, ((k.factorial : K)⁻¹) • x ^ k) := by
  induction N with
  | zero => exact Rep.zero
  | succ N ih =>
    rw [Finset.sum_range_succ]
    exact Rep.add hs ih ((Rep.pow hs hA N).smul _)

theorem pow_even_odd {x : Spec.Cl g} {q : K} (hq : x * x = algebraMap K _ q) (k : ℕ) :
    x ^ (2 * k) = algebraMap K _ (q ^ k) ∧ x ^ (2 * k + 1) = q ^ k • x := by
  have h1 : x ^ (2 * k) = algebraMap K _ (q ^ k) := by rw [pow_mul, sq, hq, map_pow]
  exact ⟨h1, by rw [pow_succ, h1, Algebra.smul_def]⟩

end functional

variable {n : ℕ} {g : Matrix (Fin n) (Fin n) ℂ}

/-- The coefficients `c k * q^(k/2) / k!` for the even and for the odd powers. -/
theorem hasSum_parts {q m : ℂ} (hm : m * m = -q) (e o : ℂ) (s : ℂ) (hs : m ≠ 0 → s = Complex.sin m / m)
    (hs0 : m = 0 → s = 1) :
    HasSum (fun k : ℕ => ((k.factorial : ℂ)⁻¹ * q ^ (k / 2)) * if Even k then e else o)
      (Complex.cos m * e + s * o) := by
  have hq : ∀ k, q ^ k = (-1) ^ k * m ^ (2 * k) := by
    intro k
    rw [pow_mul, sq, hm, ← mul_pow]; ring
  refine HasSum.even_add_odd ?_ ?_
  · refine ((Complex.hasSum_cos m).mul_right e).congr_fun ?_
    intro k
    rw [if_pos (by simp), show 2 * k / 2 = k by omega, hq]
    ring
  · by_cases h0 : m = 0
    · rw [hs0 h0, one_mul]
      have hq0 : q = 0 := by rw [h0] at hm; simpa using hm.symm
      have := hasSum_single (f := fun k : ℕ => (((2 * k + 1).factorial : ℂ)⁻¹ *
          q ^ ((2 * k + 1) / 2)) * if Even (2 * k + 1) then e else o) 0 (by
        intro k hk
        rw [show (2 * k + 1) / 2 = k by omega, hq0, zero_pow hk]
        ring)
      simpa using this
    · have h := ((Complex.hasSum_sin m).mul_right (m⁻¹ * o))
      rw [hs h0]
      have e1 : Complex.sin m / m * o = Complex.sin m * (m⁻¹ * o) := by ring
      rw [e1]
      refine h.congr_fun ?_
      intro k
      rw [if_neg (by simp), show (2 * k + 1) / 2 = k by omega, hq, pow_succ]
      field_simp

theorem exp_parts {x y : Spec.Cl g} {q : ℂ} (hq : x * x = algebraMap ℂ _ q)
    (h : IsExp Elementary.complex x y) : ∃ m s, m * m = -q ∧ (m ≠ 0 → s = Complex.sin m / m) ∧
      (m = 0 → s = 1) ∧ y = algebraMap ℂ _ (Complex.cos m) + s • x := by
  have hm : Elementary.complex.sqrt (-q) * Elementary.complex.sqrt (-q) = -q :=
    Elementary.complex_laws.sqrt_sq _
  by_cases h0 : q = 0
  · refine ⟨0, 1, by rw [h0]; simp, fun h => absurd rfl h, fun _ => rfl, ?_⟩
    rw [h.1 (by rw [hq, h0, map_zero]), Complex.cos_zero, map_one, one_smul]
  · refine ⟨_, _, hm, fun _ => rfl, fun h' => ?_, ?_⟩
    · rw [h'] at hm
      exact absurd (by simpa using hm.symm) h0
    · rw [h.2 q _ hq h0 hm, div_eq_mul_inv]
      rfl

theorem series_tendsto {x y : Spec.Cl g} {q : ℂ} (hq : x * x = algebraMap ℂ _ q)
    (h : IsExp Elementary.complex x y) (f : Spec.Cl g →ₗ[ℂ] ℂ) :
    Tendsto (fun N => f (∑ k ∈ Finset.range N, ((k.factorial : ℂ)⁻¹) • x ^ k)) atTop (𝓝 (f y)) := by
  obtain ⟨m, s, hm, h1, h2, rfl⟩ := exp_parts hq h
  have key := (hasSum_parts hm (f 1) (f x) s h1 h2).tendsto_sum_nat
  have e : f (algebraMap ℂ _ (Complex.cos m) + s • x) = Complex.cos m * f 1 + s * f x := by
    rw [map_add, Algebra.algebraMap_eq_smul_one, map_smul, map_smul]; rfl
  rw [e]
  refine key.congr fun N => ?_
  rw [map_sum]
  refine Finset.sum_congr rfl fun k _ => ?_
  rw [map_smul, smul_eq_mul, mul_assoc]
  congr 1
  obtain ⟨j, hj⟩ := Nat.even_or_odd' k
  rcases hj with rfl | rfl
  · rw [(pow_even_odd hq j).1, Algebra.algebraMap_eq_smul_one, map_smul, if_pos (by simp),
      show 2 * j / 2 = j by omega, smul_eq_mul]
  · rw [(pow_even_odd hq j).2, map_smul, if_neg (by simp), show (2 * j + 1) / 2 = j by omega,
      smul_eq_mul]

/-- `exp(t*x) = a(t) + b(t)*x` with `a' = q*b` and `b' = a`. -/
theorem exp_flow {x : Spec.Cl g} {q : ℂ} (hq : x * x = algebraMap ℂ _ q) : ∃ a b : ℂ → ℂ,
    (∀ t y, IsExp Elementary.complex (t • x) y → y = algebraMap ℂ _ (a t) + b t • x) ∧
    ∀ t, HasDerivAt a (q * b t) t ∧ HasDerivAt b (a t) t := by
  have hk : ∀ t : ℂ, (t • x) * (t • x) = algebraMap ℂ _ (t * t * q) := fun t => by
    rw [smul_mul_smul_comm, hq, Algebra.smul_def, ← map_mul]
  by_cases h0 : q = 0
  · refine ⟨fun _ => 1, fun t => t, fun t y h => ?_, fun t => ⟨?_, ?_⟩⟩
    · rw [h.1 (by rw [hk, h0, mul_zero, map_zero]), map_one]
    · rw [h0, zero_mul]; exact hasDerivAt_const t 1
    · exact hasDerivAt_id t
  · have hm : Elementary.complex.sqrt (-q) * Elementary.complex.sqrt (-q) = -q :=
      Elementary.complex_laws.sqrt_sq _
    generalize Elementary.complex.sqrt (-q) = m at hm
    have hm0 : m ≠ 0 := by rintro rfl; exact h0 (by simpa using hm.symm)
    refine ⟨fun t => Complex.cos (m * t), fun t => Complex.sin (m * t) / m, fun t y h => ?_,
      fun t => ⟨?_, ?_⟩⟩
    · by_cases ht : t = 0
      · subst ht
        rw [h.1 (by rw [hk, mul_zero, zero_mul, map_zero])]
        simp
      · rw [h.2 (t * t * q) (m * t) (hk t) (mul_ne_zero (mul_ne_zero ht ht) h0)
          (by linear_combination t * t * hm), smul_smul]
        congr 2
        change Complex.sin (m * t) * (m * t)⁻¹ * t = _
        field_simp
    · have := (Complex.hasDerivAt_cos (m * t)).comp t ((hasDerivAt_id t).const_mul m)
      refine this.congr_deriv ?_
      have e : q = -(m * m) := by rw [hm, neg_neg]
      rw [e]
      field_simp
    · have := ((Complex.hasDerivAt_sin (m * t)).comp t ((hasDerivAt_id t).const_mul m)).div_const m
      refine this.congr_deriv ?_
      field_simp

end GA
