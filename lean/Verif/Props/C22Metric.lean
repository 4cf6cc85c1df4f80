import Verif.Model.MetricInv
import Verif.Props.C21Inverse
import Verif.Props.C43

/-!
# C22, C44: the methods `g_inv` and `Christoffel_symbols` of the class `Metric`
-/

set_option linter.unusedSectionVars false
set_option maxRecDepth 10000

namespace GA
variable {n : ℕ} {K : Type*} [Field K] [DecidableEq K] [Invertible (2 : K)] {g : Matrix (Fin n) (Fin n) K}

/-- C22: for a metric that is not orthogonal, `Metric.g_inv` has the result of `Ga.g_inv`. -/
theorem C22_metric_partial (hs : g.IsSymm) (ho : isOrtho g = false) : metricGInv g none = gInv g := by
  rw [metricGInv, if_neg (by simp [ho])]
  by_cases hd : g.det = 0
  · have : gInv g = none := by
      by_contra hne
      exact (C22_defined hs).mp (Option.ne_none_iff_exists'.mp hne) hd
    simp [hd, this]
  · obtain ⟨m, hm⟩ := (C22_defined hs).mpr hd
    simp only [if_neg hd, hm]
    rw [Matrix.inv_eq_left_inv (C22_inverse_metric hs hm).1]

/-- C22: with a symbol `d` for the determinant, `Metric.g_inv` is the inverse matrix exactly for the value
`d = det(g)` of the symbol. -/
theorem C22_metric_gsym (ho : isOrtho g = false) (hd : g.det ≠ 0) {d : K} (h0 : d ≠ 0) :
    ∃ m, metricGInv g (some d) = some m ∧ (m * g = 1 ↔ d = g.det) := by
  refine ⟨d⁻¹ • metricGAdj g, by simp [metricGInv, ho, h0], ?_⟩
  rw [metricGAdj, Matrix.smul_mul, Matrix.adjugate_mul, smul_smul]
  constructor
  · intro h
    have hn : 0 < n := by
      rcases Nat.eq_zero_or_pos n with rfl | hn
      · exact absurd ho (by simp [isOrtho])
      · exact hn
    have := congrFun (congrFun h ⟨0, hn⟩) ⟨0, hn⟩
    rw [Matrix.smul_apply, Matrix.one_apply_eq, smul_eq_mul, mul_one] at this
    rw [inv_mul_eq_div, div_eq_one_iff_eq h0] at this
    exact this.symm
  · rintro rfl
    rw [inv_mul_cancel₀ hd, one_smul]

/-- C22, counterexample: `Metric.g_inv` raises an exception for every orthogonal metric, although its inverse exists if no
diagonal entry is zero. -/
theorem C22_metric_counterexample (hs : g.IsSymm) (ho : isOrtho g = true) (hn : n ≠ 0) (hd : g.det ≠ 0)
    (gsym : Option K) : metricGInv g gsym = none ∧ ∃ m, gInv g = some m ∧ m * g = 1 := by
  obtain ⟨m, hm⟩ := (C22_defined hs).mpr hd
  exact ⟨by cases gsym <;> simp [metricGInv, ho, hn], m, hm, (C22_inverse_metric hs hm).1⟩

/-- C44: objects of class `Metric` have the Christoffel symbols of the algebra with the same metric, of the first kind
always, of the second kind if the metric is not orthogonal. -/
theorem C44_metric_partial (hs : g.IsSymm) (D : Fin n → K → K) (N : Option (Fin n → K)) (mode : ℕ)
    (h : mode ≠ 2 ∨ isOrtho (currentMetric N g) = false) :
    metricChristoffel D g N mode = christoffelSymbols D g N mode := by
  rw [metricChristoffel, christoffelSymbols]
  split_ifs with h1 h2 h3
  · rfl
  · rfl
  · rw [C22_metric_partial (currentMetric_symm hs N) (h.resolve_left fun h => h h3)]
  · rfl

/-- C44, counterexample: if the metric of an object of class `Metric` is orthogonal and not constant,
`Christoffel_symbols(mode=2)` raises an exception. -/
theorem C44_metric_counterexample (D : Fin n → K → K) (N : Option (Fin n → K))
    (ho : isOrtho (currentMetric N g) = true) (hn : n ≠ 0) (hc : ∃ i j k, D k (g i j) ≠ 0) :
    metricChristoffel D g N 2 = none := by
  have hf : connectFlg D g ≠ false := by
    rw [Ne, connectFlg_false]
    intro h
    obtain ⟨i, j, k, h'⟩ := hc
    exact h' (h i j k)
  rw [metricChristoffel, if_neg hf, if_neg (by norm_num), if_pos rfl, metricGInv, if_pos ho, if_neg hn]
  rfl

/-! ### Concrete cases -/

/-- The hypotheses of `C22_metric_partial` and `C22_metric_gsym`. -/
example : (!![2, 1; 1, 3] : Matrix (Fin 2) (Fin 2) ℚ).IsSymm ∧
    isOrtho (!![2, 1; 1, 3] : Matrix (Fin 2) (Fin 2) ℚ) = false ∧
    (!![2, 1; 1, 3] : Matrix (Fin 2) (Fin 2) ℚ).det ≠ 0 := by
  refine ⟨?_, by decide +kernel, by rw [Matrix.det_fin_two_of]; norm_num⟩
  ext i j; fin_cases i <;> fin_cases j <;> rfl

/-- The hypotheses of the counterexamples: the Euclidean plane, and polar coordinates. -/
example : metricGInv (1 : Matrix (Fin 2) (Fin 2) ℚ) none = none :=
  (C22_metric_counterexample Matrix.isSymm_one (by decide +kernel) (by norm_num) (by simp) none).1

example : metricChristoffel (fun i => Ex.partialD i) Ex.polar none 2 = none :=
  C44_metric_counterexample _ none Ex.polar_ortho (by norm_num)
    ⟨1, 1, 0, by
      rw [Ex.polar_d, if_pos ⟨rfl, rfl, rfl⟩]
      exact mul_ne_zero two_ne_zero (Ex.coord_ne_zero 0)⟩

end GA
