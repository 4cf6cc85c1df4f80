import Verif.Props.C60
import Verif.Props.C36

/-!
# C38: the trace

`L.tr D g0 N x` models `L.tr()` in an algebra with metric tensor `g0` and coordinates `x`, normalised by `e_norm`
if `N = some e_norm`; `D i` is the derivative by coordinate `i`.
-/

set_option linter.unusedSectionVars false
set_option maxRecDepth 10000

namespace GA
variable {n : ℕ} {K : Type*} [Field K] [DecidableEq K] [Invertible (2 : K)]

section
variable {g0 : Matrix (Fin n) (Fin n) K} {D : Fin n → Derivation ℤ K K} {N : Option (Fin n → K)}
  {x : Fin n → K}

/-- What `L.tr()` computes in general: the divergence of `L` applied to the coordinate vector.  It is the trace of
the matrix only if the entries do not depend on the coordinates and the basis is not normalised. -/
theorem C38_trace_value (hs : g0.IsSymm) (hO : N.isSome → isOrtho g0 = true)
    (hl : (gradVecs g0 N).isSome = true) (hx : ∀ i j, D i (x j) = if i = j then 1 else 0)
    {L : Lt K n} (hL : L.WF) :
    L.tr (fun i => D i) g0 N x =
      some (∑ k, (scaleOf N k)⁻¹ * (L.mat k k + ∑ j, x j * D k (L.mat k j))) := by
  obtain ⟨l, hl⟩ := Option.isSome_iff_exists.mp hl
  obtain ⟨h1, h2, u, hu⟩ := gradVecs_rep hs hO hl
  have hsc := currentMetric_symm hs N
  have hv : Valid (coordVec x) ∧ den (currentMetric N g0) (coordVec x) = Spec.vec (currentMetric N g0) x :=
    ⟨valid_vecE x, den_vecE _ x⟩
  have h3 := hL.callE (g := currentMetric N g0) hv.1
  have h4 : Rep (currentMetric N g0) (Mv.ofExpr (L.callE (coordVec x)))
      (Spec.vec (currentMetric N g0) (L.mat.mulVec x)) := by
    refine (Rep.ofExpr h3.1).congr ?_
    rw [h3.2, hv.2, Spec.outer_vec]
  obtain ⟨G, h5, h6⟩ := gradDop_mulMv (X := Fields.ofMetric (fun i => D i) g0 N none) (D := D) (Γ := 0) hsc
    (fun _ => rfl) (fun _ => rfl) rfl .inner h1 (fun j => (hu j).1) h4
  rw [Lt.tr, hl, Option.bind_some]
  simp only [h5]
  congr 1
  refine Rep.scalar_of h6 ?_
  have key : ∀ k, opS (currentMetric N g0) .inner (Spec.vec (currentMetric N g0) (u k))
      (Spec.deriv (currentMetric N g0) (D k) 0 (Spec.vec (currentMetric N g0) (L.mat.mulVec x))) =
      algebraMap K _ ((scaleOf N k)⁻¹ * (L.mat k k + ∑ j, x j * D k (L.mat k j))) := by
    intro k
    rw [opS, Spec.deriv_vec, Spec.hestenesDot_vec_ip, Spec.ip_comm, Spec.ip_dotProduct hsc]
    congr 1
    rw [Finset.sum_eq_single k]
    · rw [(hu k).2, if_pos rfl, mul_comm]
      congr 1
      simp only [Spec.dvec, Matrix.zero_apply, zero_mul, Finset.sum_const_zero, add_zero, Matrix.mulVec,
        dotProduct, map_sum, Derivation.leibniz, hx, smul_eq_mul, Finset.sum_add_distrib]
      congr 1
      simp
    · intro i _ hi; rw [(hu k).2, if_neg hi, mul_zero]
    · simp
  refine Eq.trans (congrArg _ ((Finset.sum_congr rfl fun k _ => key k).trans (map_sum _ _ _).symm)) ?_
  exact grade_zero_algebraMap (g := currentMetric N g0) _

/-- C38: `L.tr()` is the trace of the matrix of `L`, if the entries do not depend on the coordinates and the basis
is not normalised.  Missing: algebras constructed with `norm=True` and transformations with entries that depend on
the coordinates, where the claim is false (`C38_trace_norm_counterexample`,
`C38_trace_coordinates_counterexample`). -/
theorem C38_trace_partial (hs : g0.IsSymm) (hd : g0.det ≠ 0)
    (hx : ∀ i j, D i (x j) = if i = j then 1 else 0) {L : Lt K n} (hL : L.WF)
    (hc : ∀ i j k, D k (L.mat i j) = 0) :
    ∃ M, L.matrix = some M ∧ L.tr (fun i => D i) g0 none x = some M.trace := by
  refine ⟨L.mat, hL.matrix, ?_⟩
  rw [C38_trace_value hs (by simp) (C60_exists hs hd (fun _ h => by cases h) (by simp)) hx hL]
  simp [scaleOf, hc, Matrix.trace]

/-- C38: `(L1*L2).tr() = (L2*L1).tr()` for transformations with constant entries, if the basis is not
normalised. -/
theorem C38_trace_mul_comm_partial (hs : g0.IsSymm) (hd : g0.det ≠ 0)
    (hx : ∀ i j, D i (x j) = if i = j then 1 else 0) {L M : Lt K n} (hL : L.WF) (hM : M.WF)
    (hc : ∀ i j k, D k (L.mat i j) = 0) (hc' : ∀ i j k, D k (M.mat i j) = 0) :
    ∃ t, (L.mul M).tr (fun i => D i) g0 none x = some t ∧ (M.mul L).tr (fun i => D i) g0 none x = some t := by
  have h1 := hL.mul hM
  have h2 := hM.mul hL
  have hp : ∀ A B : Matrix (Fin n) (Fin n) K, (∀ i j k, D k (A i j) = 0) → (∀ i j k, D k (B i j) = 0) →
      ∀ i j k, D k ((A * B) i j) = 0 := by
    intro A B hA hB i j k
    rw [Matrix.mul_apply, map_sum]
    exact Finset.sum_eq_zero fun l _ => by rw [Derivation.leibniz, hA, hB, smul_zero, smul_zero, add_zero]
  obtain ⟨P, h3, h4⟩ := C38_trace_partial hs hd hx h1.1 (by rw [h1.2]; exact hp _ _ hc hc')
  obtain ⟨Q, h5, h6⟩ := C38_trace_partial hs hd hx h2.1 (by rw [h2.2]; exact hp _ _ hc' hc)
  rw [h1.1.matrix, h1.2] at h3
  rw [h2.1.matrix, h2.2] at h5
  refine ⟨_, h4, ?_⟩
  rw [h6, ← Option.some.inj h3, ← Option.some.inj h5, Matrix.trace_mul_comm]

end

/-! ### Counterexamples -/

/-- C38 fails in an algebra constructed with `norm=True`: the "trace" of the identity in polar coordinates is
`1 + 1/r`. -/
theorem C38_trace_norm_counterexample : ∃ L : Lt (Ex.Fun 2) 2, L.WF ∧ L.matrix = some 1 ∧
    L.tr (fun i => Ex.partialD i) Ex.polar (some Ex.polarN) Ex.coord = some (1 + (Ex.coord 0)⁻¹) ∧
    1 + (Ex.coord (n := 2) 0)⁻¹ ≠ Matrix.trace (1 : Matrix (Fin 2) (Fin 2) (Ex.Fun 2)) := by
  have h0 := Ex.coord_ne_zero (n := 2) 0
  obtain ⟨hL, hm⟩ := Lt.ofMatrix_spec (1 : Matrix (Fin 2) (Fin 2) (Ex.Fun 2))
  refine ⟨Lt.ofMatrix 1, hL, by rw [hL.matrix, hm], ?_, ?_⟩
  · rw [C38_trace_value Ex.polar_symm (fun _ => Ex.polar_ortho)
      (C60_exists Ex.polar_symm (by simp [Ex.polar, Matrix.det_diagonal, Fin.prod_univ_two, h0])
        Ex.polarN_sq fun _ => Ex.polar_ortho) (fun i j => Ex.partialD_coord i j) hL, hm]
    simp [scaleOf, Ex.polarN, Fin.sum_univ_two]
  · rw [Matrix.trace_one, Fintype.card_fin]
    intro h
    have h1 : (Ex.coord (n := 2) 0)⁻¹ = 1 := by
      have : (1 : Ex.Fun 2) + (Ex.coord 0)⁻¹ = 1 + 1 := by rw [h]; norm_num
      exact add_left_cancel this
    have h2 : Ex.coord (n := 2) 0 = 1 := inv_eq_one.mp h1
    have h3 := Ex.partialD_coord (n := 2) 0 0
    rw [h2, Derivation.map_one_eq_zero] at h3
    simp at h3

/-- C38 fails for entries that depend on the coordinates: on the line with coordinate `x`, the "trace" of the
multiplication by `x` is `2*x`. -/
theorem C38_trace_coordinates_counterexample : ∃ L : Lt (Ex.Fun 1) 1, L.WF ∧
    L.matrix = some !![Ex.coord 0] ∧
    L.tr (fun i => Ex.partialD i) 1 none Ex.coord = some (2 * Ex.coord 0) ∧
    2 * Ex.coord 0 ≠ Matrix.trace !![Ex.coord (n := 1) 0] := by
  have h0 := Ex.coord_ne_zero (n := 1) 0
  obtain ⟨hL, hm⟩ := Lt.ofMatrix_spec !![Ex.coord (n := 1) 0]
  refine ⟨Lt.ofMatrix !![Ex.coord 0], hL, by rw [hL.matrix, hm], ?_, ?_⟩
  · rw [C38_trace_value Matrix.isSymm_one (by simp)
      (C60_exists Matrix.isSymm_one (by simp) (fun _ h => by cases h) (by simp))
      (fun i j => Ex.partialD_coord i j) hL, hm]
    simp [scaleOf, Ex.partialD_coord, two_mul]
  · rw [Matrix.trace_fin_one]
    intro h
    exact h0 (by simpa [two_mul] using h)

/-- The hypotheses of `C38_trace_partial` are met: the coordinates of the plane, and constant matrices. -/
example (M : Matrix (Fin 2) (Fin 2) ℚ) : ∃ L : Lt (Ex.Fun 2) 2, L.WF ∧
    L.mat = M.map (fun q => Ex.poly (MvPolynomial.C q)) ∧ (∀ i j k, Ex.partialD k (L.mat i j) = 0) ∧
    ∀ i j : Fin 2, Ex.partialD i (Ex.coord j) = if i = j then 1 else 0 := by
  obtain ⟨hL, hm⟩ := Lt.ofMatrix_spec (M.map (fun q => Ex.poly (n := 2) (MvPolynomial.C q)))
  refine ⟨_, hL, hm, fun i j k => ?_, Ex.partialD_coord⟩
  rw [hm, Matrix.map_apply, Ex.partialD_poly, MvPolynomial.pderiv_C]
  exact map_zero (algebraMap _ _)

end GA
