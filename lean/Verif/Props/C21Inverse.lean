import Verif.Props.C54Frame

/-!
# C21 and C22, continued: the reciprocal basis has the rows of the inverse metric as components

`mvr g true` models `Ga.mvr()`, `gInv g` models `Ga.g_inv`, and `reciprocalFrameNorm g` models `Ga.ReciprocalFrame`.
-/

set_option linter.unusedSectionVars false
set_option maxRecDepth 10000

namespace GA
variable {n : ℕ} {K : Type*} [Field K] [DecidableEq K] [Invertible (2 : K)] {g : Matrix (Fin n) (Fin n) K}

theorem mvr_rep (hs : g.IsSymm) {l : List (Mv K n)} (h : mvr g true = some l) (j : Fin n) :
    ∃ u : Fin n → K, Rep g (l.getD j Mv.zero) (Spec.vec g u) ∧ ∀ i, Spec.ip g (Pi.single i 1) u = if i = j then 1 else 0 := by
  rw [mvr] at h
  by_cases ho : isOrtho g = true
  · rw [if_neg (by simp [ho])] at h
    obtain ⟨u, h3, h4⟩ := (rBasisMv_rep hs h).2 j
    rw [recipFactor, if_pos ho] at h4
    exact ⟨u, h3, h4⟩
  · rw [if_pos (by simpa using ho), Option.bind_eq_some_iff] at h
    obtain ⟨l', h', h⟩ := h
    obtain ⟨h1, h2⟩ := rBasisMv_rep hs h'
    obtain ⟨h3, h4⟩ := mapM_option_getD (d := Mv.zero) h
    obtain ⟨u, h5, h6⟩ := h2 j
    have hj : (j : ℕ) < l'.length := by rw [h1]; exact j.2
    have h7 := h4 j hj
    rw [show l'[(j : ℕ)] = l'.getD j Mv.zero by simp [List.getD_eq_getElem?_getD, hj]] at h7
    obtain ⟨h8, h9⟩ := divScalar_rep h5 h7
    rw [← Spec.vec_smul] at h9
    refine ⟨_, h9, fun i => ?_⟩
    have h10 := h6 i
    rw [Spec.ip] at h10 ⊢
    rw [map_smul, h10, recipFactor, if_neg ho]
    split_ifs with hij
    · rw [smul_eq_mul, inv_mul_cancel₀ h8]
    · rw [smul_zero]

/-- C22: `g_inv` is defined exactly if the determinant of the metric is not zero. -/
theorem C22_defined (hs : g.IsSymm) : (∃ m, gInv g = some m) ↔ g.det ≠ 0 := by
  constructor
  · rintro ⟨m, h⟩ h0
    have := congrArg Matrix.det (C22_inverse_metric hs h).1
    rw [Matrix.det_mul, h0, mul_zero, Matrix.det_one] at this
    exact zero_ne_one this
  · intro hd
    have he : eSq g ≠ 0 := by
      rw [eSq_eq hs]
      exact mul_ne_zero (pow_ne_zero _ (by norm_num)) hd
    have h1 := C21_exists hs hd false
    rw [mvr, Bool.false_and, if_neg (by simp), rBasisMv, Option.isSome_map] at h1
    obtain ⟨rb, hrb⟩ := Option.isSome_iff_exists.mp h1
    rw [gInv, hrb, Option.bind_some, if_neg fun h => he h.2]
    exact ⟨_, rfl⟩

/-- C21: the components of the reciprocal basis vectors are the rows of `g_inv`, and `ReciprocalFrame` of the basis
vectors gives the reciprocal basis. -/
theorem C21_components (hs : g.IsSymm) (hd : g.det ≠ 0) :
    ∃ m l r, gInv g = some m ∧ mvr g true = some l ∧
      reciprocalFrameNorm g (List.ofFn fun i => Mv.vector (Pi.single i 1)) = some r ∧
      ∀ j : Fin n, (l.getD j Mv.zero).eq g (Mv.vector (m j)) = true ∧ (r.getD j Mv.zero).eq g (Mv.vector (m j)) = true := by
  obtain ⟨m, hm⟩ := (C22_defined hs).mpr hd
  obtain ⟨l, hl⟩ := Option.isSome_iff_exists.mp (C21_exists hs hd true)
  obtain ⟨h1, h2⟩ := C22_inverse_metric hs hm
  have hin : ∀ i j, inner g (m i) (Pi.single j 1) = if i = j then 1 else 0 := fun i j => by
    rw [inner_comm hs, ← ip_inner hs, Spec.ip_single hs]
    have := congrFun (congrFun h1 i) j
    rw [Matrix.mul_apply, Matrix.one_apply] at this
    rw [← this]
    exact Finset.sum_congr rfl fun k _ => by rw [hs.apply k j, mul_comm]
  have hr : IsReciprocal g (fun i => Pi.single i 1) m := by
    refine ⟨fun i => ?_, hin⟩
    rw [Submodule.mem_span_range_iff_exists_fun]
    exact ⟨m i, by funext k; simp [Pi.single_apply, Finset.sum_apply]⟩
  obtain ⟨r, hr'⟩ := (C54_defined hs _).mpr (hr.det hs)
  obtain ⟨w, hw, -, he, -⟩ := C54_frame hs hr'
  refine ⟨m, l, r, hm, hl, hr', fun j => ⟨?_, by rw [hr.unique hs hw]; exact he j⟩⟩
  obtain ⟨u, hu, hi⟩ := mvr_rep hs hl j
  rw [hu.eq_iff hs (Rep.vector _)]
  congr 1
  have e1 : g.mulVec u = Pi.single j 1 := by
    funext i
    rw [Matrix.mulVec, dotProduct, ← Spec.ip_single hs, hi, Pi.single_apply]
  have e2 : g.mulVec (m j) = Pi.single j 1 := by
    funext i
    rw [Matrix.mulVec, dotProduct, ← Spec.ip_single hs, ip_inner hs, inner_comm hs, hin, Pi.single_apply]
    simp only [eq_comm]
  have e3 := congrArg m.mulVec (e1.trans e2.symm)
  rwa [Matrix.mulVec_mulVec, Matrix.mulVec_mulVec, h1, Matrix.one_mulVec, Matrix.one_mulVec] at e3

/-- C21: with the reciprocal basis every vector `a` is the sum of the `(a|r_i) e_i` and of the `(a|e_i) r_i`. -/
theorem C21_expansion (hs : g.IsSymm) {m : Matrix (Fin n) (Fin n) K} (hm : gInv g = some m) (a : Fin n → K) :
    (∀ i, inner g a (m i) = a i) ∧ a = ∑ i, inner g a (Pi.single i 1) • m i := by
  obtain ⟨h1, h2⟩ := C22_inverse_metric hs hm
  have hin : ∀ i j, inner g (m i) (Pi.single j 1) = if i = j then 1 else 0 := fun i j => by
    rw [inner_comm hs, ← ip_inner hs, Spec.ip_single hs]
    have := congrFun (congrFun h1 i) j
    rw [Matrix.mul_apply, Matrix.one_apply] at this
    rw [← this]
    exact Finset.sum_congr rfl fun k _ => by rw [hs.apply k j, mul_comm]
  have ha : ∀ a : Fin n → K, a = ∑ i, a i • Pi.single i (1 : K) := fun a => by
    funext k; simp [Pi.single_apply, Finset.sum_apply]
  have hsp : ∀ a : Fin n → K, a ∈ Submodule.span K (Set.range fun i : Fin n => (Pi.single i 1 : Fin n → K)) := fun a => by
    rw [Submodule.mem_span_range_iff_exists_fun]
    exact ⟨a, (ha a).symm⟩
  have hr : IsReciprocal g (fun i => Pi.single i 1) m := ⟨fun i => hsp _, hin⟩
  refine ⟨fun i => ?_, hr.expand' hs (hsp a)⟩
  have := congrFun (hr.expand hs (hsp a)) i
  simpa [Pi.single_apply, Finset.sum_apply] using this.symm

/-- The metric `gN` is not orthogonal and not degenerate. -/
example : ∃ m l r, gInv Ex.gN = some m ∧ mvr Ex.gN true = some l ∧
    reciprocalFrameNorm Ex.gN (List.ofFn fun i => Mv.vector (Pi.single i 1)) = some r ∧
    ∀ j : Fin 3, (l.getD j Mv.zero).eq Ex.gN (Mv.vector (m j)) = true ∧ (r.getD j Mv.zero).eq Ex.gN (Mv.vector (m j)) = true :=
  C21_components Ex.gN_symm (by simp [Ex.gN, Matrix.det_fin_three])

example : isOrtho Ex.gN = false ∧ gInv Ex.gN ≠ some Ex.gN ∧ (gInv Ex.gN).isSome = true := by
  refine ⟨by decide +kernel, fun h => ?_, Option.isSome_iff_exists.mpr ((C22_defined Ex.gN_symm).mpr (by
    simp [Ex.gN, Matrix.det_fin_three]))⟩
  have := congrFun (congrFun (C22_inverse_metric Ex.gN_symm h).1 0) 0
  revert this
  decide +kernel

example : gInv (!![1, 1; 1, 1] : Matrix (Fin 2) (Fin 2) ℚ) = none := by
  by_contra h
  exact (C22_defined (by decide)).mp (Option.ne_none_iff_exists'.mp h) (by simp [Matrix.det_fin_two])

end GA
