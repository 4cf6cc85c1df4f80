import Verif.Props.C43
import Verif.Proofs.Dop

/-! Examples: surfaces with metric tensor `diag(1, f²)`, `f` a function of the first coordinate. -/

set_option linter.unusedSectionVars false
set_option maxRecDepth 10000
set_option linter.unusedSimpArgs false

namespace GA.Ex

/-- The metric `diag(1, f²)`. -/
noncomputable def warp (f : Fun 2) : Matrix (Fin 2) (Fin 2) (Fun 2) := Matrix.diagonal ![1, f ^ 2]

theorem polar_eq_warp : polar = warp (coord 0) := rfl

theorem warp_symm (f : Fun 2) : (warp f).IsSymm := Matrix.isSymm_diagonal _

theorem warp_ortho (f : Fun 2) : isOrtho (warp f) = true := by
  rw [isOrtho_iff]
  intro i j hij
  exact Matrix.diagonal_apply_ne _ (ne_of_lt hij)

/-- The connection of the surface. -/
noncomputable def warpΓ (f : Fun 2) : Fin 2 → Matrix (Fin 2) (Fin 2) (Fun 2) :=
  ![!![0, 0; 0, partialD 0 f / f], !![0, -(f * partialD 0 f); partialD 0 f / f, 0]]

theorem warp_d {f : Fun 2} (h1 : partialD 1 f = 0) (i j k : Fin 2) : partialD k (warp f i j) =
    if i = 1 ∧ j = 1 ∧ k = 0 then 2 * f * partialD 0 f else 0 := by
  have e : ∀ k : Fin 2, partialD k (f ^ 2) = 2 * f * partialD k f := by
    intro k
    rw [sq, Derivation.leibniz]
    simp only [smul_eq_mul]; ring
  fin_cases i <;> fin_cases j <;> fin_cases k <;> simp [warp, e, h1]

theorem warp_conn {f : Fun 2} (hf : f ≠ 0) (h1 : partialD 1 f = 0) (h0 : partialD 0 f ≠ 0) :
    ∃ conn, connOf (fun i => partialD i) (warp f) none = some conn ∧
      IsConnection (warp f) conn (warpΓ f) := by
  have hc : connectFlg (fun i => partialD i) (warp f) = true := by
    by_contra h
    rw [Bool.not_eq_true, connectFlg_false] at h
    have := h 1 1 0
    rw [warp_d h1, if_pos ⟨rfl, rfl, rfl⟩] at this
    exact mul_ne_zero (mul_ne_zero two_ne_zero hf) h0 this
  obtain ⟨rb, hrb⟩ := rBasis_isSome (warp_ortho f) fun i => by
    fin_cases i <;> simp [warp, hf]
  have hd : de (fun i => partialD i) (warp f) none =
      some (deEntry (fun i => partialD i) (warp f) none rb) := by
    rw [de, if_neg (by simp), if_neg (by simp), currentMetric, hrb, Option.bind_some,
      if_neg (by simp [warp_ortho])]
  refine ⟨some (deEntry (fun i => partialD i) (warp f) none rb), ?_, ?_⟩
  · rw [connOf, if_pos hc, hd]; rfl
  obtain ⟨Γ, h2, -, h3, -⟩ := de_spec (warp_symm f) partialD hd
  have e : Γ = warpΓ f := by
    have t2 : (2 : Fun 2) * ⅟2 = 1 := mul_invOf_self 2
    have key : ∀ i j l, Γ i l j * warp f l l = gamma1 (fun i => partialD i) (warp f) i j l := by
      intro i j l
      rw [← h3 rfl i j l, Finset.sum_eq_single l]
      · intro k _ hk
        rw [warp, Matrix.diagonal_apply_ne _ hk, mul_zero]
      · simp
    have w0 : warp f 0 0 = 1 := by simp [warp]
    have w1 : warp f 1 1 = f ^ 2 := by simp [warp]
    have f2 : f ^ 2 ≠ 0 := pow_ne_zero 2 hf
    have k0 : ∀ i j, Γ i 0 j = gamma1 (fun i => partialD i) (warp f) i j 0 := by
      intro i j; rw [← key i j 0, w0, mul_one]
    have k1 : ∀ i j, Γ i 1 j = gamma1 (fun i => partialD i) (warp f) i j 1 / f ^ 2 := by
      intro i j; rw [eq_div_iff f2, ← key i j 1, w1]
    funext i
    ext l j
    fin_cases l
    · change Γ i 0 j = warpΓ f i 0 j
      rw [k0]
      simp only [gamma1, dg, warp_d h1]
      fin_cases i <;> fin_cases j <;> simp [warpΓ]
      ring
    · change Γ i 1 j = warpΓ f i 1 j
      rw [k1]
      simp only [gamma1, dg, warp_d h1]
      fin_cases i <;> fin_cases j <;> simp [warpΓ]
      all_goals
        field_simp
  exact e ▸ h2

/-- The second derivatives of vector fields. -/
theorem warp_curvature {f : Fun 2} (hf : f ≠ 0) (h1 : partialD 1 f = 0) (v : Fin 2 → Fun 2) :
    Spec.dvec (partialD 0) (warpΓ f 0) (Spec.dvec (partialD 1) (warpΓ f 1) v) -
      Spec.dvec (partialD 1) (warpΓ f 1) (Spec.dvec (partialD 0) (warpΓ f 0) v) =
    ![-(f * partialD 0 (partialD 0 f)) * v 1, partialD 0 (partialD 0 f) / f * v 0] := by
  have h1' : partialD 1 (partialD 0 f) = 0 := by rw [partialD_comm, h1, map_zero]
  have d0 : partialD 0 (partialD 0 f / f) =
      (partialD 0 (partialD 0 f) * f - partialD 0 f ^ 2) / f ^ 2 := by
    have e : partialD 0 (partialD 0 f / f * f) = partialD 0 (partialD 0 f) := by
      rw [div_mul_cancel₀ _ hf]
    rw [Derivation.leibniz] at e
    simp only [smul_eq_mul] at e
    rw [eq_div_iff (pow_ne_zero 2 hf)]
    have e2 : partialD 0 f / f * f = partialD 0 f := div_mul_cancel₀ _ hf
    linear_combination f * e - partialD 0 f * e2
  have d1 : partialD 1 (partialD 0 f / f) = 0 := by
    have e : partialD 1 (partialD 0 f / f * f) = 0 := by
      rw [div_mul_cancel₀ _ hf, h1']
    rw [Derivation.leibniz, h1, smul_zero, zero_add, smul_eq_mul] at e
    exact (mul_eq_zero.mp e).resolve_left hf
  funext j
  fin_cases j
  · simp only [Spec.dvec, warpΓ, Fin.sum_univ_two, Pi.sub_apply]
    simp only [Fin.zero_eta, Matrix.of_apply, Matrix.cons_val_zero, Matrix.cons_val_one, map_add, map_neg,
      Derivation.leibniz, smul_eq_mul, h1, h1', d0, d1, map_zero, zero_mul, neg_mul, zero_add,
      Matrix.cons_val', Matrix.cons_val_fin_one, mul_zero, smul_zero, add_zero,
      partialD_comm 0 1]
    field_simp
    ring
  · simp only [Spec.dvec, warpΓ, Fin.sum_univ_two, Pi.sub_apply]
    simp only [Fin.mk_one, Matrix.of_apply, Matrix.cons_val_zero, Matrix.cons_val_one, map_add, map_neg,
      Derivation.leibniz, smul_eq_mul, h1, h1', d0, d1, map_zero, zero_mul, neg_mul, zero_add,
      Matrix.cons_val', Matrix.cons_val_fin_one, mul_zero, smul_zero, add_zero,
      partialD_comm 0 1]
    field_simp
    ring

end GA.Ex
