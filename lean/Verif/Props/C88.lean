import Verif.Proofs.Div
import Verif.Props.C60
import Verif.Props.C42Scalar

/-!
# C88: divergence and Laplacian

As in C60, `grad = gradDop l false` in the algebra constructed with the metric tensor `g0`, with or without
`norm=True` (`N`).  The tangent vector of coordinate `i` is `scaleOf N i` times basis vector `i`, so
`Mv.vector fun i => a i * scaleOf N i` is the vector field with components `a` in the tangent vectors.
-/

set_option linter.unusedSectionVars false
set_option maxRecDepth 10000

namespace GA
variable {n : ℕ} {K : Type*} [Field K] [DecidableEq K] [Invertible (2 : K)]

section
variable {g0 : Matrix (Fin n) (Fin n) K} {D : Fin n → Derivation ℤ K K} {N : Option (Fin n → K)}
  {conn : Option (Fin n → Fin n → Expr K n)} {l : List (Mv K n)}

variable (hs : g0.IsSymm)
  (hN : ∀ N', N = some N' → ∀ i, N' i ^ 2 = g0 i i ∨ N' i ^ 2 = - g0 i i)
  (hO : N.isSome → isOrtho g0 = true) (h : connOf (fun i => D i) g0 N = some conn)
  (hl : gradVecs g0 N = some l)
include hs hN hO h hl

/-- C88: the divergence `grad|v` (or `grad<v`) of the vector field with components `a` in the tangent vectors is
the scalar `∑ᵢ (∂ᵢ aᵢ + aᵢ ∂ᵢ(det g) / (2 det g))`, `g` the metric tensor of the tangent vectors. -/
theorem C88_div (op : ProdOp) (ho : op = .inner ∨ op = .left) (a : Fin n → K) : g0.det ≠ 0 ∧ ∃ G,
    (gradDop l false).mulMv (Fields.ofMetric (fun i => D i) g0 N conn) op
      (Mv.vector fun i => a i * scaleOf N i) = .inl G ∧
    G.eq (currentMetric N g0) (Mv.scalarMv (∑ i, (D i (a i) + a i * (D i g0.det / (2 * g0.det))))) = true := by
  obtain ⟨Γ, u, hr, hg, -⟩ := grad_env hs hN hO h hl
  have hsc := currentMetric_symm hs N
  obtain ⟨hd, hv⟩ := recip_volume hr
  refine ⟨hd, ?_⟩
  obtain ⟨G, h1, h2⟩ := hg op (Rep.vector fun i => a i * scaleOf N i)
  refine ⟨G, h1, ?_⟩
  have hdiv := hr.div a
  simp only [hv] at hdiv
  rw [h2.eq_iff hsc (Rep.scalarMv _), ← hdiv, map_sum]
  refine Finset.sum_congr rfl fun i _ => ?_
  rw [Spec.deriv_vec]
  rcases ho with rfl | rfl
  · exact Spec.hestenesDot_vec_ip _ _
  · exact (Spec.lc_vec _ _).trans (Spec.con_vec _ _)

/-- C88: with a root `w` of the determinant of the metric tensor or of its negative, the divergence of the field
with components `a` is `(1/w) ∑ᵢ ∂ᵢ (w aᵢ)`. -/
theorem C88_div_root (op : ProdOp) (ho : op = .inner ∨ op = .left) (a : Fin n → K) {w : K}
    (hw : w ^ 2 = g0.det ∨ w ^ 2 = - g0.det) : w ≠ 0 ∧ ∃ G,
    (gradDop l false).mulMv (Fields.ofMetric (fun i => D i) g0 N conn) op
      (Mv.vector fun i => a i * scaleOf N i) = .inl G ∧
    G.eq (currentMetric N g0) (Mv.scalarMv (w⁻¹ * ∑ i, D i (w * a i))) = true := by
  obtain ⟨hd, G, h1, h2⟩ := C88_div hs hN hO h hl op ho a
  have h5 : (2 : K) ≠ 0 := Invertible.ne_zero 2
  have hw0 : w ≠ 0 := by
    rintro rfl
    rcases hw with hw | hw
    · exact hd (by rw [← hw]; ring)
    · exact hd (by rw [← neg_eq_zero, ← hw]; ring)
  refine ⟨hw0, G, h1, ?_⟩
  have e : ∀ i, D i g0.det / (2 * g0.det) = w⁻¹ * D i w := by
    intro i
    rcases hw with hw | hw
    · rw [← hw, Derivation.leibniz_pow]
      simp only [smul_eq_mul, nsmul_eq_mul]
      field_simp
      push_cast; ring
    · have : g0.det = - w ^ 2 := by rw [hw, neg_neg]
      rw [this, map_neg, Derivation.leibniz_pow]
      simp only [smul_eq_mul, nsmul_eq_mul]
      field_simp
      push_cast; ring
  have : w⁻¹ * ∑ i, D i (w * a i) = ∑ i, (D i (a i) + a i * (D i g0.det / (2 * g0.det))) := by
    rw [Finset.mul_sum]
    refine Finset.sum_congr rfl fun i _ => ?_
    rw [e, Derivation.leibniz]
    simp only [smul_eq_mul]
    field_simp
  rw [this]
  exact h2

theorem gradDop_wf : (gradDop l false).WF (Fields.ofMetric (fun i => D i) g0 N conn) := by
  obtain ⟨Γ, u, hr, -, -, hc, hlen, hu⟩ := grad_env hs hN hO h hl
  intro t ht
  simp only [gradDop] at ht
  have h1 := List.of_mem_zip (show (t.1, t.2) ∈ _ from ht)
  obtain ⟨i, -, hi⟩ := List.mem_map.mp h1.2
  refine ⟨?_, by rw [← hi]; exact Pdop.wf_single i⟩
  obtain ⟨k, hk, e⟩ := List.getElem_of_mem h1.1
  have := hu ⟨k, hlen ▸ hk⟩
  rw [show l.getD k Mv.zero = t.1 by rw [← e]; simp [List.getD_eq_getElem?_getD, hk]] at this
  exact this.good

/-- C88: the Laplacian `grad*(grad*f)` of a scalar field `f` is the scalar of Laplace and Beltrami,
`∑ᵢ (∂ᵢ aᵢ + aᵢ ∂ᵢ(det g) / (2 det g))` with `aᵢ = ∑ⱼ gⁱʲ ∂ⱼ f`; the operator `grad*grad` gives the same. -/
theorem C88_laplacian (hD : ∀ i j f, D i (D j f) = D j (D i f)) (f : K) : ∃ L G H I,
    Dop.mul (Fields.ofMetric (fun i => D i) g0 N conn) .geo (gradDop l false) (gradDop l false) = some L ∧
    (gradDop l false).mulMv (Fields.ofMetric (fun i => D i) g0 N conn) .geo (Mv.scalarMv f) = .inl G ∧
    (gradDop l false).mulMv (Fields.ofMetric (fun i => D i) g0 N conn) .geo G = .inl H ∧
    L.mulMv (Fields.ofMetric (fun i => D i) g0 N conn) .geo (Mv.scalarMv f) = .inl I ∧
    H.eq (currentMetric N g0) (Mv.scalarMv (∑ i, (D i ((g0⁻¹.mulVec fun j => D j f) i) +
      (g0⁻¹.mulVec fun j => D j f) i * (D i g0.det / (2 * g0.det))))) = true ∧
    I.eq (currentMetric N g0) H = true := by
  have hsc := currentMetric_symm hs N
  obtain ⟨L, G, H, I, k1, k2, k3, k4, k5⟩ := C42_mul_scalar hs hN h hD (Or.inl rfl) f
    (gradDop_wf hs hN hO h hl) (gradDop_wf hs hN hO h hl) rfl rfl
  refine ⟨L, G, H, I, k1, k2, k3, k4, ?_, k5⟩
  obtain ⟨Γ, u, hr, hg, -⟩ := grad_env hs hN hO h hl
  obtain ⟨hd, hv⟩ := recip_volume hr
  set a := g0⁻¹.mulVec fun j => D j f with ha
  obtain ⟨G', h1, h2⟩ := hg .geo (Rep.scalarMv f)
  have eG : G' = G := by rw [h1] at k2; exact Sum.inl.inj k2
  subst eG
  have e : ∑ i, opS (currentMetric N g0) .geo (Spec.vec (currentMetric N g0) (u i))
      (Spec.deriv (currentMetric N g0) (D i) (Γ i) (algebraMap K _ f)) =
      Spec.dS (currentMetric N g0) D Γ u (algebraMap K _ f) := by
    refine Finset.sum_congr rfl fun j _ => ?_
    rw [Spec.deriv_algebraMap, opS_geo, ← Algebra.commutes, ← Algebra.smul_def,
      Algebra.algebraMap_eq_smul_one, Spec.wedge_smul, Spec.wedge_one]
  have e2 : Spec.dS (currentMetric N g0) D Γ u (algebraMap K _ f) =
      Spec.vec (currentMetric N g0) fun i => a i * scaleOf N i := by
    have e3 : Spec.dS (currentMetric N g0) D Γ u (algebraMap K _ f) =
        Spec.vec (currentMetric N g0) (∑ i, D i f • u i) := by
      rw [Spec.vec, map_sum]
      refine Finset.sum_congr rfl fun j _ => ?_
      rw [Spec.deriv_algebraMap, Algebra.algebraMap_eq_smul_one, Spec.wedge_smul, Spec.wedge_one, map_smul]
      rfl
    rw [e3]
    congr 1
    have hg0 : g0.mulVec a = fun j => D j f := by
      rw [ha, Matrix.mulVec_mulVec, Matrix.mul_nonsing_inv _ ((isUnit_iff_ne_zero).mpr hd), Matrix.one_mulVec]
    conv_rhs => rw [hr.expand fun i => a i * scaleOf N i]
    refine Finset.sum_congr rfl fun k _ => ?_
    congr 1
    rw [Spec.ip_comm, Spec.ip_dotProduct hsc, ← congrFun hg0 k, Matrix.mulVec, dotProduct, Finset.mul_sum]
    refine Finset.sum_congr rfl fun i _ => ?_
    rw [Spec.ip_dot hsc, single_one_dotProduct, Matrix.mulVec_single_one]
    have h3 := hr.ne k
    have h4 := hr.ne i
    rw [Matrix.col_apply]
    cases N with
    | none => simp [scaleOf, currentMetric, hs.apply, mul_comm]
    | some N =>
      simp only [scaleOf, Option.getD_some] at h3 h4
      simp only [scaleOf, currentMetric, normMetric, Option.getD_some, Matrix.of_apply]
      rw [← hs.apply i k]
      field_simp
  rw [e, e2] at h2
  obtain ⟨H', h3, h4⟩ := hg .geo h2
  have eH : H' = H := by rw [h3] at k3; exact Sum.inl.inj k3
  subst eH
  have hdiv := hr.div a
  simp only [hv] at hdiv
  rw [h4.eq_iff hsc (Rep.scalarMv _), ← hdiv, map_sum]
  have h6 : Spec.dS (currentMetric N g0) D Γ u (Spec.vec (currentMetric N g0) fun i => a i * scaleOf N i) = 0 := by
    rw [← e2]; exact hr.dS_dS hD _
  calc ∑ i, opS (currentMetric N g0) .geo (Spec.vec (currentMetric N g0) (u i))
        (Spec.deriv (currentMetric N g0) (D i) (Γ i) (Spec.vec (currentMetric N g0) fun i => a i * scaleOf N i))
      = (∑ i, algebraMap K _ (Spec.ip (currentMetric N g0) (u i)
          (Spec.dvec (D i) (Γ i) fun j => a j * scaleOf N j))) +
        Spec.dS (currentMetric N g0) D Γ u (Spec.vec (currentMetric N g0) fun i => a i * scaleOf N i) := by
        rw [Spec.dS, ← Finset.sum_add_distrib]
        refine Finset.sum_congr rfl fun i _ => ?_
        rw [opS_geo, Spec.vec_mul, Spec.deriv_vec]
        congr 1
        exact Spec.con_vec _ _
    _ = _ := by rw [h6, add_zero]

/-- C88: the divergence of a divergence vanishes, `grad<(grad<F) = 0`, for every multivector field in every space. -/
theorem C88_div_div (hD : ∀ i j f, D i (D j f) = D j (D i f)) {F : Mv K n}
    (hF : F.WF (currentMetric N g0)) (hF' : F.isBladeRep = true) : ∃ G H,
    (gradDop l false).mulMv (Fields.ofMetric (fun i => D i) g0 N conn) .left F = .inl G ∧
    (gradDop l false).mulMv (Fields.ofMetric (fun i => D i) g0 N conn) .left G = .inl H ∧
    H.eq (currentMetric N g0) Mv.zero = true := by
  obtain ⟨Γ, u, hr, hg, -⟩ := grad_env hs hN hO h hl
  have hsc := currentMetric_symm hs N
  obtain ⟨G, h1, h2⟩ := hg .left (Rep.of_wf hF hF')
  obtain ⟨H, h3, h4⟩ := hg .left h2
  refine ⟨G, H, h1, h3, ?_⟩
  rw [h4.eq_iff hsc Rep.zero]
  have e : ∀ x, ∑ i, opS (currentMetric N g0) .left (Spec.vec (currentMetric N g0) (u i))
      (Spec.deriv (currentMetric N g0) (D i) (Γ i) x) = Spec.cS (currentMetric N g0) D Γ u x := fun x =>
    Finset.sum_congr rfl fun i _ => Spec.lc_vec _ _
  rw [e, e]
  exact hr.cS_cS hD _

/-- C88: the Laplacian `grad*(grad*F)` of a multivector field is `grad<(grad^F) + grad^(grad<F)`, so that it keeps
the grade. -/
theorem C88_laplacian_split (hD : ∀ i j f, D i (D j f) = D j (D i f)) {F : Mv K n}
    (hF : F.WF (currentMetric N g0)) (hF' : F.isBladeRep = true) : ∃ G H A B C E,
    (gradDop l false).mulMv (Fields.ofMetric (fun i => D i) g0 N conn) .geo F = .inl G ∧
    (gradDop l false).mulMv (Fields.ofMetric (fun i => D i) g0 N conn) .geo G = .inl H ∧
    (gradDop l false).mulMv (Fields.ofMetric (fun i => D i) g0 N conn) .outer F = .inl A ∧
    (gradDop l false).mulMv (Fields.ofMetric (fun i => D i) g0 N conn) .left A = .inl B ∧
    (gradDop l false).mulMv (Fields.ofMetric (fun i => D i) g0 N conn) .left F = .inl C ∧
    (gradDop l false).mulMv (Fields.ofMetric (fun i => D i) g0 N conn) .outer C = .inl E ∧
    H.eq (currentMetric N g0) (B.add (currentMetric N g0) E) = true ∧
    ∀ r, Spec.Homogeneous (currentMetric N g0) r (F.val (currentMetric N g0)) →
      Spec.Homogeneous (currentMetric N g0) r (H.val (currentMetric N g0)) := by
  obtain ⟨Γ, u, hr, hg, -⟩ := grad_env hs hN hO h hl
  have hsc := currentMetric_symm hs N
  have rF := Rep.of_wf hF hF'
  obtain ⟨G, h1, h2⟩ := hg .geo rF
  obtain ⟨H, h3, h4⟩ := hg .geo h2
  obtain ⟨A, h5, h6⟩ := hg .outer rF
  obtain ⟨B, h7, h8⟩ := hg .left h6
  obtain ⟨C, h9, h10⟩ := hg .left rF
  obtain ⟨E, h11, h12⟩ := hg .outer h10
  have e : ∀ x, ∑ i, opS (currentMetric N g0) .left (Spec.vec (currentMetric N g0) (u i))
      (Spec.deriv (currentMetric N g0) (D i) (Γ i) x) = Spec.cS (currentMetric N g0) D Γ u x := fun x =>
    Finset.sum_congr rfl fun i _ => Spec.lc_vec _ _
  have e' : ∀ x, ∑ i, opS (currentMetric N g0) .outer (Spec.vec (currentMetric N g0) (u i))
      (Spec.deriv (currentMetric N g0) (D i) (Γ i) x) = Spec.dS (currentMetric N g0) D Γ u x := fun x => rfl
  have e'' : ∀ x, ∑ i, opS (currentMetric N g0) .geo (Spec.vec (currentMetric N g0) (u i))
      (Spec.deriv (currentMetric N g0) (D i) (Γ i) x) =
      Spec.cS (currentMetric N g0) D Γ u x + Spec.dS (currentMetric N g0) D Γ u x := fun x => by
    rw [Spec.cS, Spec.dS, ← Finset.sum_add_distrib]
    exact Finset.sum_congr rfl fun i _ => Spec.vec_mul _ _
  have cadd : ∀ x y, Spec.cS (currentMetric N g0) D Γ u (x + y) =
      Spec.cS (currentMetric N g0) D Γ u x + Spec.cS (currentMetric N g0) D Γ u y := fun x y => by
    simp only [Spec.cS, Spec.deriv_add, map_add, Finset.sum_add_distrib]
  have key : ∑ i, opS (currentMetric N g0) .geo (Spec.vec (currentMetric N g0) (u i))
      (Spec.deriv (currentMetric N g0) (D i) (Γ i) (∑ i, opS (currentMetric N g0) .geo
        (Spec.vec (currentMetric N g0) (u i)) (Spec.deriv (currentMetric N g0) (D i) (Γ i)
          (F.val (currentMetric N g0))))) =
      Spec.cS (currentMetric N g0) D Γ u (Spec.dS (currentMetric N g0) D Γ u (F.val (currentMetric N g0))) +
      Spec.dS (currentMetric N g0) D Γ u (Spec.cS (currentMetric N g0) D Γ u (F.val (currentMetric N g0))) := by
    rw [e'', e'', cadd, Spec.dS_add, hr.cS_cS hD, hr.dS_dS hD, zero_add, add_zero]
  rw [e'] at h6
  rw [e', e] at h8
  rw [e] at h10
  rw [e, e'] at h12
  refine ⟨G, H, A, B, C, E, h1, h3, h5, h7, h9, h11, ?_, fun r hFr => ?_⟩
  · rw [h4.eq_iff hsc (Rep.add hsc h8 h12), key]
  · rw [h4.val, key]
    refine Spec.Homogeneous.add ?_ ?_
    · refine Spec.homogeneous_cS (r := r + 1) ?_
      exact Spec.homogeneous_dS hFr
    · rcases Nat.eq_zero_or_pos r with rfl | hr0
      · rw [Spec.cS_homogeneous_zero hFr, Spec.dS_zero]; exact Spec.homogeneous_zero _
      · have := Spec.homogeneous_dS (D := D) (Γ := Γ) (u := u) (Spec.homogeneous_cS (D := D) (Γ := Γ) (u := u)
          (r := r) hFr)
        rwa [Nat.sub_add_cancel hr0] at this

end

/-! ### Concrete cases -/

namespace Ex

/-- Polar coordinates meet the hypotheses, normalised or not (see C60); the divergence of the field with components
`a` is `∂_r a_r + ∂_θ a_θ + a_r / r`. -/
example (N : Option (Fin 2 → Fun 2)) (hN : N = none ∨ N = some polarN) (a : Fin 2 → Fun 2) :
    ∃ conn l G, connOf (fun i => partialD i) polar N = some conn ∧ gradVecs polar N = some l ∧
      (gradDop l false).mulMv (Fields.ofMetric (fun i => partialD i) polar N conn) .inner
        (Mv.vector fun i => a i * scaleOf N i) = .inl G ∧
      G.eq (currentMetric N polar) (Mv.scalarMv (partialD 0 (a 0) + a 0 / coord 0 + partialD 1 (a 1))) = true := by
  obtain ⟨d, hd⟩ := polar_de N hN
  have hsq : ∀ N', N = some N' → ∀ i, N' i ^ 2 = polar i i ∨ N' i ^ 2 = - polar i i := by
    rcases hN with rfl | rfl
    · exact fun _ h => by cases h
    · exact polarN_sq
  have h0 := coord_ne_zero (n := 2) 0
  have hdet : polar.det = coord 0 ^ 2 := by simp [polar, Matrix.det_diagonal, Fin.prod_univ_two]
  have hc : connOf (fun i => partialD i) polar N = some (some d) := by
    rw [connOf, if_pos polar_connect, hd]; rfl
  obtain ⟨l, hl⟩ := Option.isSome_iff_exists.mp (C60_exists polar_symm
    (by rw [hdet]; exact pow_ne_zero 2 h0) hsq fun _ => polar_ortho)
  obtain ⟨-, G, h1, h2⟩ := C88_div_root polar_symm hsq (fun _ => polar_ortho) hc hl .inner (Or.inl rfl) a
    (w := coord 0) (Or.inl hdet.symm)
  refine ⟨some d, l, G, hc, hl, h1, ?_⟩
  have e : (coord 0)⁻¹ * ∑ i : Fin 2, partialD i (coord 0 * a i) =
      partialD 0 (a 0) + a 0 / coord 0 + partialD 1 (a 1) := by
    rw [Fin.sum_univ_two, Derivation.leibniz, Derivation.leibniz, partialD_coord, partialD_coord]
    simp only [smul_eq_mul, if_true, Fin.isValue, one_ne_zero, if_false]
    field_simp
    ring
  rw [← e]
  exact h2

/-- The hypotheses of the theorems about repeated derivatives are met on a curved surface. -/
example : ∃ conn l, (warp (coord 0 ^ 2)).IsSymm ∧ connOf (fun i => partialD i) (warp (coord 0 ^ 2)) none = some conn ∧
    conn.isSome = true ∧ gradVecs (warp (coord 0 ^ 2)) none = some l ∧
    ∀ i j f, partialD (n := 2) i (partialD j f) = partialD j (partialD i f) := by
  obtain ⟨conn, h1, h2⟩ := curved_conn
  have hdet : (warp (coord 0 ^ 2)).det ≠ 0 := by
    have := coord_ne_zero (n := 2) 0
    simp [warp, Matrix.det_diagonal, Fin.prod_univ_two, this]
  obtain ⟨l, hl⟩ := Option.isSome_iff_exists.mp (C60_exists (N := none) (warp_symm (coord 0 ^ 2)) hdet
    (by simp) (by simp))
  exact ⟨conn, l, warp_symm _, h1, h2, hl, partialD_comm⟩

end Ex

end GA
