import Verif.Proofs.Curl
import Verif.Props.C42

/-!
# C60: the gradient operators

`gradVecs g0 N = some l` says that `Ga.grads()` builds the operators `grad = gradDop l false` and
`rgrad = gradDop l true`; `g0` is the metric tensor given by the user, `N = some e_norm` if the algebra is
constructed with `norm=True`.  The tangent vector of coordinate `j` is `scaleOf N j` times the basis vector `j`.
An algebra with `norm=True` and a metric that is not diagonal cannot be constructed, hence `hO`.
-/

set_option linter.unusedSectionVars false
set_option maxRecDepth 10000

namespace GA
variable {n : ℕ} {K : Type*} [Field K] [DecidableEq K] [Invertible (2 : K)]

section opS
variable {g : Matrix (Fin n) (Fin n) K}

theorem opS_geo (x y : Spec.Cl g) : opS g .geo x y = x * y := rfl

theorem gradedProduct_smul_left (f : ℕ → ℕ → Option ℕ) (c : K) (x y : Spec.Cl g) :
    Spec.gradedProduct g f (c • x) y = c • Spec.gradedProduct g f x y := by
  simp only [Spec.gradedProduct, Finset.smul_sum]
  refine Finset.sum_congr rfl fun r _ => Finset.sum_congr rfl fun s _ => ?_
  cases f r s with
  | none => simp
  | some t => simp only [map_smul, smul_mul_assoc]

theorem gradedProduct_smul_right (f : ℕ → ℕ → Option ℕ) (c : K) (x y : Spec.Cl g) :
    Spec.gradedProduct g f x (c • y) = c • Spec.gradedProduct g f x y := by
  simp only [Spec.gradedProduct, Finset.smul_sum]
  refine Finset.sum_congr rfl fun r _ => Finset.sum_congr rfl fun s _ => ?_
  cases f r s with
  | none => simp
  | some t => simp only [map_smul, mul_smul_comm]

theorem opS_smul_left (op : ProdOp) (c : K) (x y : Spec.Cl g) :
    opS g op (c • x) y = c • opS g op x y := by
  cases op
  · exact smul_mul_assoc c x y
  · exact Spec.smul_wedge c x y
  all_goals exact gradedProduct_smul_left _ c x y

theorem opS_smul_right (op : ProdOp) (c : K) (x y : Spec.Cl g) :
    opS g op x (c • y) = c • opS g op x y := by
  cases op
  · exact mul_smul_comm c x y
  · exact Spec.wedge_smul c x y
  all_goals exact gradedProduct_smul_right _ c x y

theorem opS_sum_left (op : ProdOp) {ι : Type*} (s : Finset ι) (f : ι → Spec.Cl g) (y : Spec.Cl g) :
    opS g op (∑ i ∈ s, f i) y = ∑ i ∈ s, opS g op (f i) y := by
  classical
  induction s using Finset.induction_on with
  | empty => simp [opS_zero_left]
  | insert i s hi ih => rw [Finset.sum_insert hi, Finset.sum_insert hi, opS_add_left, ih]

end opS

section
variable {g0 : Matrix (Fin n) (Fin n) K} {D : Fin n → Derivation ℤ K K} {N : Option (Fin n → K)}
  {conn : Option (Fin n → Fin n → Expr K n)} {l : List (Mv K n)}

/-- C60: the gradient operators exist if the metric tensor is invertible. -/
theorem C60_exists (hs : g0.IsSymm) (hd : g0.det ≠ 0)
    (hN : ∀ N', N = some N' → ∀ i, N' i ^ 2 = g0 i i ∨ N' i ^ 2 = - g0 i i)
    (hO : N.isSome → isOrtho g0 = true) : (gradVecs g0 N).isSome = true := by
  cases N with
  | none =>
    have := C21_exists hs hd true
    have hcm : currentMetric none g0 = g0 := rfl
    rw [mvr] at this
    rw [gradVecs, hcm]
    by_cases ho : isOrtho g0 = true
    · rw [if_neg (by simp [ho])] at this
      obtain ⟨r, hr⟩ := Option.isSome_iff_exists.mp this
      rw [hr]
      simp [ho]
    · rw [if_pos (by simp [ho])] at this
      simpa [hcm, ho] using this
  | some M =>
    have ho := hO rfl
    have hg : ∀ i, g0 i i ≠ 0 := by
      intro i hi
      apply hd
      rw [isOrtho_iff] at ho
      have : g0 = Matrix.diagonal fun i => g0 i i := by
        ext a b
        by_cases hab : a = b
        · subst hab; simp
        · rw [Matrix.diagonal_apply_ne _ hab]
          rcases lt_or_gt_of_ne hab with h | h
          · exact ho a b h
          · rw [← hs.apply]; exact ho b a h
      rw [this, Matrix.det_diagonal]
      exact Finset.prod_eq_zero (Finset.mem_univ i) hi
    have hM : ∀ i, M i ≠ 0 := by
      intro i hi
      rcases hN M rfl i with h | h
      · rw [hi] at h; exact hg i (by rw [← h]; ring)
      · rw [hi] at h; exact hg i (by rw [← neg_eq_zero, ← h]; ring)
    have hoc : isOrtho (currentMetric (some M) g0) = true := by
      rw [isOrtho_iff] at ho ⊢
      intro i j hij
      simp [currentMetric, normMetric, ho i j hij]
    have hr : (rBasisMv (currentMetric (some M) g0)).isSome = true := by
      rw [rBasisMv, Option.isSome_map, rBasis, if_pos hoc]
      refine mapM_some _ _ fun i _ => ?_
      rw [if_neg]; · rfl
      simp [currentMetric, normMetric, hg, hM]
    obtain ⟨r, hr⟩ := Option.isSome_iff_exists.mp hr
    rw [gradVecs, hr]
    refine mapM_some _ _ fun p hp => ?_
    have : p.2 ≠ 0 := by
      obtain ⟨i, hi⟩ := List.mem_ofFn.mp (List.of_mem_zip hp).2
      rw [← hi]; exact hM i
    rw [Mv.divScalar, if_neg this]; rfl

/-- C60: the vectors of the gradient are reciprocal to the tangent vectors of the coordinates. -/
theorem C60_reciprocal (hs : g0.IsSymm) (hO : N.isSome → isOrtho g0 = true)
    (hl : gradVecs g0 N = some l) : l.length = n ∧ ∀ i j : Fin n,
      Spec.Homogeneous (currentMetric N g0) 1 ((l.getD j Mv.zero).val (currentMetric N g0)) ∧
      ((Mv.vector (Pi.single i (scaleOf N i))).dot (currentMetric N g0) (l.getD j Mv.zero)).eq
        (currentMetric N g0) (Mv.scalarMv (if i = j then 1 else 0)) = true := by
  obtain ⟨h1, h2, u, hu⟩ := gradVecs_rep hs hO hl
  refine ⟨h1, fun i j => ⟨by rw [(hu j).1.val]; exact Spec.homogeneous_vec _, ?_⟩⟩
  have hsc := currentMetric_symm hs N
  rw [(Rep.dot hsc (Rep.vector _) (hu j).1).eq_iff hsc (Rep.scalarMv _), Spec.hestenesDot_vec_ip]
  congr 1
  rw [show (Pi.single i (scaleOf N i) : Fin n → K) = scaleOf N i • Pi.single i 1 by
    rw [← Pi.single_smul, smul_eq_mul, mul_one], Spec.ip, map_smul, LinearMap.smul_apply, ← Spec.ip,
    (hu j).2 i, smul_eq_mul]
  split_ifs with hij
  · rw [hij, mul_inv_cancel₀ (h2 j)]
  · rw [mul_zero]

variable (hs : g0.IsSymm)
  (hN : ∀ N', N = some N' → ∀ i, N' i ^ 2 = g0 i i ∨ N' i ^ 2 = - g0 i i)
  (hO : N.isSome → isOrtho g0 = true) (h : connOf (fun i => D i) g0 N = some conn)
  (hl : gradVecs g0 N = some l)
include hs hN hO h hl

/-- Values of the gradient. -/
theorem grad_env : ∃ (Γ : Fin n → Matrix (Fin n) (Fin n) K) (u : Fin n → Fin n → K),
    Spec.Recip (currentMetric N g0) D Γ (scaleOf N) u ∧
    (∀ (op : ProdOp) {F : Mv K n} {x}, Rep (currentMetric N g0) F x → ∃ G,
      (gradDop l false).mulMv (Fields.ofMetric (fun i => D i) g0 N conn) op F = .inl G ∧
      Rep (currentMetric N g0) G (∑ i, opS (currentMetric N g0) op (Spec.vec (currentMetric N g0) (u i))
        (Spec.deriv (currentMetric N g0) (D i) (Γ i) x))) ∧
    (∀ (op : ProdOp) {F : Mv K n} {x}, Rep (currentMetric N g0) F x → ∃ G,
      Dop.mvMul (Fields.ofMetric (fun i => D i) g0 N conn) op F (gradDop l true) = .inl G ∧
      Rep (currentMetric N g0) G (∑ i, opS (currentMetric N g0) op
        (Spec.deriv (currentMetric N g0) (D i) (Γ i) x) (Spec.vec (currentMetric N g0) (u i)))) ∧
    IsConnection (currentMetric N g0) conn Γ ∧ l.length = n ∧
    (∀ j : Fin n, Rep (currentMetric N g0) (l.getD j Mv.zero) (Spec.vec (currentMetric N g0) (u j))) := by
  obtain ⟨h1, h2, u, hu⟩ := gradVecs_rep hs hO hl
  obtain ⟨Γ, h3, h4, h5⟩ := connOf_torsion hs D hN hl hO h
  have hsc := currentMetric_symm hs N
  refine ⟨Γ, u, ⟨hsc, h2, fun i j => (hu j).2 i, h4, h5⟩, fun op F x hF => ?_, fun op F x hF => ?_, h3, h1,
    fun j => (hu j).1⟩
  · exact gradDop_mulMv (X := Fields.ofMetric (fun i => D i) g0 N conn) hsc (fun _ => rfl) (fun _ => rfl) h3 op
      h1 (fun j => (hu j).1) hF
  · exact gradDop_mvMul (X := Fields.ofMetric (fun i => D i) g0 N conn) hsc (fun _ => rfl) (fun _ => rfl) h3 op
      h1 (fun j => (hu j).1) hF

/-- C60: the gradient of a scalar field `f` is the vector whose inner product with every tangent vector is the
derivative of `f` by the coordinate. -/
theorem C60_scalar_field (f : K) : ∃ G,
    (gradDop l false).mulMv (Fields.ofMetric (fun i => D i) g0 N conn) .geo (Mv.scalarMv f) = .inl G ∧
      Spec.Homogeneous (currentMetric N g0) 1 (G.val (currentMetric N g0)) ∧
      ∀ j, ((Mv.vector (Pi.single j (scaleOf N j))).dot (currentMetric N g0) G).eq (currentMetric N g0)
        (Mv.scalarMv (D j f)) = true := by
  obtain ⟨Γ, u, hr, hg, -⟩ := grad_env hs hN hO h hl
  have hsc := currentMetric_symm hs N
  obtain ⟨G, h1, h2⟩ := hg .geo (Rep.scalarMv f)
  have e : ∑ i, opS (currentMetric N g0) .geo (Spec.vec (currentMetric N g0) (u i))
      (Spec.deriv (currentMetric N g0) (D i) (Γ i) (algebraMap K _ f)) =
      Spec.vec (currentMetric N g0) (∑ i, D i f • u i) := by
    rw [Spec.vec, map_sum]
    refine Finset.sum_congr rfl fun i _ => ?_
    rw [Spec.deriv_algebraMap, opS_geo, ← Algebra.commutes, ← Algebra.smul_def, map_smul]
    rfl
  replace h2 := h2.congr e
  refine ⟨G, h1, by rw [h2.val]; exact Spec.homogeneous_vec _, fun j => ?_⟩
  rw [(Rep.dot hsc (Rep.vector _) h2).eq_iff hsc (Rep.scalarMv _), Spec.hestenesDot_vec_ip]
  congr 1
  rw [← hr.single, Spec.ip, map_sum, Finset.sum_eq_single j]
  · rw [map_smul, ← Spec.ip, hr.recip, if_pos rfl, smul_eq_mul]
    field_simp [hr.ne j]
  · intro b _ hb
    rw [map_smul, ← Spec.ip, hr.recip, if_neg (Ne.symm hb), smul_zero]
  · simp

/-- C60: `grad op (f*F) = (grad*f) op F + f*(grad op F)` for a scalar field `f`, for each product `op`. -/
theorem C60_scalar_mul (op : ProdOp) (f : K) {F : Mv K n} (hF : F.WF (currentMetric N g0))
    (hF' : F.isBladeRep = true) : ∃ G H I,
    (gradDop l false).mulMv (Fields.ofMetric (fun i => D i) g0 N conn) .geo (Mv.scalarMv f) = .inl G ∧
    (gradDop l false).mulMv (Fields.ofMetric (fun i => D i) g0 N conn) op F = .inl H ∧
    (gradDop l false).mulMv (Fields.ofMetric (fun i => D i) g0 N conn) op (F.smul f) = .inl I ∧
    I.eq (currentMetric N g0) ((Mv.mulOp (currentMetric N g0) op G F).add (currentMetric N g0)
      (H.smul f)) = true := by
  obtain ⟨Γ, u, hr, hg, -⟩ := grad_env hs hN hO h hl
  have hsc := currentMetric_symm hs N
  have rF := Rep.of_wf hF hF'
  obtain ⟨G, h1, h2⟩ := hg .geo (Rep.scalarMv f)
  obtain ⟨H, h3, h4⟩ := hg op rF
  obtain ⟨I, h5, h6⟩ := hg op (rF.smul f)
  refine ⟨G, H, I, h1, h3, h5, ?_⟩
  rw [h6.eq_iff hsc (Rep.add hsc (mulOp_rep hsc op h2 rF) (h4.smul f))]
  rw [opS_sum_left, Finset.smul_sum, ← Finset.sum_add_distrib]
  refine Finset.sum_congr rfl fun i _ => ?_
  rw [Spec.deriv_smul, opS_add_right, opS_smul_right, opS_smul_right, Spec.deriv_algebraMap]
  congr 1
  conv_rhs => rw [show opS (currentMetric N g0) .geo (Spec.vec (currentMetric N g0) (u i))
    (algebraMap K _ (D i f)) = D i f • Spec.vec (currentMetric N g0) (u i) by
      rw [opS_geo, ← Algebra.commutes, ← Algebra.smul_def]]
  rw [opS_smul_left]

/-- C60: the gradient is additive. -/
theorem C60_add (op : ProdOp) {A B : Mv K n} (hA : A.WF (currentMetric N g0)) (hA' : A.isBladeRep = true)
    (hB : B.WF (currentMetric N g0)) (hB' : B.isBladeRep = true) : ∃ G H I,
    (gradDop l false).mulMv (Fields.ofMetric (fun i => D i) g0 N conn) op A = .inl G ∧
    (gradDop l false).mulMv (Fields.ofMetric (fun i => D i) g0 N conn) op B = .inl H ∧
    (gradDop l false).mulMv (Fields.ofMetric (fun i => D i) g0 N conn) op (A.add (currentMetric N g0) B) =
      .inl I ∧ I.eq (currentMetric N g0) (G.add (currentMetric N g0) H) = true := by
  obtain ⟨Γ, u, hr, hg, -⟩ := grad_env hs hN hO h hl
  have hsc := currentMetric_symm hs N
  obtain ⟨G, h1, h2⟩ := hg op (Rep.of_wf hA hA')
  obtain ⟨H, h3, h4⟩ := hg op (Rep.of_wf hB hB')
  obtain ⟨I, h5, h6⟩ := hg op (Rep.add hsc (Rep.of_wf hA hA') (Rep.of_wf hB hB'))
  refine ⟨G, H, I, h1, h3, h5, ?_⟩
  rw [h6.eq_iff hsc (Rep.add hsc h2 h4), ← Finset.sum_add_distrib]
  exact Finset.sum_congr rfl fun i _ => by rw [Spec.deriv_add, opS_add_right]

/-- C60: `grad*F = (grad<F) + (grad^F)`: divergence and curl. -/
theorem C60_split {F : Mv K n} (hF : F.WF (currentMetric N g0)) (hF' : F.isBladeRep = true) : ∃ G H I,
    (gradDop l false).mulMv (Fields.ofMetric (fun i => D i) g0 N conn) .geo F = .inl G ∧
    (gradDop l false).mulMv (Fields.ofMetric (fun i => D i) g0 N conn) .left F = .inl H ∧
    (gradDop l false).mulMv (Fields.ofMetric (fun i => D i) g0 N conn) .outer F = .inl I ∧
    G.eq (currentMetric N g0) (H.add (currentMetric N g0) I) = true := by
  obtain ⟨Γ, u, hr, hg, -⟩ := grad_env hs hN hO h hl
  have hsc := currentMetric_symm hs N
  have rF := Rep.of_wf hF hF'
  obtain ⟨G, h1, h2⟩ := hg .geo rF
  obtain ⟨H, h3, h4⟩ := hg .left rF
  obtain ⟨I, h5, h6⟩ := hg .outer rF
  refine ⟨G, H, I, h1, h3, h5, ?_⟩
  rw [h2.eq_iff hsc (Rep.add hsc h4 h6), ← Finset.sum_add_distrib]
  refine Finset.sum_congr rfl fun i _ => ?_
  rw [opS_geo, opS, opS, Spec.lc_vec, Spec.vec_mul]

/-- C60: `F.rev()*rgrad = (grad*F).rev()`: the gradient operating to the left. -/
theorem C60_rgrad {F : Mv K n} (hF : F.WF (currentMetric N g0)) (hF' : F.isBladeRep = true) : ∃ G H,
    (gradDop l false).mulMv (Fields.ofMetric (fun i => D i) g0 N conn) .geo F = .inl G ∧
    Dop.mvMul (Fields.ofMetric (fun i => D i) g0 N conn) .geo (F.rev (currentMetric N g0)) (gradDop l true) =
      .inl H ∧ H.eq (currentMetric N g0) (G.rev (currentMetric N g0)) = true := by
  obtain ⟨Γ, u, hr, hg, hg', -⟩ := grad_env hs hN hO h hl
  have hsc := currentMetric_symm hs N
  have rF := Rep.of_wf hF hF'
  obtain ⟨G, h1, h2⟩ := hg .geo rF
  obtain ⟨H, h3, h4⟩ := hg' .geo (Rep.rev hsc rF)
  refine ⟨G, H, h1, h3, ?_⟩
  rw [h4.eq_iff hsc (Rep.rev hsc h2), map_sum]
  refine Finset.sum_congr rfl fun i _ => ?_
  rw [opS, Spec.deriv_reverse, CliffordAlgebra.reverse.map_mul, Spec.vec, CliffordAlgebra.reverse_ι]

/-- C60: the curl of a curl vanishes, `grad^(grad^F) = 0`, in every coordinate system of every space, flat or
curved, if the derivatives of functions commute. -/
theorem C60_curl_curl (hD : ∀ i j f, D i (D j f) = D j (D i f)) {F : Mv K n}
    (hF : F.WF (currentMetric N g0)) (hF' : F.isBladeRep = true) : ∃ G H,
    (gradDop l false).mulMv (Fields.ofMetric (fun i => D i) g0 N conn) .outer F = .inl G ∧
    (gradDop l false).mulMv (Fields.ofMetric (fun i => D i) g0 N conn) .outer G = .inl H ∧
    H.eq (currentMetric N g0) Mv.zero = true := by
  obtain ⟨Γ, u, hr, hg, -⟩ := grad_env hs hN hO h hl
  have hsc := currentMetric_symm hs N
  obtain ⟨G, h1, h2⟩ := hg .outer (Rep.of_wf hF hF')
  obtain ⟨H, h3, h4⟩ := hg .outer h2
  refine ⟨G, H, h1, h3, ?_⟩
  rw [h4.eq_iff hsc Rep.zero]
  exact hr.dS_dS hD _

/-- C60: the gradient of a scalar field has no curl, `grad^(grad*f) = 0`. -/
theorem C60_curl_grad (hD : ∀ i j f, D i (D j f) = D j (D i f)) (f : K) : ∃ G H,
    (gradDop l false).mulMv (Fields.ofMetric (fun i => D i) g0 N conn) .geo (Mv.scalarMv f) = .inl G ∧
    (gradDop l false).mulMv (Fields.ofMetric (fun i => D i) g0 N conn) .outer G = .inl H ∧
    H.eq (currentMetric N g0) Mv.zero = true := by
  obtain ⟨Γ, u, hr, hg, -⟩ := grad_env hs hN hO h hl
  have hsc := currentMetric_symm hs N
  obtain ⟨G, h1, h2⟩ := hg .geo (Rep.scalarMv f)
  obtain ⟨H, h3, h4⟩ := hg .outer h2
  refine ⟨G, H, h1, h3, ?_⟩
  rw [h4.eq_iff hsc Rep.zero]
  refine Eq.trans ?_ (hr.dS_dS hD (algebraMap K _ f))
  congr 1
  funext i
  have e : (∑ i, opS (currentMetric N g0) .geo (Spec.vec (currentMetric N g0) (u i))
      (Spec.deriv (currentMetric N g0) (D i) (Γ i) (algebraMap K _ f))) =
      Spec.dS (currentMetric N g0) D Γ u (algebraMap K _ f) := by
    refine Finset.sum_congr rfl fun j _ => ?_
    rw [Spec.deriv_algebraMap, opS_geo, ← Algebra.commutes, ← Algebra.smul_def,
      Algebra.algebraMap_eq_smul_one, Spec.wedge_smul, Spec.wedge_one]
  rw [e, opS]

/-- C60: `(a|grad)*F` is the derivative of `F` in the direction of `a`: the combination of the derivatives of `F`
with the components of `a` in the tangent vectors as coefficients. -/
theorem C60_directional (a : Fin n → K) {F : Mv K n} (hF : F.WF (currentMetric N g0))
    (hF' : F.isBladeRep = true) : ∃ d G,
    Dop.mvMul (Fields.ofMetric (fun i => D i) g0 N conn) .inner
      (Mv.vector fun i => a i * scaleOf N i) (gradDop l false) = .inr d ∧
    d.mulMv (Fields.ofMetric (fun i => D i) g0 N conn) .geo F = .inl G ∧
    G.WF (currentMetric N g0) ∧ G.isBladeRep = true ∧
    G.eq (currentMetric N g0) (((List.finRange n).map fun i =>
      (F.diffN (Fields.ofMetric (fun i => D i) g0 N conn) i 1).smul (a i)).foldl
        (Mv.add (currentMetric N g0)) Mv.zero) = true := by
  obtain ⟨Γ, u, hr, -, -, hc, hlen, hu⟩ := grad_env hs hN hO h hl
  have hsc := currentMetric_symm hs N
  have rF := Rep.of_wf hF hF'
  set X := Fields.ofMetric (fun i => D i) g0 N conn with hX
  have hip : ∀ j, Spec.ip (currentMetric N g0) (fun i => a i * scaleOf N i) (u j) = a j := by
    intro j
    rw [Spec.ip_dotProduct hsc, Finset.sum_eq_single j]
    · rw [hr.recip, if_pos rfl]; field_simp [hr.ne j]
    · intro b _ hb; rw [hr.recip, if_neg hb, mul_zero]
    · simp
  have hrep : ∀ j : Fin n, Rep (currentMetric N g0) ((Mv.vector fun i => a i * scaleOf N i).dot
      (currentMetric N g0) (l.getD j Mv.zero)) (algebraMap K _ (a j)) := by
    intro j
    refine (Rep.dot hsc (Rep.vector _) (hu j)).congr ?_
    rw [Spec.hestenesDot_vec_ip, hip]
  have hder : ∀ i, Rep (currentMetric N g0) (F.diffN X i 1)
      (Spec.deriv (currentMetric N g0) (D i) (Γ i) (F.val (currentMetric N g0))) := fun i =>
    diffN_rep (X := X) (D := D) (Γ := Γ) hsc (fun _ => rfl) (fun _ => rfl) hc i 1 rF
  refine ⟨_, _, by rw [Dop.mvMul, if_pos (by rfl)], by rw [Dop.mulMv, if_pos (by rfl)], ?_⟩
  have hterms : ((gradDop l false).terms.map fun t => (Mv.mulOp X.g .inner
      (Mv.vector fun i => a i * scaleOf N i) t.1, t.2)) = (List.finRange n).map fun i : Fin n =>
        ((Mv.vector fun i => a i * scaleOf N i).dot (currentMetric N g0) (l.getD (i : ℕ) Mv.zero),
          Pdop.single i) := by
    simp only [gradDop]
    rw [zip_finRange_map l hlen Mv.zero]
    rfl
  have hdist : Distinct ((List.finRange n).map fun i : Fin n =>
        ((Mv.vector fun i => a i * scaleOf N i).dot (currentMetric N g0) (l.getD (i : ℕ) Mv.zero),
          Pdop.single i)) := by
    rw [Distinct, List.pairwise_map]
    refine (List.nodup_finRange n).imp fun {i j} hij => ?_
    simp [Pdop.eqv, Dict.eqv, Pdop.single, Dict.get?, Ne.symm hij]
  rw [hterms, Dop.consolidate, consolidate_of_distinct hdist, List.filter_map]
  have hfold : ∀ L : List (Fin n), Rep (currentMetric N g0)
      ((L.map fun i => (F.diffN X i 1).smul (a i)).foldl (Mv.add (currentMetric N g0)) Mv.zero)
      (0 + (L.map fun i => a i • Spec.deriv (currentMetric N g0) (D i) (Γ i)
        (F.val (currentMetric N g0))).sum) := fun L =>
    foldl_add_rep hsc L _ _ (fun i _ => (hder i).smul (a i)) Rep.zero
  have hfold' := fun L : List (Fin n) => foldl_add_rep hsc L
    (fun i => Mv.mulOp (currentMetric N g0) .geo ((Mv.vector fun i => a i * scaleOf N i).dot
      (currentMetric N g0) (l.getD (i : ℕ) Mv.zero)) ((Pdop.single i).call (Mv.diffN X) F))
    (fun i => a i • Spec.deriv (currentMetric N g0) (D i) (Γ i) (F.val (currentMetric N g0)))
    (fun i _ => (mulOp_rep hsc .geo (hrep i) (hder i)).congr (by
      rw [opS_geo, ← Algebra.smul_def])) (Rep.scalarMv (g := currentMetric N g0) 0)
  simp only [List.map_map]
  refine ⟨(hfold' _).wf, (hfold' _).flag, ((hfold' _).eq_iff hsc (hfold _)).mpr ?_⟩
  rw [map_zero]
  congr 1
  generalize List.finRange n = L
  induction L with
  | nil => rfl
  | cons i L ih =>
    rw [List.filter_cons]
    by_cases hz : a i = 0
    · rw [if_neg, ih, List.map_cons, List.sum_cons, hz, zero_smul, zero_add]
      have : Mv.eqZero X.g ((Mv.vector fun i => a i * scaleOf N i).dot
        (currentMetric N g0) (l.getD (i : ℕ) Mv.zero)) = true :=
        (eqZero_iff (X := X) hsc (hrep i)).mpr (by rw [hz, map_zero]; rfl)
      simp only [Function.comp, this]; decide
    · rw [if_pos, List.map_cons, List.map_cons, List.sum_cons, List.sum_cons, ih]
      have : Mv.eqZero X.g ((Mv.vector fun i => a i * scaleOf N i).dot
        (currentMetric N g0) (l.getD (i : ℕ) Mv.zero)) = false := by
        rw [← Bool.not_eq_true]
        intro h1
        have := (eqZero_iff (X := X) hsc (hrep i)).mp h1
        exact hz (algebraMap_inj _ (by rw [map_zero]; exact this))
      simp only [Function.comp, this]; decide

end

/-! ### Concrete cases -/

namespace Ex

/-- Polar coordinates meet the hypotheses, normalised or not: connection and gradient exist. -/
example (N : Option (Fin 2 → Fun 2)) (hN : N = none ∨ N = some polarN) :
    ∃ conn l, polar.IsSymm ∧ (∀ N', N = some N' → ∀ i, N' i ^ 2 = polar i i ∨ N' i ^ 2 = - polar i i) ∧
      (N.isSome → isOrtho polar = true) ∧ connOf (fun i => partialD i) polar N = some conn ∧ conn.isSome ∧
      gradVecs polar N = some l ∧ ∀ i j f, partialD (n := 2) i (partialD j f) = partialD j (partialD i f) := by
  obtain ⟨d, hd⟩ := polar_de N hN
  have hsq : ∀ N', N = some N' → ∀ i, N' i ^ 2 = polar i i ∨ N' i ^ 2 = - polar i i := by
    rcases hN with rfl | rfl
    · exact fun _ h => by cases h
    · exact polarN_sq
  have hdet : polar.det ≠ 0 := by
    have := coord_ne_zero (n := 2) 0
    simp [polar, Matrix.det_diagonal, Fin.prod_univ_two, this]
  obtain ⟨l, hl⟩ := Option.isSome_iff_exists.mp (C60_exists polar_symm hdet hsq fun _ => polar_ortho)
  exact ⟨some d, l, polar_symm, hsq, fun _ => polar_ortho,
    by rw [connOf, if_pos polar_connect, hd]; rfl, rfl, hl, fun i j f => partialD_comm i j f⟩

end Ex

end GA
