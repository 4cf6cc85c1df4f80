import Verif.Proofs.Curl
import Verif.Proofs.Det

/-! The divergence: derivatives of determinants, the derivative of the pseudoscalar, the double divergence. -/

set_option linter.unusedSectionVars false

namespace Spec
open CliffordAlgebra

section det
variable {ι : Type*} [Fintype ι] [DecidableEq ι] {S : Type*} [CommRing S]

theorem derivation_prod (D : Derivation ℤ S S) (s : Finset ι) (f : ι → S) :
    D (∏ i ∈ s, f i) = ∑ i ∈ s, (∏ j ∈ s.erase i, f j) * D (f i) := by
  induction s using Finset.induction_on with
  | empty => simp
  | insert a s ha ih =>
    rw [Finset.prod_insert ha, Derivation.leibniz, ih, Finset.sum_insert ha, Finset.erase_insert ha,
      add_comm, smul_eq_mul, smul_eq_mul, Finset.mul_sum]
    congr 1
    refine Finset.sum_congr rfl fun i hi => ?_
    have hia : i ≠ a := fun h => ha (h ▸ hi)
    rw [Finset.erase_insert_of_ne (Ne.symm hia), Finset.prod_insert (by simp [ha]), mul_assoc]

/-- Jacobi's formula for the derivative of a determinant. -/
theorem derivation_det (D : Derivation ℤ S S) (A : Matrix ι ι S) :
    D A.det = (A.adjugate * A.map D).trace := by
  have h1 : D A.det = ∑ i, (A.updateCol i fun j => D (A j i)).det := by
    simp only [Matrix.det_apply, map_sum]
    rw [Finset.sum_comm]
    refine Finset.sum_congr rfl fun σ _ => ?_
    rw [← Finset.smul_sum]
    have : ∀ (u : ℤˣ) (p : S), D (u • p) = u • D p := by
      intro u p
      rcases Int.units_eq_one_or u with rfl | rfl <;> simp
    rw [this, derivation_prod]
    congr 1
    refine Finset.sum_congr rfl fun i _ => ?_
    rw [← Finset.mul_prod_erase _ _ (Finset.mem_univ i), mul_comm]
    congr 1
    · simp
    · refine Finset.prod_congr rfl fun j hj => ?_
      rw [Matrix.updateCol_ne (Finset.ne_of_mem_erase hj)]
  rw [h1, Matrix.trace]
  refine Finset.sum_congr rfl fun i _ => ?_
  rw [← Matrix.cramer_apply, Matrix.cramer_eq_adjugate_mulVec]
  rfl

end det

variable {n : ℕ} {K : Type*} [Field K] [DecidableEq K] [Invertible (2 : K)]
  {g : Matrix (Fin n) (Fin n) K}

theorem Compatible.det {D : Derivation ℤ K K} {Γ : Matrix (Fin n) (Fin n) K} (h : Compatible g D Γ) :
    D g.det = 2 * g.det * Γ.trace := by
  rw [derivation_det, compatible_iff.mp h, mul_add, Matrix.trace_add, ← mul_assoc, ← mul_assoc,
    Matrix.trace_mul_comm (g.adjugate * _), ← mul_assoc, Matrix.mul_adjugate, Matrix.adjugate_mul]
  simp only [smul_mul_assoc, one_mul, Matrix.trace_smul, Matrix.trace_transpose, smul_eq_mul]
  ring

/-! ### The pseudoscalar -/

theorem pseudo_cancel (hs : g.IsSymm) (hd : g.det ≠ 0) {x : Cl g} (h : x * pseudo g = 0) : x = 0 := by
  have h1 : x * pseudo g * pseudo g = 0 := by rw [h, zero_mul]
  rw [mul_assoc, pseudo_sq hs, ← Algebra.commutes, ← Algebra.smul_def] at h1
  exact (smul_eq_zero.mp h1).resolve_left (mul_ne_zero (pow_ne_zero _ (by simp)) hd)

theorem deriv_pseudo (hs : g.IsSymm) (hd : g.det ≠ 0) {D : Derivation ℤ K K} {Γ : Matrix (Fin n) (Fin n) K}
    (h : Compatible g D Γ) : deriv g D Γ (pseudo g) = Γ.trace • pseudo g := by
  obtain ⟨c, hc⟩ := homogeneous_top (homogeneous_deriv D Γ (homogeneous_pseudo (g := g)))
  have h1 : deriv g D Γ (pseudo g * pseudo g) = (2 * c) • (pseudo g * pseudo g) := by
    rw [deriv_mul hs h, hc, smul_mul_assoc, mul_smul_comm, ← add_smul, two_mul]
  rw [pseudo_sq hs, deriv_algebraMap, Algebra.smul_def, ← map_mul] at h1
  have h2 := GA.algebraMap_inj (g := g) h1
  have h3 : D ((-1 : K) ^ (n * (n - 1) / 2)) = 0 := by rw [Derivation.leibniz_pow]; simp
  rw [Derivation.leibniz, h3, smul_zero, add_zero, smul_eq_mul, h.det] at h2
  have h4 : (-1 : K) ^ (n * (n - 1) / 2) ≠ 0 := pow_ne_zero _ (by simp)
  have h5 : (2 : K) ≠ 0 := Invertible.ne_zero 2
  have : c = Γ.trace := by
    have h6 : ((-1 : K) ^ (n * (n - 1) / 2) * 2 * g.det) * (c - Γ.trace) = 0 := by linear_combination -h2
    exact sub_eq_zero.mp ((mul_eq_zero.mp h6).resolve_left (mul_ne_zero (mul_ne_zero h4 h5) hd))
  rw [hc, this]

theorem wedge_mul_pseudo (v : Fin n → K) (x : Cl g) :
    wedge g (vec g v) x * pseudo g = con g v (x * pseudo g) := by
  induction x using blade_induction g with
  | h0 => simp [wedge_zero]
  | hadd a b ha hb => rw [wedge_add, add_mul, ha, hb, add_mul, map_add]
  | hsm c l hl =>
    rw [wedge_smul, smul_mul_assoc, smul_mul_assoc, map_smul, blade_eq_wedgeL, ← wedgeL_cons,
      wedgeL_mul fun v _ => wedge_pseudo v, wedgeL_mul fun v _ => wedge_pseudo v, conL_cons]

theorem con_mul_pseudo (v : Fin n → K) (x : Cl g) :
    con g v x * pseudo g = wedge g (vec g v) (x * pseudo g) := by
  induction x using blade_induction g with
  | h0 => simp [wedge_zero]
  | hadd a b ha hb => rw [map_add, add_mul, ha, hb, add_mul, wedge_add]
  | hsm c l hl =>
    rw [map_smul, smul_mul_assoc, smul_mul_assoc, wedge_smul, blade_eq_wedgeL]
    congr 1
    generalize l.map (fun i => Pi.single i (1 : K)) = L
    induction L with
    | nil => rw [wedgeL_nil, con_one, zero_mul, one_mul, wedge_pseudo]
    | cons w L ih =>
      rw [wedgeL_cons, con_wedge_vec, sub_mul, smul_mul_assoc, wedge_mul_pseudo, wedge_mul_pseudo, ih,
        con_wedge_vec, ip_comm]
      abel

/-! ### Divergence -/

/-- The divergence. -/
noncomputable def cS (g : Matrix (Fin n) (Fin n) K) (D : Fin n → Derivation ℤ K K)
    (Γ : Fin n → Matrix (Fin n) (Fin n) K) (u : Fin n → Fin n → K) (x : Cl g) : Cl g :=
  ∑ j, con g (u j) (deriv g (D j) (Γ j) x)

theorem homogeneous_sum' {ι : Type*} {s : Finset ι} {f : ι → Cl g} {r : ℕ}
    (hf : ∀ i ∈ s, Homogeneous g r (f i)) : Homogeneous g r (∑ i ∈ s, f i) := by
  intro j hj
  rw [map_sum]
  exact Finset.sum_eq_zero fun i hi => hf i hi j hj

theorem homogeneous_dS {D : Fin n → Derivation ℤ K K} {Γ : Fin n → Matrix (Fin n) (Fin n) K}
    {u : Fin n → Fin n → K} {r : ℕ} {x : Cl g} (hx : Homogeneous g r x) :
    Homogeneous g (r + 1) (dS g D Γ u x) := by
  refine homogeneous_sum' fun j _ => ?_
  have := homogeneous_wedge (homogeneous_vec (g := g) (u j)) (homogeneous_deriv (D j) (Γ j) hx)
  rwa [add_comm] at this

theorem cS_homogeneous_zero {D : Fin n → Derivation ℤ K K} {Γ : Fin n → Matrix (Fin n) (Fin n) K}
    {u : Fin n → Fin n → K} {x : Cl g} (hx : Homogeneous g 0 x) : cS g D Γ u x = 0 :=
  Finset.sum_eq_zero fun j _ => con_homogeneous_zero _ (homogeneous_deriv (D j) (Γ j) hx)

theorem homogeneous_cS {D : Fin n → Derivation ℤ K K} {Γ : Fin n → Matrix (Fin n) (Fin n) K}
    {u : Fin n → Fin n → K} {r : ℕ} {x : Cl g} (hx : Homogeneous g r x) :
    Homogeneous g (r - 1) (cS g D Γ u x) := by
  rcases Nat.eq_zero_or_pos r with rfl | h
  · rw [cS_homogeneous_zero hx]; exact homogeneous_zero _
  · refine homogeneous_sum' fun j _ => ?_
    refine homogeneous_con _ ?_
    rw [Nat.sub_add_cancel h]
    exact homogeneous_deriv (D j) (Γ j) hx

section
variable {D : Fin n → Derivation ℤ K K} {Γ : Fin n → Matrix (Fin n) (Fin n) K} {u : Fin n → Fin n → K}
  {s : Fin n → K} (h : Recip g D Γ s u)
include h

theorem Recip.det_ne : g.det ≠ 0 := by
  have e : g * (Matrix.of u).transpose = Matrix.diagonal fun j => (s j)⁻¹ := by
    ext i j
    have := h.recip i j
    rw [ip_dot h.symm, single_one_dotProduct] at this
    rw [Matrix.diagonal_apply]
    have h2 : (if i = j then (s i)⁻¹ else 0) = if i = j then (s j)⁻¹ else 0 := by
      split_ifs with hij
      · rw [hij]
      · rfl
    rw [h2, ← this]
    rfl
  have := congrArg Matrix.det e
  rw [Matrix.det_mul, Matrix.det_diagonal] at this
  intro h0
  rw [h0, zero_mul] at this
  exact Finset.prod_ne_zero_iff.mpr (fun i _ => inv_ne_zero (h.ne i)) this.symm

theorem Recip.trace (i : Fin n) : (Γ i).trace = D i g.det / (2 * g.det) := by
  have h5 : (2 : K) ≠ 0 := Invertible.ne_zero 2
  rw [(h.compat i).det, mul_div_cancel_left₀ _ (mul_ne_zero h5 h.det_ne)]

theorem Recip.trace_comm (hD : ∀ i j f, D i (D j f) = D j (D i f)) (i j : Fin n) :
    D i (Γ j).trace = D j (Γ i).trace := by
  have h5 : (2 : K) ≠ 0 := Invertible.ne_zero 2
  have h2 : ∀ i, D i (2 : K) = 0 := fun i => by
    rw [show (2 : K) = 1 + 1 by norm_num, map_add, Derivation.map_one_eq_zero, add_zero]
  have key : ∀ i j, 2 * g.det * D i (Γ j).trace =
      D i (D j g.det) - 2 * g.det * 2 * ((Γ i).trace * (Γ j).trace) := by
    intro i j
    have h1 := congrArg (D i) (h.compat j).det
    rw [Derivation.leibniz, Derivation.leibniz, h2, (h.compat i).det] at h1
    simp only [smul_eq_mul, mul_zero, add_zero] at h1
    rw [h1]; ring
  refine mul_left_cancel₀ (mul_ne_zero h5 h.det_ne) ?_
  rw [key, key, hD]; ring

theorem Recip.cS_pseudo (x : Cl g) : cS g D Γ u x * pseudo g =
    dS g D Γ u (x * pseudo g) - wedge g (vec g (∑ j, (Γ j).trace • u j)) (x * pseudo g) := by
  rw [vec, map_sum, sum_wedge, cS, dS, Finset.sum_mul, ← Finset.sum_sub_distrib]
  refine Finset.sum_congr rfl fun j _ => ?_
  rw [con_mul_pseudo, map_smul, smul_wedge, ← vec, deriv_mul h.symm (h.compat j),
    deriv_pseudo h.symm h.det_ne (h.compat j), wedge_add, mul_smul_comm, wedge_smul, add_sub_cancel_right]

theorem Recip.cS_cS (hD : ∀ i j f, D i (D j f) = D j (D i f)) (x : Cl g) :
    cS g D Γ u (cS g D Γ u x) = 0 := by
  refine pseudo_cancel h.symm h.det_ne ?_
  set γ := ∑ j, (Γ j).trace • u j with hγ
  have hc : dS g D Γ u (vec g γ) = 0 := by
    rw [hγ, vec, map_sum, dS_sum]
    simp only [map_smul]
    change ∑ i, dS g D Γ u ((Γ i).trace • vec g (u i)) = 0
    simp only [dS_smul, h.curl, smul_zero, add_zero]
    rw [Finset.sum_comm]
    have := sum_symm_wedge (g := g) (u := u) (c := fun j k => D j (Γ k).trace)
      (fun j k => h.trace_comm hD j k) 1
    simpa only [wedge_one] using this
  have hsub : ∀ x y : Cl g, dS g D Γ u (x - y) = dS g D Γ u x - dS g D Γ u y := fun x y => by
    rw [sub_eq_add_neg, dS_add, dS_neg, ← sub_eq_add_neg]
  have hw : ∀ y : Cl g, wedge g (vec g γ) (wedge g (vec g γ) y) = 0 := fun y =>
    eq_zero_of_eq_neg (wedge_vec_swap _ _ _)
  have hs2 : ∀ x y z : Cl g, wedge g x (y - z) = wedge g x y - wedge g x z := fun x y z => by
    rw [sub_eq_add_neg, wedge_add, ← neg_one_smul K, wedge_smul, neg_one_smul, ← sub_eq_add_neg]
  rw [h.cS_pseudo, h.cS_pseudo, hsub, h.dS_dS hD, dS_wedge_vec, hc, zero_wedge, hs2, hw]
  abel

/-- The divergence of a vector field with components `a` in the tangent vectors. -/
theorem Recip.div (a : Fin n → K) : ∑ i, ip g (u i) (dvec (D i) (Γ i) fun j => a j * s j) =
    ∑ i, (D i (a i) + a i * ((∑ k, D i (s k) / s k) + (Γ i).trace)) := by
  have ht : ∀ i j, ip g (u i) (Pi.single j (s j)) = if i = j then 1 else 0 := by
    intro i j
    rw [ip_comm, ← h.single, h.recip]
    by_cases hij : i = j
    · subst hij; rw [if_pos rfl, if_pos rfl, mul_inv_cancel₀ (h.ne i)]
    · rw [if_neg (Ne.symm hij), if_neg hij, mul_zero]
  have hv : ∀ i, dvec (D i) (Γ i) (fun j => a j * s j) =
      ∑ j, (D i (a j) • (Pi.single j (s j) : Fin n → K) + a j • dvec (D i) (Γ i) (Pi.single j (s j))) := by
    intro i
    funext k
    simp only [dvec, Finset.sum_apply, Pi.add_apply, Pi.smul_apply, smul_eq_mul, Pi.single_apply,
      Finset.sum_add_distrib, mul_ite, mul_zero, apply_ite (D i), map_zero, Finset.sum_ite_eq,
      Finset.sum_ite_eq', Finset.mem_univ, if_true, mul_add, Derivation.leibniz]
    rw [Finset.sum_congr rfl fun x _ => show Γ i k x * (a x * s x) = a x * (Γ i k x * s x) by ring]
    ring
  have hb : ∀ i, ∑ j, ip g (u j) (dvec (D i) (Γ i) (Pi.single j (s j))) =
      (∑ k, D i (s k) / s k) + (Γ i).trace := by
    intro i
    rw [Matrix.trace, ← Finset.sum_add_distrib]
    refine Finset.sum_congr rfl fun j _ => ?_
    rw [ip_comm, ip_dotProduct h.symm, Finset.sum_eq_single j]
    · rw [h.recip, if_pos rfl]
      simp only [dvec, Pi.single_apply, mul_ite, mul_zero, Finset.sum_ite_eq', Finset.mem_univ, if_true,
        Matrix.diag_apply]
      field_simp [h.ne j]
    · intro b _ hbj; rw [h.recip, if_neg hbj, mul_zero]
    · simp
  have hip : ∀ i, ip g (u i) (dvec (D i) (Γ i) fun j => a j * s j) =
      D i (a i) + ∑ j, a j * ip g (u i) (dvec (D j) (Γ j) (Pi.single i (s i))) := by
    intro i
    rw [hv, ip, map_sum, Finset.sum_congr rfl fun j _ => by
      rw [map_add, map_smul, map_smul, ← ip, ← ip, ht, h.torsion i j], Finset.sum_add_distrib]
    simp
  rw [Finset.sum_congr rfl fun i _ => hip i, Finset.sum_add_distrib, Finset.sum_add_distrib]
  congr 1
  rw [Finset.sum_comm]
  refine Finset.sum_congr rfl fun i _ => ?_
  rw [← Finset.mul_sum, hb]

end

end Spec

namespace GA
variable {n : ℕ} {K : Type*} [Field K] [DecidableEq K] [Invertible (2 : K)]

theorem currentMetric_det (g0 : Matrix (Fin n) (Fin n) K) (N : Option (Fin n → K))
    (h0 : ∀ i, scaleOf N i ≠ 0) :
    g0.det = (∏ i, scaleOf N i) ^ 2 * (currentMetric N g0).det := by
  have e : g0 = Matrix.diagonal (scaleOf N) * currentMetric N g0 * Matrix.diagonal (scaleOf N) := by
    ext i j
    rw [Matrix.mul_diagonal, Matrix.diagonal_mul]
    cases N with
    | none => simp [scaleOf, currentMetric]
    | some N =>
      have h1 := h0 i
      have h2 := h0 j
      simp only [scaleOf, Option.getD_some] at h1 h2
      simp only [scaleOf, currentMetric, normMetric, Option.getD_some, Matrix.of_apply]
      field_simp
  conv_lhs => rw [e, Matrix.det_mul, Matrix.det_mul, Matrix.det_diagonal]
  ring

/-- The logarithmic derivative of the volume of the tangent vectors. -/
theorem recip_volume {g0 : Matrix (Fin n) (Fin n) K} {N : Option (Fin n → K)}
    {D : Fin n → Derivation ℤ K K} {Γ : Fin n → Matrix (Fin n) (Fin n) K} {u : Fin n → Fin n → K}
    (h : Spec.Recip (currentMetric N g0) D Γ (scaleOf N) u) : g0.det ≠ 0 ∧ ∀ i,
      (∑ k, D i (scaleOf N k) / scaleOf N k) + (Γ i).trace = D i g0.det / (2 * g0.det) := by
  have h5 : (2 : K) ≠ 0 := Invertible.ne_zero 2
  have hp : ∏ i, scaleOf N i ≠ 0 := Finset.prod_ne_zero_iff.mpr fun i _ => h.ne i
  have hd := currentMetric_det g0 N h.ne
  refine ⟨by rw [hd]; exact mul_ne_zero (pow_ne_zero _ hp) h.det_ne, fun i => ?_⟩
  have hs : D i (∏ i, scaleOf N i) = (∏ i, scaleOf N i) * ∑ k, D i (scaleOf N k) / scaleOf N k := by
    rw [Spec.derivation_prod, Finset.mul_sum]
    refine Finset.sum_congr rfl fun k _ => ?_
    rw [← Finset.mul_prod_erase _ _ (Finset.mem_univ k)]
    field_simp [h.ne k]
  rw [hd, Derivation.leibniz, Derivation.leibniz_pow, hs, (h.compat i).det]
  simp only [smul_eq_mul, nsmul_eq_mul]
  have := h.det_ne
  field_simp
  push_cast
  ring

end GA
