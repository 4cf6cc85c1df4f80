import Verif.Props.C60
import Verif.Proofs.Chart
import Verif.Proofs.InnerLaws

/-!
# C60: product rules of the gradient operators
-/

set_option linter.unusedSectionVars false
set_option maxRecDepth 10000

namespace GA
section
variable {n : ℕ} {K : Type*} [Field K] [DecidableEq K] [Invertible (2 : K)]
variable {g0 : Matrix (Fin n) (Fin n) K} {D : Fin n → Derivation ℤ K K} {N : Option (Fin n → K)}
  {conn : Option (Fin n → Fin n → Expr K n)} {l : List (Mv K n)}
variable (hs : g0.IsSymm)
  (hN : ∀ N', N = some N' → ∀ i, N' i ^ 2 = g0 i i ∨ N' i ^ 2 = - g0 i i)
  (hO : N.isSome → isOrtho g0 = true) (h : connOf (fun i => D i) g0 N = some conn)
  (hl : gradVecs g0 N = some l)
include hs hN hO h hl

/-- C60: the curl of an outer product, `grad^(A^B) = (grad^A)^B + A.g_invol()^(grad^B)`. -/
theorem C60_curl_product {A B : Mv K n} (hA : A.WF (currentMetric N g0)) (hA' : A.isBladeRep = true)
    (hB : B.WF (currentMetric N g0)) (hB' : B.isBladeRep = true) : ∃ G H I,
    (gradDop l false).mulMv (Fields.ofMetric (fun i => D i) g0 N conn) .outer A = .inl G ∧
    (gradDop l false).mulMv (Fields.ofMetric (fun i => D i) g0 N conn) .outer B = .inl H ∧
    (gradDop l false).mulMv (Fields.ofMetric (fun i => D i) g0 N conn) .outer
      (A.wedge (currentMetric N g0) B) = .inl I ∧
    I.eq (currentMetric N g0) ((G.wedge (currentMetric N g0) B).add (currentMetric N g0)
      ((A.gInvol (currentMetric N g0)).wedge (currentMetric N g0) H)) = true := by
  obtain ⟨Γ, u, hr, hg, -⟩ := grad_env hs hN hO h hl
  have hsc := currentMetric_symm hs N
  have rA := Rep.of_wf hA hA'
  have rB := Rep.of_wf hB hB'
  obtain ⟨G, h1, h2⟩ := hg .outer rA
  obtain ⟨H, h3, h4⟩ := hg .outer rB
  obtain ⟨I, h5, h6⟩ := hg .outer (Rep.wedge hsc rA rB)
  refine ⟨G, H, I, h1, h3, h5, ?_⟩
  rw [h6.eq_iff hsc (Rep.add hsc (Rep.wedge hsc h2 rB) (Rep.wedge hsc (rA.gInvol hsc) h4))]
  refine Eq.trans ?_ (congrArg₂ (· + ·) (opS_sum_left .outer _ _ _) (opS_sum_right .outer _ _ _)).symm
  simp only [← Finset.sum_add_distrib]
  refine Finset.sum_congr rfl fun i _ => ?_
  simp only [opS]
  rw [Spec.deriv_wedge, Spec.wedge_add, ← Spec.wedge_assoc, ← Spec.wedge_assoc, ← Spec.wedge_assoc,
    Spec.wedge_vec_right, CliffordAlgebra.involute_involute]

/-- Values of directional derivatives. -/
theorem directional_rep {Γ : Fin n → Matrix (Fin n) (Fin n) K} {u : Fin n → Fin n → K}
    (hr : Spec.Recip (currentMetric N g0) D Γ (scaleOf N) u) (hc : IsConnection (currentMetric N g0) conn Γ)
    (a : Fin n → K) {F : Mv K n} {x : Spec.Cl (currentMetric N g0)} (hv : Rep (currentMetric N g0) F x) :
    ∃ d P,
      Dop.mvMul (Fields.ofMetric (fun i => D i) g0 N conn) .inner (Mv.vector a) (gradDop l false) = .inr d ∧
      d.mulMv (Fields.ofMetric (fun i => D i) g0 N conn) .geo F = .inl P ∧
      Rep (currentMetric N g0) P (∑ i, Spec.ip (currentMetric N g0) a (u i) •
        Spec.deriv (currentMetric N g0) (D i) (Γ i) x) := by
  have hsc := currentMetric_symm hs N
  obtain ⟨d, P, h1, h2, h3, h4, h5⟩ := C60_directional hs hN hO h hl (fun i => a i / scaleOf N i) hv.wf hv.flag
  have ha : (fun i => a i / scaleOf N i * scaleOf N i) = a := funext fun i => div_mul_cancel₀ _ (hr.ne i)
  rw [ha] at h1
  refine ⟨d, P, h1, h2, ?_⟩
  have hder : ∀ i, Rep (currentMetric N g0)
      (F.diffN (Fields.ofMetric (fun i => D i) g0 N conn) i 1)
      (Spec.deriv (currentMetric N g0) (D i) (Γ i) x) := fun i =>
    diffN_rep (X := Fields.ofMetric (fun i => D i) g0 N conn) (D := D) (Γ := Γ) hsc (fun _ => rfl)
      (fun _ => rfl) hc i 1 hv
  have hf := foldl_add_rep hsc (List.finRange n) _ _ (fun i _ => (hder i).smul (a i / scaleOf N i)) Rep.zero
  refine (Rep.of_wf h3 h4).congr ?_
  refine (((Rep.of_wf h3 h4).eq_iff hsc hf).mp h5).trans ?_
  rw [zero_add, ← List.sum_toFinset _ (List.nodup_finRange n), List.toFinset_finRange]
  refine Finset.sum_congr rfl fun i _ => ?_
  have hip : Spec.ip (currentMetric N g0) a (u i) = a i / scaleOf N i := by
    rw [Spec.ip_dotProduct hsc, Finset.sum_eq_single i]
    · rw [hr.recip, if_pos rfl, div_eq_mul_inv]
    · intro b _ hb; rw [hr.recip, if_neg hb, mul_zero]
    · simp
  rw [hip]

/-- C60: the gradient of an inner product of vector fields,
`grad*(a|b) = (a|grad)*b + (b|grad)*a - (a<(grad^b) + b<(grad^a))`. -/
theorem C60_grad_dot (a b : Fin n → K) : ∃ d e P Q G H I,
    Dop.mvMul (Fields.ofMetric (fun i => D i) g0 N conn) .inner (Mv.vector a) (gradDop l false) = .inr d ∧
    d.mulMv (Fields.ofMetric (fun i => D i) g0 N conn) .geo (Mv.vector b) = .inl P ∧
    Dop.mvMul (Fields.ofMetric (fun i => D i) g0 N conn) .inner (Mv.vector b) (gradDop l false) = .inr e ∧
    e.mulMv (Fields.ofMetric (fun i => D i) g0 N conn) .geo (Mv.vector a) = .inl Q ∧
    (gradDop l false).mulMv (Fields.ofMetric (fun i => D i) g0 N conn) .outer (Mv.vector a) = .inl G ∧
    (gradDop l false).mulMv (Fields.ofMetric (fun i => D i) g0 N conn) .outer (Mv.vector b) = .inl H ∧
    (gradDop l false).mulMv (Fields.ofMetric (fun i => D i) g0 N conn) .geo
      ((Mv.vector a).dot (currentMetric N g0) (Mv.vector b)) = .inl I ∧
    I.eq (currentMetric N g0) ((P.add (currentMetric N g0) Q).sub (currentMetric N g0)
      (((Mv.vector a).left (currentMetric N g0) H).add (currentMetric N g0)
        ((Mv.vector b).left (currentMetric N g0) G))) = true := by
  obtain ⟨Γ, u, hr, hg, -, hc, hlen, hu⟩ := grad_env hs hN hO h hl
  have hsc := currentMetric_symm hs N
  obtain ⟨d, P, d1, d2, d3⟩ := directional_rep hs hN hO h hl hr hc a (Rep.vector b)
  obtain ⟨e, Q, e1, e2, e3⟩ := directional_rep hs hN hO h hl hr hc b (Rep.vector a)
  obtain ⟨G, h1, h2⟩ := hg .outer (Rep.vector a)
  obtain ⟨H, h3, h4⟩ := hg .outer (Rep.vector b)
  obtain ⟨I, h5, h6⟩ := hg .geo (Rep.dot hsc (Rep.vector a) (Rep.vector b))
  refine ⟨d, e, P, Q, G, H, I, d1, d2, e1, e2, h1, h3, h5, ?_⟩
  rw [h6.eq_iff hsc (Rep.sub hsc (Rep.add hsc d3 e3) (Rep.add hsc (Rep.left hsc (Rep.vector a) h4)
    (Rep.left hsc (Rep.vector b) h2)))]
  rw [Spec.lc_vec, Spec.lc_vec, map_sum, map_sum, ← Finset.sum_add_distrib, ← Finset.sum_add_distrib,
    ← Finset.sum_sub_distrib]
  refine Finset.sum_congr rfl fun i _ => ?_
  have hcon : ∀ a w : Fin n → K, Spec.con (currentMetric N g0) a
      (Spec.wedge (currentMetric N g0) (Spec.vec _ (u i)) (Spec.vec _ w)) =
      Spec.ip (currentMetric N g0) a (u i) • Spec.vec _ w - Spec.ip (currentMetric N g0) a w • Spec.vec _ (u i) := by
    intro a w
    rw [Spec.con_wedge_vec, Spec.con_vec, Algebra.algebraMap_eq_smul_one, Spec.wedge_smul, Spec.wedge_one]
  simp only [opS]
  rw [Spec.hestenesDot_vec_ip, Spec.deriv_algebraMap, Spec.deriv_vec, Spec.deriv_vec, hcon, hcon,
    Spec.ip_deriv hsc (hr.compat i), ← Algebra.commutes, ← Algebra.smul_def, add_smul,
    Spec.ip_comm b (Spec.dvec (D i) (Γ i) a)]
  abel

/-- C88: the divergence of an outer product of vector fields,
`grad<(a^b) = (grad<a)*b - (grad<b)*a + ((a|grad)*b - (b|grad)*a)`. -/
theorem C88_div_wedge (a b : Fin n → K) : ∃ d e P Q G H I,
    Dop.mvMul (Fields.ofMetric (fun i => D i) g0 N conn) .inner (Mv.vector a) (gradDop l false) = .inr d ∧
    d.mulMv (Fields.ofMetric (fun i => D i) g0 N conn) .geo (Mv.vector b) = .inl P ∧
    Dop.mvMul (Fields.ofMetric (fun i => D i) g0 N conn) .inner (Mv.vector b) (gradDop l false) = .inr e ∧
    e.mulMv (Fields.ofMetric (fun i => D i) g0 N conn) .geo (Mv.vector a) = .inl Q ∧
    (gradDop l false).mulMv (Fields.ofMetric (fun i => D i) g0 N conn) .left (Mv.vector a) = .inl G ∧
    (gradDop l false).mulMv (Fields.ofMetric (fun i => D i) g0 N conn) .left (Mv.vector b) = .inl H ∧
    (gradDop l false).mulMv (Fields.ofMetric (fun i => D i) g0 N conn) .left
      ((Mv.vector a).wedge (currentMetric N g0) (Mv.vector b)) = .inl I ∧
    I.eq (currentMetric N g0) (((G.mul (currentMetric N g0) (Mv.vector b)).sub (currentMetric N g0)
      (H.mul (currentMetric N g0) (Mv.vector a))).add (currentMetric N g0)
        (P.sub (currentMetric N g0) Q)) = true := by
  obtain ⟨Γ, u, hr, hg, -, hc, hlen, hu⟩ := grad_env hs hN hO h hl
  have hsc := currentMetric_symm hs N
  obtain ⟨d, P, d1, d2, d3⟩ := directional_rep hs hN hO h hl hr hc a (Rep.vector b)
  obtain ⟨e, Q, e1, e2, e3⟩ := directional_rep hs hN hO h hl hr hc b (Rep.vector a)
  obtain ⟨G, h1, h2⟩ := hg .left (Rep.vector a)
  obtain ⟨H, h3, h4⟩ := hg .left (Rep.vector b)
  obtain ⟨I, h5, h6⟩ := hg .left (Rep.wedge hsc (Rep.vector a) (Rep.vector b))
  refine ⟨d, e, P, Q, G, H, I, d1, d2, e1, e2, h1, h3, h5, ?_⟩
  rw [h6.eq_iff hsc (Rep.add hsc (Rep.sub hsc (Rep.mul hsc h2 (Rep.vector b)) (Rep.mul hsc h4 (Rep.vector a)))
    (Rep.sub hsc d3 e3))]
  rw [Finset.sum_mul, Finset.sum_mul, ← Finset.sum_sub_distrib, ← Finset.sum_sub_distrib,
    ← Finset.sum_add_distrib]
  refine Finset.sum_congr rfl fun i _ => ?_
  have hcon : ∀ v w : Fin n → K, Spec.con (currentMetric N g0) (u i)
      (Spec.wedge (currentMetric N g0) (Spec.vec _ v) (Spec.vec _ w)) =
      Spec.ip (currentMetric N g0) (u i) v • Spec.vec _ w -
        Spec.ip (currentMetric N g0) (u i) w • Spec.vec _ v := by
    intro v w
    rw [Spec.con_wedge_vec, Spec.con_vec, Algebra.algebraMap_eq_smul_one, Spec.wedge_smul, Spec.wedge_one]
  simp only [opS]
  rw [Spec.deriv_wedge, Spec.lc_vec, Spec.lc_vec, Spec.lc_vec, Spec.deriv_vec, Spec.deriv_vec, map_add, hcon,
    hcon, Spec.con_vec, Spec.con_vec, ← Algebra.smul_def, ← Algebra.smul_def, Spec.ip_comm a, Spec.ip_comm b]
  simp only [Spec.ip]
  abel

/-- C88: the Laplacian of a product of scalar fields,
`grad*(grad*(f*k)) = f*(grad*(grad*k)) + k*(grad*(grad*f)) + 2*((grad*f)|(grad*k))`. -/
theorem C88_laplacian_product (f k : K) : ∃ F F' G G' H H',
    (gradDop l false).mulMv (Fields.ofMetric (fun i => D i) g0 N conn) .geo (Mv.scalarMv f) = .inl F ∧
    (gradDop l false).mulMv (Fields.ofMetric (fun i => D i) g0 N conn) .geo F = .inl F' ∧
    (gradDop l false).mulMv (Fields.ofMetric (fun i => D i) g0 N conn) .geo (Mv.scalarMv k) = .inl G ∧
    (gradDop l false).mulMv (Fields.ofMetric (fun i => D i) g0 N conn) .geo G = .inl G' ∧
    (gradDop l false).mulMv (Fields.ofMetric (fun i => D i) g0 N conn) .geo (Mv.scalarMv (f * k)) = .inl H ∧
    (gradDop l false).mulMv (Fields.ofMetric (fun i => D i) g0 N conn) .geo H = .inl H' ∧
    H'.eq (currentMetric N g0) (((G'.smul f).add (currentMetric N g0) (F'.smul k)).add (currentMetric N g0)
      ((F.dot (currentMetric N g0) G).smul 2)) = true := by
  obtain ⟨Γ, u, hr, hg, -⟩ := grad_env hs hN hO h hl
  have hsc := currentMetric_symm hs N
  have hgr : ∀ f, ∃ F, (gradDop l false).mulMv (Fields.ofMetric (fun i => D i) g0 N conn) .geo (Mv.scalarMv f) =
      .inl F ∧ Rep (currentMetric N g0) F (Spec.vec (currentMetric N g0) (∑ i, D i f • u i)) := by
    intro f
    obtain ⟨F, h1, h2⟩ := hg .geo (Rep.scalarMv f)
    refine ⟨F, h1, h2.congr ?_⟩
    rw [Spec.vec, map_sum]
    refine Finset.sum_congr rfl fun j _ => ?_
    rw [Spec.deriv_algebraMap, opS_geo, ← Algebra.commutes, ← Algebra.smul_def, map_smul]
    rfl
  obtain ⟨F, f1, f2⟩ := hgr f
  obtain ⟨F', f3, f4⟩ := hg .geo f2
  obtain ⟨G, g1, g2⟩ := hgr k
  obtain ⟨G', g3, g4⟩ := hg .geo g2
  obtain ⟨H, h1, h2⟩ := hgr (f * k)
  obtain ⟨H', h3, h4⟩ := hg .geo h2
  refine ⟨F, F', G, G', H, H', f1, f3, g1, g3, h1, h3, ?_⟩
  rw [h4.eq_iff hsc (Rep.add hsc (Rep.add hsc (g4.smul f) (f4.smul k)) ((Rep.dot hsc f2 g2).smul 2)),
    Spec.hestenesDot_vec_ip]
  set vf := ∑ i, D i f • u i with hvf
  set vk := ∑ i, D i k • u i with hvk
  have hv : ∑ i, D i (f * k) • u i = f • vk + k • vf := by
    rw [hvf, hvk, Finset.smul_sum, Finset.smul_sum, ← Finset.sum_add_distrib]
    refine Finset.sum_congr rfl fun i _ => ?_
    rw [Derivation.leibniz, add_smul, smul_assoc, smul_assoc]
  have hvec : ∀ f, ∑ i, D i f • Spec.vec (currentMetric N g0) (u i) =
      Spec.vec (currentMetric N g0) (∑ i, D i f • u i) := by
    intro f
    rw [Spec.vec, map_sum]
    exact Finset.sum_congr rfl fun i _ => (map_smul _ _ _).symm
  have hlin : Spec.vec (currentMetric N g0) (f • vk + k • vf) =
      f • Spec.vec (currentMetric N g0) vk + k • Spec.vec (currentMetric N g0) vf := by
    rw [Spec.vec, map_add, map_smul, map_smul]; rfl
  have hterm : ∀ i, opS (currentMetric N g0) .geo (Spec.vec (currentMetric N g0) (u i))
      (Spec.deriv (currentMetric N g0) (D i) (Γ i) (Spec.vec (currentMetric N g0) (f • vk + k • vf))) =
      (D i f • Spec.vec (currentMetric N g0) (u i)) * Spec.vec (currentMetric N g0) vk +
      f • opS (currentMetric N g0) .geo (Spec.vec (currentMetric N g0) (u i))
        (Spec.deriv (currentMetric N g0) (D i) (Γ i) (Spec.vec (currentMetric N g0) vk)) +
      ((D i k • Spec.vec (currentMetric N g0) (u i)) * Spec.vec (currentMetric N g0) vf +
      k • opS (currentMetric N g0) .geo (Spec.vec (currentMetric N g0) (u i))
        (Spec.deriv (currentMetric N g0) (D i) (Γ i) (Spec.vec (currentMetric N g0) vf))) := by
    intro i
    rw [hlin, Spec.deriv_add, Spec.deriv_smul, Spec.deriv_smul, opS_geo, opS_geo, opS_geo, mul_add, mul_add,
      mul_add, mul_smul_comm, mul_smul_comm, mul_smul_comm, mul_smul_comm, smul_mul_assoc, smul_mul_assoc]
  rw [hv, Finset.sum_congr rfl fun i _ => hterm i, Finset.sum_add_distrib, Finset.sum_add_distrib,
    Finset.sum_add_distrib, ← Finset.sum_mul, ← Finset.sum_mul, ← Finset.smul_sum, ← Finset.smul_sum, hvec,
    hvec, ← hvf, ← hvk]
  have hanti : Spec.vec (currentMetric N g0) vf * Spec.vec (currentMetric N g0) vk +
      Spec.vec (currentMetric N g0) vk * Spec.vec (currentMetric N g0) vf =
      (2 : K) • algebraMap K _ (Spec.ip (currentMetric N g0) vf vk) := by
    rw [Algebra.smul_def, ← map_mul, Spec.ip, Spec.two_smul_associated]
    exact CliffordAlgebra.ι_mul_ι_add_swap _ _
  rw [← hanti]
  abel

/-- C60: derivatives in the directions of two vector fields commute up to the derivative in the direction of their
bracket: `(a|grad)*((b|grad)*f) - (b|grad)*((a|grad)*f) = ((a|grad)*b - (b|grad)*a)|(grad*f)` for scalar fields `f`. -/
theorem C60_bracket (hD : ∀ i j f, D i (D j f) = D j (D i f)) (a b : Fin n → K) (f : K) :
    ∃ d e P Q F A A' B B',
    Dop.mvMul (Fields.ofMetric (fun i => D i) g0 N conn) .inner (Mv.vector a) (gradDop l false) = .inr d ∧
    Dop.mvMul (Fields.ofMetric (fun i => D i) g0 N conn) .inner (Mv.vector b) (gradDop l false) = .inr e ∧
    d.mulMv (Fields.ofMetric (fun i => D i) g0 N conn) .geo (Mv.vector b) = .inl P ∧
    e.mulMv (Fields.ofMetric (fun i => D i) g0 N conn) .geo (Mv.vector a) = .inl Q ∧
    (gradDop l false).mulMv (Fields.ofMetric (fun i => D i) g0 N conn) .geo (Mv.scalarMv f) = .inl F ∧
    e.mulMv (Fields.ofMetric (fun i => D i) g0 N conn) .geo (Mv.scalarMv f) = .inl B ∧
    d.mulMv (Fields.ofMetric (fun i => D i) g0 N conn) .geo B = .inl B' ∧
    d.mulMv (Fields.ofMetric (fun i => D i) g0 N conn) .geo (Mv.scalarMv f) = .inl A ∧
    e.mulMv (Fields.ofMetric (fun i => D i) g0 N conn) .geo A = .inl A' ∧
    (B'.sub (currentMetric N g0) A').eq (currentMetric N g0)
      ((P.sub (currentMetric N g0) Q).dot (currentMetric N g0) F) = true := by
  obtain ⟨Γ, u, hr, hg, -, hc, hlen, hu⟩ := grad_env hs hN hO h hl
  have hsc := currentMetric_symm hs N
  have hdir := fun a {F : Mv K n} {x} (hv : Rep (currentMetric N g0) F x) =>
    directional_rep hs hN hO h hl hr hc a hv
  obtain ⟨d, P, d1, d2, d3⟩ := hdir a (Rep.vector b)
  obtain ⟨e, Q, e1, e2, e3⟩ := hdir b (Rep.vector a)
  set v : Fin n → K := ∑ i, D i f • u i with hv
  have hdS : Spec.dS (currentMetric N g0) D Γ u (algebraMap K _ f) = Spec.vec (currentMetric N g0) v := by
    rw [hv, Spec.vec, map_sum]
    refine Finset.sum_congr rfl fun j _ => ?_
    rw [Spec.deriv_algebraMap, Algebra.algebraMap_eq_smul_one, Spec.wedge_smul, Spec.wedge_one, map_smul]
    rfl
  obtain ⟨F, f1, f2'⟩ := hg .geo (Rep.scalarMv f)
  have f2 : Rep (currentMetric N g0) F (Spec.vec (currentMetric N g0) v) := by
    refine f2'.congr ?_
    rw [hv, Spec.vec, map_sum]
    refine Finset.sum_congr rfl fun j _ => ?_
    rw [Spec.deriv_algebraMap, opS_geo, ← Algebra.commutes, ← Algebra.smul_def, map_smul]
    rfl
  -- derivatives of scalar fields
  have hsum : ∀ (a w : Fin n → K) (c : Fin n → K), w = ∑ i, c i • u i →
      ∑ i, Spec.ip (currentMetric N g0) a (u i) * c i = Spec.ip (currentMetric N g0) a w := by
    rintro a w c rfl
    rw [Spec.ip, map_sum]
    refine Finset.sum_congr rfl fun i _ => ?_
    rw [map_smul, smul_eq_mul, mul_comm]
  have hval : ∀ (a : Fin n → K) (c : K), ∑ i, Spec.ip (currentMetric N g0) a (u i) •
      Spec.deriv (currentMetric N g0) (D i) (Γ i) (algebraMap K _ c) =
      algebraMap K _ (∑ i, Spec.ip (currentMetric N g0) a (u i) * D i c) := by
    intro a c
    rw [map_sum]
    refine Finset.sum_congr rfl fun i _ => ?_
    rw [Spec.deriv_algebraMap, map_mul, Algebra.smul_def]
  have step : ∀ a : Fin n → K, ∃ d B, Dop.mvMul (Fields.ofMetric (fun i => D i) g0 N conn) .inner (Mv.vector a)
      (gradDop l false) = .inr d ∧
      d.mulMv (Fields.ofMetric (fun i => D i) g0 N conn) .geo (Mv.scalarMv f) = .inl B ∧
      Rep (currentMetric N g0) B (algebraMap K _ (Spec.ip (currentMetric N g0) a v)) := by
    intro a
    obtain ⟨d, B, h1, h2, h3⟩ := hdir a (Rep.scalarMv f)
    refine ⟨d, B, h1, h2, h3.congr ?_⟩
    rw [hval, hsum a v _ hv]
  obtain ⟨e', B, b1, b2, b3⟩ := step b
  obtain ⟨d', A, a1, a2, a3⟩ := step a
  have eqe : e' = e := by rw [e1] at b1; exact (Sum.inr.inj b1).symm
  have eqd : d' = d := by rw [d1] at a1; exact (Sum.inr.inj a1).symm
  subst eqe eqd
  obtain ⟨d', B', c1, c2, c3⟩ := hdir a b3
  obtain ⟨e', A', c4, c5, c6⟩ := hdir b a3
  have eqe := Sum.inr.inj (e1.symm.trans c4)
  have eqd := Sum.inr.inj (d1.symm.trans c1)
  subst eqe eqd
  refine ⟨_, _, P, Q, F, A, A', B, B', d1, e1, d2, e2, f1, b2, c2, a2, c5, ?_⟩
  rw [hval] at c3 c6
  -- the directional derivatives of vectors are vectors
  have hvec : ∀ a b : Fin n → K, ∑ i, Spec.ip (currentMetric N g0) a (u i) •
      Spec.deriv (currentMetric N g0) (D i) (Γ i) (Spec.vec (currentMetric N g0) b) =
      Spec.vec (currentMetric N g0) (∑ i, Spec.ip (currentMetric N g0) a (u i) • Spec.dvec (D i) (Γ i) b) := by
    intro a b
    conv_rhs => rw [Spec.vec, map_sum]
    refine Finset.sum_congr rfl fun i _ => ?_
    rw [Spec.deriv_vec, map_smul]
    rfl
  rw [hvec] at d3 e3
  have hsub : ∀ x y : Fin n → K, Spec.vec (currentMetric N g0) x - Spec.vec (currentMetric N g0) y =
      Spec.vec (currentMetric N g0) (x - y) := fun x y => (map_sub _ _ _).symm
  rw [(Rep.sub hsc c3 c6).eq_iff hsc (Rep.dot hsc (Rep.sub hsc d3 e3) f2), hsub, Spec.hestenesDot_vec_ip,
    ← map_sub]
  congr 1
  -- second derivatives are symmetric, because the curl of a gradient vanishes
  have hcurl := hr.dS_dS hD (algebraMap K _ f)
  rw [hdS, Spec.dS] at hcurl
  have hess : ∑ i, Spec.ip (currentMetric N g0) a (u i) * Spec.ip (currentMetric N g0) b (Spec.dvec (D i) (Γ i) v) =
      ∑ i, Spec.ip (currentMetric N g0) b (u i) *
        Spec.ip (currentMetric N g0) a (Spec.dvec (D i) (Γ i) v) := by
    have h1 := congrArg (fun x => Spec.con (currentMetric N g0) b (Spec.con (currentMetric N g0) a x)) hcurl
    simp only [map_sum, map_zero] at h1
    rw [← sub_eq_zero, ← Finset.sum_sub_distrib]
    refine algebraMap_inj (currentMetric N g0) ?_
    rw [map_sum, map_zero, ← h1]
    refine Finset.sum_congr rfl fun i _ => ?_
    have hone : ∀ c : K, Spec.wedge (currentMetric N g0) (Spec.vec (currentMetric N g0) (u i))
        (algebraMap K _ c) = c • Spec.vec (currentMetric N g0) (u i) := fun c => by
      rw [Algebra.algebraMap_eq_smul_one, Spec.wedge_smul, Spec.wedge_one]
    rw [Spec.deriv_vec, Spec.con_wedge_vec, Spec.con_vec, hone, map_sub (Spec.con _ b), map_smul, map_smul, Spec.con_vec,
      Spec.con_vec, Algebra.smul_def, Algebra.smul_def, ← map_mul, ← map_mul, ← map_sub]
    congr 1
    simp only [Spec.ip]
    ring
  have hlin : ∀ x y w : Fin n → K, Spec.ip (currentMetric N g0) (x - y) w =
      Spec.ip (currentMetric N g0) x w - Spec.ip (currentMetric N g0) y w := fun x y w => by
    rw [Spec.ip_comm, Spec.ip, map_sub, ← Spec.ip, ← Spec.ip, Spec.ip_comm w, Spec.ip_comm w]
  have hdv : ∀ a b : Fin n → K, ∑ i, Spec.ip (currentMetric N g0) a (u i) * D i (Spec.ip (currentMetric N g0) b v) =
      Spec.ip (currentMetric N g0) (∑ i, Spec.ip (currentMetric N g0) a (u i) • Spec.dvec (D i) (Γ i) b) v +
        ∑ i, Spec.ip (currentMetric N g0) a (u i) *
          Spec.ip (currentMetric N g0) b (Spec.dvec (D i) (Γ i) v) := by
    intro a b
    have hs1 : Spec.ip (currentMetric N g0)
        (∑ i, Spec.ip (currentMetric N g0) a (u i) • Spec.dvec (D i) (Γ i) b) v =
        ∑ i, Spec.ip (currentMetric N g0) a (u i) * Spec.ip (currentMetric N g0) (Spec.dvec (D i) (Γ i) b) v := by
      rw [Spec.ip_comm]
      refine (map_sum (QuadraticMap.associated (R := K) (Spec.Q (currentMetric N g0)) v) _ _).trans ?_
      refine Finset.sum_congr rfl fun i _ => ?_
      rw [map_smul, smul_eq_mul, Spec.ip_comm (Spec.dvec (D i) (Γ i) b) v]
    rw [hs1, ← Finset.sum_add_distrib]
    refine Finset.sum_congr rfl fun i _ => ?_
    rw [Spec.ip_deriv hsc (hr.compat i), mul_add]
  rw [hdv, hdv, hlin, hess]
  ring

end

/-- The hypotheses are those of `C60_curl_curl`; polar coordinates meet them. -/
example (a b : Fin 2 → Ex.Fun 2) : ∃ conn l I, connOf (fun i => Ex.partialD i) Ex.polar none = some conn ∧
    (gradDop l false).mulMv (Fields.ofMetric (fun i => Ex.partialD i) Ex.polar none conn) .geo
      ((Mv.vector a).dot Ex.polar (Mv.vector b)) = .inl I := by
  obtain ⟨d, hd⟩ := Ex.polar_de none (Or.inl rfl)
  have hdet : Ex.polar.det ≠ 0 := by
    have := Ex.coord_ne_zero (n := 2) 0
    simp [Ex.polar, Matrix.det_diagonal, Fin.prod_univ_two, this]
  obtain ⟨l, hl⟩ := Option.isSome_iff_exists.mp (C60_exists (N := none) Ex.polar_symm hdet (by simp) (by simp))
  have hc : connOf (fun i => Ex.partialD i) Ex.polar none = some (some d) := by
    rw [connOf, if_pos Ex.polar_connect, hd]; rfl
  obtain ⟨-, -, -, -, -, -, I, -, -, -, -, -, -, hI, -⟩ :=
    C60_grad_dot Ex.polar_symm (by simp) (by simp) hc hl a b
  exact ⟨_, l, I, hc, hI⟩

end GA
