import Verif.Props.C122Bivector
import Verif.Proofs.Pseudo

/-!
# C122: curvature and duals

Second derivatives of multiples of the pseudoscalar commute, and curvature commutes with multiplication by the
pseudoscalar on either side.
-/

set_option linter.unusedSectionVars false
set_option maxRecDepth 10000

namespace Spec
open GA CliffordAlgebra
variable {n : ℕ} {K : Type*} [Field K] [DecidableEq K] [Invertible (2 : K)] {g : Matrix (Fin n) (Fin n) K}

/-- A vector commutes with the pseudoscalar up to a sign. -/
theorem vec_pseudo (v : Fin n → K) : vec g v * pseudo g = -((-1 : K) ^ n • (pseudo g * vec g v)) := by
  have h := two_smul_wedge_vec (g := g) v (pseudo g)
  rw [wedge_pseudo, smul_zero, homogeneous_involute homogeneous_pseudo, smul_mul_assoc] at h
  exact eq_neg_of_add_eq_zero_left h.symm

/-- Bivectors commute with the pseudoscalar. -/
theorem bivector_pseudo {b : Cl g} (hb : Homogeneous g 2 b) : b * pseudo g = pseudo g * b := by
  have key : ∀ x : Cl g, grade g 2 x * pseudo g = pseudo g * grade g 2 x := by
    intro x
    induction x using blade_induction g with
    | h0 => simp
    | hadd x y hx hy => rw [map_add, add_mul, hx, hy, mul_add]
    | hsm c l hl =>
      rw [map_smul, grade_blade]
      split_ifs with h
      · obtain ⟨i, j, rfl⟩ := List.length_eq_two.mp h
        have h2 : (-1 : K) ^ n * (-1) ^ n = 1 := by rw [← mul_pow, neg_one_mul, neg_neg, one_pow]
        have e : blade g [i, j] = vec g (Pi.single i 1) * vec g (Pi.single j 1) -
            algebraMap K _ (ip g (Pi.single i 1) (Pi.single j 1)) := by
          rw [blade_cons, blade_cons, blade_nil, wedge_one]
          change wedge g (vec g (Pi.single i 1)) (vec g (Pi.single j 1)) = _
          rw [wedge_vec, con_vec]
        rw [e, smul_mul_assoc, mul_smul_comm, sub_mul, mul_sub, Algebra.commutes, mul_assoc, vec_pseudo, mul_neg,
          mul_smul_comm, ← mul_assoc, vec_pseudo, neg_mul, smul_neg, neg_neg, smul_mul_assoc, smul_smul, h2,
          one_smul, mul_assoc]
      · simp
  have := key b
  rwa [hb.grade_eq] at this

end Spec

namespace GA
variable {n : ℕ} {K : Type*} [Field K] [DecidableEq K] [Invertible (2 : K)]

section
variable {g0 : Matrix (Fin n) (Fin n) K} {D : Fin n → Derivation ℤ K K} {N : Option (Fin n → K)}
  {conn : Option (Fin n → Fin n → Expr K n)} {l : List (Mv K n)}
variable (hs : g0.IsSymm)
  (hN : ∀ N', N = some N' → ∀ i, N' i ^ 2 = g0 i i ∨ N' i ^ 2 = - g0 i i)
  (hO : N.isSome → isOrtho g0 = true) (h : connOf (fun i => D i) g0 N = some conn)
  (hl : gradVecs g0 N = some l)
include hs hN hO h hl

/-- C122: for fields that are multiples of the pseudoscalar `E()` the order of the derivatives does not matter, and
`R_ij(A*E()) == R_ij(A)*E()`, `R_ij(E()*A) == E()*R_ij(A)` for every multivector field `A`. -/
theorem C122_dual (hD : ∀ i j f, D i (D j f) = D j (D i f)) (i j : Fin n) :
    let X := Fields.ofMetric (fun i => D i) g0 N conn
    let g := currentMetric N g0
    (∀ f : K, ((((pseudoE : Mv K n).smul f).diffN X j 1).diffN X i 1).eq g
      ((((pseudoE : Mv K n).smul f).diffN X i 1).diffN X j 1) = true) ∧
    ∀ A : Mv K n, A.WF g → A.isBladeRep = true →
      (curvature X i j (A.mul g pseudoE)).eq g ((curvature X i j A).mul g pseudoE) = true ∧
      (curvature X i j ((pseudoE : Mv K n).mul g A)).eq g ((pseudoE : Mv K n).mul g (curvature X i j A)) = true := by
  intro X g
  obtain ⟨Γ, u, hr, -, -, hc, -, hu⟩ := grad_env hs hN hO h hl
  have hsc := currentMetric_symm hs N
  obtain ⟨b, rB, hom, key⟩ := curvatureBivector_rep hs hN hO h hl hr hc hu hD i j
  have hb := Spec.bivector_pseudo hom
  have hd : ∀ (i : Fin n) {A : Mv K n} {x : Spec.Cl (currentMetric N g0)}, Rep (currentMetric N g0) A x →
      Rep (currentMetric N g0) (A.diffN X i 1) (Spec.deriv (currentMetric N g0) (D i) (Γ i) x) :=
    fun i _ _ hA => diffN_rep (X := X) hsc (fun _ => rfl) (fun _ => rfl) hc i 1 hA
  refine ⟨fun f => ?_, fun A hA hA' => ?_⟩
  · have r := (pseudoE_rep (g := currentMetric N g0)).smul f
    rw [(hd i (hd j r)).eq_iff hsc (hd j (hd i r)), ← sub_eq_zero]
    change Spec.curv (currentMetric N g0) D Γ i j _ = 0
    rw [key, mul_smul_comm, smul_mul_assoc, hb, sub_self, smul_zero]
  · have rA := Rep.of_wf hA hA'
    have rI := pseudoE_rep (g := currentMetric N g0)
    have rAI := mulOp_rep hsc .geo rA rI
    have rIA := mulOp_rep hsc .geo rI rA
    have rC := curvature_rep (D := D) hs hc i j rA
    constructor
    · refine ((curvature_rep hs hc i j rAI).eq_iff hsc (mulOp_rep hsc .geo rC rI)).mpr ?_
      simp only [opS, key]
      rw [smul_mul_assoc, sub_mul, mul_assoc, mul_assoc, mul_assoc, ← hb]
    · refine ((curvature_rep hs hc i j rIA).eq_iff hsc (mulOp_rep hsc .geo rI rC)).mpr ?_
      simp only [opS, key]
      rw [mul_smul_comm, mul_sub, ← mul_assoc, hb, mul_assoc, mul_assoc]

end

/-- C122: with two coordinates, curvature is one scalar field `k`: `R_ij(A) == k_ij * (E() >> A)`. -/
theorem C122_surface {g0 : Matrix (Fin 2) (Fin 2) K} {D : Fin 2 → Derivation ℤ K K} {N : Option (Fin 2 → K)}
    {conn : Option (Fin 2 → Fin 2 → Expr K 2)} {l : List (Mv K 2)} (hs : g0.IsSymm)
    (hN : ∀ N', N = some N' → ∀ i, N' i ^ 2 = g0 i i ∨ N' i ^ 2 = - g0 i i)
    (hO : N.isSome → isOrtho g0 = true) (h : connOf (fun i => D i) g0 N = some conn)
    (hl : gradVecs g0 N = some l) (hD : ∀ i j f, D i (D j f) = D j (D i f)) :
    let X := Fields.ofMetric (fun i => D i) g0 N conn
    let g := currentMetric N g0
    ∃ k : K, ∀ A : Mv K 2, A.WF g → A.isBladeRep = true →
      (curvature X 0 1 A).eq g (((pseudoE : Mv K 2).comm g A).smul k) = true ∧
      (curvature X 1 0 A).eq g (((pseudoE : Mv K 2).comm g A).smul (-k)) = true := by
  intro X g
  obtain ⟨Γ, u, hr, -, -, hc, -, hu⟩ := grad_env hs hN hO h hl
  have hsc := currentMetric_symm hs N
  obtain ⟨b, rB, hom, key⟩ := curvatureBivector_rep hs hN hO h hl hr hc hu hD 0 1
  obtain ⟨k, rfl⟩ := Spec.homogeneous_top hom
  refine ⟨k, fun A hA hA' => ?_⟩
  have rA := Rep.of_wf hA hA'
  have rI := pseudoE_rep (g := currentMetric N g0)
  have e : Spec.curv (currentMetric N g0) D Γ 0 1 (A.val g) = k • (⅟2 : K) • (Spec.pseudo (currentMetric N g0) * A.val g -
      A.val g * Spec.pseudo (currentMetric N g0)) := by
    rw [key, smul_mul_assoc, mul_smul_comm, ← smul_sub, smul_comm]
  constructor
  · rw [(curvature_rep hs hc 0 1 rA).eq_iff hsc ((Rep.commProd hsc rI rA).smul k), e]
  · rw [(curvature_rep hs hc 1 0 rA).eq_iff hsc ((Rep.commProd hsc rI rA).smul (-k)), neg_smul, ← e]
    simp only [Spec.curv, neg_sub]

/-- The hypotheses hold for the curved metric `diag(1, r)`. -/
example : ∃ conn, connOf (fun i => Ex.partialD i) Ex.bent none = some conn ∧
    ∀ f, ((((pseudoE : Mv _ 2).smul f).diffN (Fields.ofMetric (fun i => Ex.partialD i) Ex.bent none conn) 1 1).diffN
      (Fields.ofMetric (fun i => Ex.partialD i) Ex.bent none conn) 0 1).eq Ex.bent
      ((((pseudoE : Mv _ 2).smul f).diffN (Fields.ofMetric (fun i => Ex.partialD i) Ex.bent none conn) 0 1).diffN
      (Fields.ofMetric (fun i => Ex.partialD i) Ex.bent none conn) 1 1) = true := by
  obtain ⟨d, hd⟩ := Ex.bent_conn
  obtain ⟨l, hl⟩ := Ex.bent_grad
  exact ⟨_, hd, (C122_dual Ex.bent_symm (by simp) (by simp) hd hl (fun i j f => Ex.partialD_comm i j f) 0 1).1⟩

/-- The hypotheses of `C122_surface` hold for the curved metric `diag(1, r)`, with a scalar field that is not zero. -/
example : ∃ conn k, connOf (fun i => Ex.partialD i) Ex.bent none = some conn ∧ k ≠ 0 ∧
    (curvature (Fields.ofMetric (fun i => Ex.partialD i) Ex.bent none conn) 0 1 (Mv.vector (Pi.single 1 1))).eq
      Ex.bent (((pseudoE : Mv _ 2).comm Ex.bent (Mv.vector (Pi.single 1 1))).smul k) = true := by
  obtain ⟨d, hd⟩ := Ex.bent_conn
  obtain ⟨l, hl⟩ := Ex.bent_grad
  obtain ⟨k, hk⟩ := C122_surface Ex.bent_symm (by simp) (by simp) hd hl (fun i j f => Ex.partialD_comm i j f)
  have r := Rep.vector (g := Ex.bent) (Pi.single 1 1)
  have h1 := (hk _ r.wf r.flag).1
  refine ⟨_, k, hd, ?_, h1⟩
  rintro rfl
  have h2 := Ex.bent_curved hd
  have rI := pseudoE_rep (g := Ex.bent)
  obtain ⟨Γ, hc, -⟩ := connOf_spec Ex.bent_symm Ex.partialD (by simp) hd
  have rc := curvature_rep (D := Ex.partialD) Ex.bent_symm hc 0 1 r
  have h3 := (rc.eq_iff Ex.bent_symm ((Rep.commProd Ex.bent_symm rI r).smul 0)).mp h1
  rw [zero_smul] at h3
  rw [(rc.eq_iff Ex.bent_symm Rep.zero).mpr h3] at h2
  cases h2

end GA
