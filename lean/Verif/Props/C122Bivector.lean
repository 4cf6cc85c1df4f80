import Verif.Props.C122
import Verif.Props.C27Bivector
import Verif.Proofs.Div
import Verif.Proofs.InnerLaws
import Verif.Proofs.Submanifold

/-!
# C122: the curvature bivectors

`curvatureBivector X N l i j` is one half of the sum of `R_ij(t_k) ^ u_k` over the coordinates, where `R_ij` is
`curvature X i j`, `t_k` the tangent vector of coordinate `k` and `u_k` the gradient vector `l[k]` of `Ga.grads`.
-/

set_option linter.unusedSectionVars false
set_option maxRecDepth 10000

namespace Spec
variable {n : ℕ} {K : Type*} [Field K] [DecidableEq K] [Invertible (2 : K)]
  {g : Matrix (Fin n) (Fin n) K} {D : Fin n → Derivation ℤ K K} {Γ : Fin n → Matrix (Fin n) (Fin n) K}
  {s : Fin n → K} {u : Fin n → Fin n → K}

/-- `sum(u_k ^ (t_k < x) for k) = r x` for `x` of grade `r`. -/
theorem Recip.euler (h : Recip g D Γ s u) (r : ℕ) (x : Cl g) :
    ∑ k, wedge g (vec g (u k)) (con g (Pi.single k (s k)) (grade g r x)) = (r : K) • grade g r x := by
  have hb : ∀ l : List (Fin n), ∑ k, wedge g (vec g (u k)) (con g (Pi.single k (s k)) (blade g l)) =
      (l.length : K) • blade g l := by
    intro l
    induction l with
    | nil => simp [blade_nil, con_one, wedge_zero]
    | cons i l ih =>
      have hv : ∀ v : Fin n → K, ∑ k, ip g (Pi.single k (s k)) v • vec g (u k) = vec g v := by
        intro v
        conv_rhs => rw [h.expand v]
        rw [vec, map_sum]
        refine Finset.sum_congr rfl fun k _ => ?_
        rw [h.single, map_smul]
        rfl
      have hbc : blade g (i :: l) = wedge g (vec g (Pi.single i 1)) (blade g l) := blade_cons g i l
      have e : ∀ k, wedge g (vec g (u k)) (con g (Pi.single k (s k)) (blade g (i :: l))) =
          wedge g (ip g (Pi.single k (s k)) (Pi.single i 1) • vec g (u k)) (blade g l) +
          wedge g (vec g (Pi.single i 1)) (wedge g (vec g (u k)) (con g (Pi.single k (s k)) (blade g l))) := by
        intro k
        rw [hbc, con_wedge_vec, wedge_sub, wedge_smul, smul_wedge, ← wedge_assoc, ← wedge_assoc,
          wedge_vec_right (Pi.single i 1), show CliffordAlgebra.involute (vec g (u k)) = -vec g (u k) from
            CliffordAlgebra.involute_ι _, ← neg_one_smul K (vec g (u k)), wedge_smul, smul_wedge, neg_one_smul,
          sub_neg_eq_add]
      rw [Finset.sum_congr rfl fun k _ => e k, Finset.sum_add_distrib, ← sum_wedge, hv, ← wedge_sum, ih, wedge_smul,
        ← hbc, List.length_cons, Nat.cast_succ, add_smul, one_smul, add_comm]
  induction x using blade_induction g with
  | h0 => simp [wedge_zero]
  | hadd x y hx hy => simp only [map_add, wedge_add, Finset.sum_add_distrib, hx, hy, smul_add]
  | hsm c l hl =>
    rw [map_smul, grade_blade]
    split_ifs with hr
    · simp only [map_smul, wedge_smul]
      rw [← Finset.smul_sum, hb, hr, smul_comm]
    · simp [wedge_zero]

end Spec

namespace GA
variable {n : ℕ} {K : Type*} [Field K] [DecidableEq K] [Invertible (2 : K)]

/-- `sum(R_ij(t_k) ^ u_k for k) / 2`. -/
def curvatureBivector (X : Fields (Fin n) K n) (N : Option (Fin n → K)) (l : List (Mv K n)) (i j : Fin n) :
    Mv K n :=
  (((List.finRange n).map fun k => (curvature X i j (Mv.vector (Pi.single k (scaleOf N k)))).wedge X.g
    (l.getD k Mv.zero)).foldl (Mv.add X.g) Mv.zero).smul ⅟2

section
variable {g0 : Matrix (Fin n) (Fin n) K} {D : Fin n → Derivation ℤ K K} {N : Option (Fin n → K)}
  {conn : Option (Fin n → Fin n → Expr K n)} {l : List (Mv K n)}
variable (hs : g0.IsSymm)
  (hN : ∀ N', N = some N' → ∀ i, N' i ^ 2 = g0 i i ∨ N' i ^ 2 = - g0 i i)
  (hO : N.isSome → isOrtho g0 = true) (h : connOf (fun i => D i) g0 N = some conn)
  (hl : gradVecs g0 N = some l)
include hs hN hO h hl

/-- Values of the curvature bivectors. -/
theorem curvatureBivector_rep {Γ : Fin n → Matrix (Fin n) (Fin n) K} {u : Fin n → Fin n → K}
    (hr : Spec.Recip (currentMetric N g0) D Γ (scaleOf N) u) (hc : IsConnection (currentMetric N g0) conn Γ)
    (hu : ∀ j : Fin n, Rep (currentMetric N g0) (l.getD j Mv.zero) (Spec.vec (currentMetric N g0) (u j)))
    (hD : ∀ i j f, D i (D j f) = D j (D i f)) (i j : Fin n) :
    let B := curvatureBivector (Fields.ofMetric (fun i => D i) g0 N conn) N l i j
    ∃ b : Spec.Cl (currentMetric N g0), Rep (currentMetric N g0) B b ∧ Spec.Homogeneous (currentMetric N g0) 2 b ∧
      ∀ x, Spec.curv (currentMetric N g0) D Γ i j x = (⅟2 : K) • (b * x - x * b) := by
  intro B
  have hsc := currentMetric_symm hs N
  set g := currentMetric N g0 with hgd
  have rB : Rep g B ((⅟2 : K) • ∑ k, Spec.wedge g
      (Spec.vec g (Spec.curvVec D Γ i j (Pi.single k (scaleOf N k)))) (Spec.vec g (u k))) := by
    have hf := (foldl_add_rep hsc (List.finRange n) _ _ (fun k _ => Rep.wedge hsc
      (curvature_rep (D := D) hs hc i j (Rep.vector (Pi.single k (scaleOf N k)))) (hu k)) Rep.zero).smul (⅟2 : K)
    refine hf.congr ?_
    rw [zero_add, ← List.sum_toFinset _ (List.nodup_finRange n), List.toFinset_finRange]
    refine congrArg _ (Finset.sum_congr rfl fun k _ => ?_)
    rw [Spec.curv_vec]
  set b : Spec.Cl g := (⅟2 : K) • ∑ k, Spec.wedge g
      (Spec.vec g (Spec.curvVec D Γ i j (Pi.single k (scaleOf N k)))) (Spec.vec g (u k)) with hb
  have hom : Spec.Homogeneous g 2 b := Spec.Homogeneous.smul _ (Spec.homogeneous_sum' fun k _ =>
    Spec.homogeneous_wedge (r := 1) (s := 1) (Spec.homogeneous_vec _) (Spec.homogeneous_vec _))
  -- the contraction with a vector
  have hcv : ∀ v w : Fin n → K, Spec.con g v (Spec.vec g w) = algebraMap K _ (Spec.ip g v w) :=
    fun v w => Spec.con_vec v w
  have hip : ∀ (w : Fin n → K) k, Spec.ip g w (u k) = w k / scaleOf N k := by
    intro w k
    rw [Spec.ip_dotProduct hsc, Finset.sum_eq_single k]
    · rw [hr.recip, if_pos rfl, div_eq_mul_inv]
    · intro b _ hb; rw [hr.recip, if_neg hb, mul_zero]
    · simp
  have hvs : ∀ (f : Fin n → Fin n → K), Spec.vec g (∑ k, f k) = ∑ k, Spec.vec g (f k) :=
    fun f => map_sum _ _ _
  have hvm : ∀ (c : K) (v : Fin n → K), Spec.vec g (c • v) = c • Spec.vec g v := fun c v => map_smul _ _ _
  have hcon : ∀ w, Spec.con g w b = - Spec.curv g D Γ i j (Spec.vec g w) := by
    intro w
    have h1 : ∑ k, Spec.ip g w (u k) • Spec.vec g (Spec.curvVec D Γ i j (Pi.single k (scaleOf N k))) =
        Spec.curv g D Γ i j (Spec.vec g w) := by
      have e : Spec.vec g w = ∑ k, Spec.ip g w (u k) • Spec.vec g (Pi.single k (scaleOf N k)) := by
        have e' : w = ∑ k, Spec.ip g w (u k) • (Pi.single k (scaleOf N k) : Fin n → K) := by
          funext m
          simp only [Finset.sum_apply, Pi.smul_apply, Pi.single_apply, smul_eq_mul, mul_ite, mul_zero, hip]
          rw [Finset.sum_ite_eq, if_pos (Finset.mem_univ _), div_mul_cancel₀ _ (hr.ne m)]
        conv_lhs => rw [e', hvs]
        exact Finset.sum_congr rfl fun k _ => hvm _ _
      have hsum : ∀ (s : Finset (Fin n)) (f : Fin n → Spec.Cl g),
          Spec.curv g D Γ i j (∑ k ∈ s, f k) = ∑ k ∈ s, Spec.curv g D Γ i j (f k) := by
        intro s f
        simp only [Spec.curv, Spec.deriv_sum, Finset.sum_sub_distrib]
      rw [e, hsum]
      refine Finset.sum_congr rfl fun k _ => ?_
      rw [Spec.curv_smul hD, Spec.curv_vec]
    have h2 : ∑ k, Spec.ip g w (Spec.curvVec D Γ i j (Pi.single k (scaleOf N k))) • Spec.vec g (u k) =
        - Spec.curv g D Γ i j (Spec.vec g w) := by
      rw [Spec.curv_vec, hr.expand (Spec.curvVec D Γ i j w), hvs, ← Finset.sum_neg_distrib]
      refine Finset.sum_congr rfl fun k _ => ?_
      rw [hvm, hr.single, Spec.ip_comm w, Spec.curvVec_skew hsc hr.compat hD, neg_smul, Spec.ip_comm]
    rw [hb, map_smul, map_sum]
    have h3 : ∀ k, Spec.con g w (Spec.wedge g
        (Spec.vec g (Spec.curvVec D Γ i j (Pi.single k (scaleOf N k)))) (Spec.vec g (u k))) =
        Spec.ip g w (Spec.curvVec D Γ i j (Pi.single k (scaleOf N k))) • Spec.vec g (u k) -
        Spec.ip g w (u k) • Spec.vec g (Spec.curvVec D Γ i j (Pi.single k (scaleOf N k))) := by
      intro k
      rw [Spec.con_wedge_vec, hcv, Algebra.algebraMap_eq_smul_one, Spec.wedge_smul, Spec.wedge_one]
    rw [Finset.sum_congr rfl fun k _ => h3 k, Finset.sum_sub_distrib, h1, h2, ← neg_add', ← two_smul K, ← smul_neg,
      smul_smul, invOf_mul_self, one_smul]
  clear_value b
  have key : ∀ x : Spec.Cl g, Spec.curv g D Γ i j x = (⅟2 : K) • (b * x - x * b) := by
    intro x
    induction x using CliffordAlgebra.left_induction with
    | algebraMap c => rw [Algebra.commutes, sub_self, smul_zero, Spec.curv_algebraMap hD]
    | add x y hx hy => rw [Spec.curv_add, hx, hy, mul_add, add_mul, ← smul_add]; congr 1; abel
    | ι_mul x w hx =>
      have e := Spec.curv_opS (D := D) (Γ := Γ) hsc hr.compat .geo i j (Spec.vec g w) x
      simp only [opS_geo] at e
      change Spec.curv g D Γ i j (Spec.vec g w * x) = (⅟2 : K) • (b * (Spec.vec g w * x) - Spec.vec g w * x * b)
      rw [e, hx, ← neg_neg (Spec.curv g D Γ i j (Spec.vec g w)), ← hcon, ← Spec.comm_bivector_vec hom,
        smul_mul_assoc, mul_smul_comm, ← smul_add]
      congr 1
      noncomm_ring
  exact ⟨b, rB, hom, key⟩

/-- C122: the curvature of any multivector field is its commutator with a bivector field:
`A.diff(x_j).diff(x_i) - A.diff(x_i).diff(x_j) == B_ij >> A`. -/
theorem C122_bivector (hD : ∀ i j f, D i (D j f) = D j (D i f)) (i j : Fin n) :
    let X := Fields.ofMetric (fun i => D i) g0 N conn
    let B := curvatureBivector X N l i j
    B.WF (currentMetric N g0) ∧ B.isBladeRep = true ∧ (B.getGrade 2).eq (currentMetric N g0) B = true ∧
    ∀ A : Mv K n, A.WF (currentMetric N g0) → A.isBladeRep = true →
      (curvature X i j A).eq (currentMetric N g0) (B.comm (currentMetric N g0) A) = true := by
  intro X B
  obtain ⟨Γ, u, hr, -, -, hc, -, hu⟩ := grad_env hs hN hO h hl
  have hsc := currentMetric_symm hs N
  obtain ⟨b, rB, hom, key⟩ := curvatureBivector_rep hs hN hO h hl hr hc hu hD i j
  refine ⟨rB.wf, rB.flag, ?_, fun A hA hA' => ?_⟩
  · rw [(rB.getGrade 2).eq_iff hsc rB, hom.grade_eq]
  · have rA := Rep.of_wf hA hA'
    rw [(curvature_rep hs hc i j rA).eq_iff hsc (Rep.commProd hsc rB rA), key]

/-- C122: the second Bianchi identity for the curvature bivectors,
`B_jk.diff(x_i) + B_ki.diff(x_j) + B_ij.diff(x_k) == 0`. -/
theorem C122_bivector_bianchi (hD : ∀ i j f, D i (D j f) = D j (D i f)) (i j k : Fin n) :
    let X := Fields.ofMetric (fun i => D i) g0 N conn
    let B := curvatureBivector X N l
    ((((B j k).diffN X i 1).add (currentMetric N g0) ((B k i).diffN X j 1)).add (currentMetric N g0)
      ((B i j).diffN X k 1)).eq (currentMetric N g0) Mv.zero = true := by
  intro X B
  obtain ⟨Γ, u, hr, -, -, hc, -, hu⟩ := grad_env hs hN hO h hl
  have hsc := currentMetric_symm hs N
  have hall := fun i j => curvatureBivector_rep hs hN hO h hl hr hc hu hD i j
  choose b rB hom key using hall
  have hd : ∀ (i : Fin n) {A : Mv K n} {x : Spec.Cl (currentMetric N g0)}, Rep (currentMetric N g0) A x →
      Rep (currentMetric N g0) (A.diffN X i 1) (Spec.deriv (currentMetric N g0) (D i) (Γ i) x) :=
    fun i _ _ hA => diffN_rep (X := X) hsc (fun _ => rfl) (fun _ => rfl) hc i 1 hA
  rw [(Rep.add hsc (Rep.add hsc (hd i (rB j k)) (hd j (rB k i))) (hd k (rB i j))).eq_iff hsc Rep.zero]
  set c := Spec.deriv (currentMetric N g0) (D i) (Γ i) (b j k) +
    Spec.deriv (currentMetric N g0) (D j) (Γ j) (b k i) + Spec.deriv (currentMetric N g0) (D k) (Γ k) (b i j) with hcd
  have hh : ∀ i j k, Spec.Homogeneous (currentMetric N g0) 2
      (Spec.deriv (currentMetric N g0) (D i) (Γ i) (b j k)) := by
    intro i j k
    rw [← (hom j k).grade_eq, Spec.deriv_grade]
    exact Spec.homogeneous_grade _ _
  have hhc : Spec.Homogeneous (currentMetric N g0) 2 c := ((hh i j k).add (hh j k i)).add (hh k i j)
  have hterm : ∀ i j k x, (⅟2 : K) • (Spec.deriv (currentMetric N g0) (D i) (Γ i) (b j k) * x -
      x * Spec.deriv (currentMetric N g0) (D i) (Γ i) (b j k)) =
      Spec.deriv (currentMetric N g0) (D i) (Γ i) (Spec.curv (currentMetric N g0) D Γ j k x) -
      Spec.curv (currentMetric N g0) D Γ j k (Spec.deriv (currentMetric N g0) (D i) (Γ i) x) := by
    intro i j k x
    rw [key, key, Spec.deriv_smul, Spec.deriv_sub, Spec.deriv_mul hsc (hr.compat i), Spec.deriv_mul hsc (hr.compat i)]
    have h0 : D i (⅟2 : K) = 0 := by
      have h2 := congrArg (D i) (invOf_mul_self (2 : K))
      rw [Derivation.leibniz, Derivation.map_one_eq_zero] at h2
      have h3 : D i (2 : K) = 0 := by exact_mod_cast (D i).map_natCast 2
      rw [h3, smul_zero, zero_add, smul_eq_mul] at h2
      exact (mul_eq_zero.mp h2).resolve_left (isUnit_of_invertible (2 : K)).ne_zero
    rw [h0, zero_smul, zero_add, ← smul_sub]
    congr 1
    abel
  have hcomm : ∀ x, (⅟2 : K) • (c * x - x * c) = 0 := by
    intro x
    have e : (⅟2 : K) • (c * x - x * c) = (⅟2 : K) • (Spec.deriv (currentMetric N g0) (D i) (Γ i) (b j k) * x -
        x * Spec.deriv (currentMetric N g0) (D i) (Γ i) (b j k)) +
        (⅟2 : K) • (Spec.deriv (currentMetric N g0) (D j) (Γ j) (b k i) * x -
        x * Spec.deriv (currentMetric N g0) (D j) (Γ j) (b k i)) +
        (⅟2 : K) • (Spec.deriv (currentMetric N g0) (D k) (Γ k) (b i j) * x -
        x * Spec.deriv (currentMetric N g0) (D k) (Γ k) (b i j)) := by
      rw [← smul_add, ← smul_add]
      congr 1
      rw [hcd]
      noncomm_ring
    rw [e, hterm, hterm, hterm]
    simp only [Spec.curv, Spec.deriv_sub]
    abel
  have hcon : ∀ w, Spec.con (currentMetric N g0) w c = 0 := fun w => by
    rw [← neg_eq_zero, ← Spec.comm_bivector_vec hhc, hcomm]
  have hE := hr.euler 2 c
  rw [hhc.grade_eq] at hE
  simp only [hcon, Spec.wedge_zero, Finset.sum_const_zero] at hE
  exact ((smul_eq_zero.mp hE.symm).resolve_left (by exact_mod_cast (isUnit_of_invertible (2 : K)).ne_zero))

/-- C122: the derivatives by two coordinates commute on all multivector fields exactly if they commute on all vector
fields, and exactly if the curvature bivector is zero. -/
theorem C122_flat_iff (hD : ∀ i j f, D i (D j f) = D j (D i f)) (i j : Fin n) :
    let X := Fields.ofMetric (fun i => D i) g0 N conn
    ((∀ A : Mv K n, A.WF (currentMetric N g0) → A.isBladeRep = true →
      ((A.diffN X j 1).diffN X i 1).eq (currentMetric N g0) ((A.diffN X i 1).diffN X j 1) = true) ↔
      (curvatureBivector X N l i j).eq (currentMetric N g0) Mv.zero = true) ∧
    ((∀ v : Fin n → K, (((Mv.vector v).diffN X j 1).diffN X i 1).eq (currentMetric N g0)
        (((Mv.vector v).diffN X i 1).diffN X j 1) = true) ↔
      (curvatureBivector X N l i j).eq (currentMetric N g0) Mv.zero = true) := by
  intro X
  obtain ⟨Γ, u, hr, -, -, hc, -, hu⟩ := grad_env hs hN hO h hl
  have hsc := currentMetric_symm hs N
  obtain ⟨b, rB, hom, key⟩ := curvatureBivector_rep hs hN hO h hl hr hc hu hD i j
  have hd : ∀ (i : Fin n) {A : Mv K n} {x : Spec.Cl (currentMetric N g0)}, Rep (currentMetric N g0) A x →
      Rep (currentMetric N g0) (A.diffN X i 1) (Spec.deriv (currentMetric N g0) (D i) (Γ i) x) :=
    fun i _ _ hA => diffN_rep (X := X) hsc (fun _ => rfl) (fun _ => rfl) hc i 1 hA
  have hA : ∀ {A : Mv K n} {x : Spec.Cl (currentMetric N g0)}, Rep (currentMetric N g0) A x →
      (((A.diffN X j 1).diffN X i 1).eq (currentMetric N g0) ((A.diffN X i 1).diffN X j 1) = true ↔
        (⅟2 : K) • (b * x - x * b) = 0) := by
    intro A x r
    rw [(hd i (hd j r)).eq_iff hsc (hd j (hd i r)), ← key, Spec.curv, sub_eq_zero]
  have h0 : (curvatureBivector X N l i j).eq (currentMetric N g0) Mv.zero = true ↔ b = 0 := rB.eq_iff hsc Rep.zero
  have hback : (∀ v : Fin n → K, (((Mv.vector v).diffN X j 1).diffN X i 1).eq (currentMetric N g0)
        (((Mv.vector v).diffN X i 1).diffN X j 1) = true) → b = 0 := by
    intro hv
    have hcon : ∀ w, Spec.con (currentMetric N g0) w b = 0 := fun w => by
      rw [← neg_eq_zero, ← Spec.comm_bivector_vec hom]
      exact (hA (Rep.vector w)).mp (hv w)
    have hE := hr.euler 2 b
    rw [hom.grade_eq] at hE
    simp only [hcon, Spec.wedge_zero, Finset.sum_const_zero] at hE
    exact ((smul_eq_zero.mp hE.symm).resolve_left (by exact_mod_cast (isUnit_of_invertible (2 : K)).ne_zero))
  refine ⟨⟨fun hv => h0.mpr (hback fun v => ?_), fun hb A hw hf => ?_⟩,
    fun hv => h0.mpr (hback hv), fun hb v => ?_⟩
  · exact hv _ (Rep.vector (g := currentMetric N g0) v).wf (Rep.vector (g := currentMetric N g0) v).flag
  · rw [hA (Rep.of_wf hw hf), h0.mp hb, zero_mul, mul_zero, sub_self, smul_zero]
  · rw [hA (Rep.vector v), h0.mp hb, zero_mul, mul_zero, sub_self, smul_zero]

end

/-- The hypotheses hold for the metric `diag(1, r)`, which is curved (`Ex.bent_curved`). -/
example : ∃ conn l, connOf (fun i => Ex.partialD i) Ex.bent none = some conn ∧ gradVecs Ex.bent none = some l ∧
    ((curvatureBivector (Fields.ofMetric (fun i => Ex.partialD i) Ex.bent none conn) none l 0 1).getGrade 2).eq
      Ex.bent (curvatureBivector (Fields.ofMetric (fun i => Ex.partialD i) Ex.bent none conn) none l 0 1) =
      true := by
  obtain ⟨d, hd⟩ := Ex.bent_conn
  obtain ⟨l, hl⟩ := Ex.bent_grad
  exact ⟨_, l, hd, hl, (C122_bivector Ex.bent_symm (by simp) (by simp) hd hl
    (fun i j f => Ex.partialD_comm i j f) 0 1).2.2.1⟩

end GA
