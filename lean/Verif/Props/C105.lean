import Verif.Props.C60
import Verif.Props.C103

/-!
# C105: derivatives of duals

The setting is that of C60: `g0` is the metric tensor given by the user, `N = some e_norm` if the algebra is
constructed with `norm=True`, `F.diffN X k 1` models `F.diff(x_k)` and `(gradDop l false).mulMv X op F` models
`grad op F`.  As in C18, `i` and `iInv` model `Ga.i` and `Ga.i_inv`, and `F.dual g i iInv mode` models `F.dual()`.
-/

set_option linter.unusedSectionVars false
set_option maxRecDepth 10000

namespace Spec
open CliffordAlgebra
variable {n : ℕ} {R : Type*} [CommRing R] [Invertible (2 : R)] {g : Matrix (Fin n) (Fin n) R}

/-- `v E = (-1)^(n+1) E v`. -/
theorem vec_mul_pseudo (v : Fin n → R) :
    vec g v * pseudo g = (-1 : R) ^ (n + 1) • (pseudo g * vec g v) := by
  have h1 : involute (pseudo g) = (-1 : R) ^ n • pseudo g := homogeneous_involute homogeneous_pseudo
  have h2 : vec g v * pseudo g = con g v (pseudo g) := by rw [vec_mul, wedge_pseudo, add_zero]
  have h3 : ((-1 : R) ^ n) * (-1) ^ n = 1 := by rw [← mul_pow, neg_one_mul, neg_neg, one_pow]
  rw [mul_vec, h1, mul_smul_comm, map_smul, h2, smul_sub, smul_smul, smul_smul, smul_smul, pow_succ]
  have h4 : con g v (pseudo g) = ((-1 : R) ^ n * (-1) ^ n) • con g v (pseudo g) := by rw [h3, one_smul]
  conv_lhs => rw [h4]
  module

theorem vec_mul_pseudo_mul (v : Fin n → R) (x : Cl g) :
    vec g v * (pseudo g * x) = (-1 : R) ^ (n + 1) • (pseudo g * (vec g v * x)) := by
  rw [← mul_assoc, vec_mul_pseudo, smul_mul_assoc, mul_assoc]

theorem con_pseudo_mul (v : Fin n → R) (x : Cl g) :
    con g v (pseudo g * x) = (-1 : R) ^ (n + 1) • (pseudo g * wedge g (vec g v) x) := by
  have h1 : involute (pseudo g) = (-1 : R) ^ n • pseudo g := homogeneous_involute homogeneous_pseudo
  have h2 : con g v (pseudo g) = vec g v * pseudo g := by rw [vec_mul, wedge_pseudo, add_zero]
  rw [con_mul, h1, h2, vec_mul_pseudo, smul_mul_assoc, mul_assoc, vec_mul, mul_add, smul_mul_assoc, pow_succ]
  module

theorem wedge_pseudo_mul (v : Fin n → R) (x : Cl g) :
    wedge g (vec g v) (pseudo g * x) = (-1 : R) ^ (n + 1) • (pseudo g * con g v x) := by
  have h := vec_mul_pseudo_mul (g := g) v x
  rw [vec_mul, con_pseudo_mul, vec_mul v x, mul_add, smul_add] at h
  linear_combination (norm := module) h

end Spec

namespace GA
variable {n : ℕ} {K : Type*} [Field K] [DecidableEq K] [Invertible (2 : K)]

/-- The derivative of a pseudoscalar with constant square vanishes. -/
theorem deriv_constSq_pseudo {g : Matrix (Fin n) (Fin n) K} (hs : g.IsSymm) {D : Derivation ℤ K K}
    {Γ : Matrix (Fin n) (Fin n) K} (hc : Spec.Compatible g D Γ) {c s : K} (hD : D s = 0) (h0 : s ≠ 0)
    (h : c * c * eSq g = s) : Spec.deriv g D Γ (c • Spec.pseudo g) = 0 := by
  have hH : Spec.Homogeneous g n (Spec.deriv g D Γ (c • Spec.pseudo g)) := by
    have h1 : Spec.Homogeneous g n (c • Spec.pseudo g) := Spec.homogeneous_pseudo.smul c
    have := Spec.deriv_grade (g := g) D Γ n (c • Spec.pseudo g)
    rw [h1.grade_eq] at this
    rw [this]
    exact Spec.homogeneous_grade _ _
  obtain ⟨f, hf⟩ := Spec.homogeneous_top hH
  have hm := Spec.deriv_mul hs hc (c • Spec.pseudo g) (c • Spec.pseudo g)
  rw [smul_mul_smul_comm, eSq_val hs, Algebra.smul_def, ← map_mul, h, Spec.deriv_algebraMap, hD, map_zero, hf,
    smul_mul_smul_comm, smul_mul_smul_comm, eSq_val hs, ← add_smul, Algebra.smul_def, ← map_mul,
    ← map_zero (algebraMap K (Spec.Cl g))] at hm
  have hm' := algebraMap_inj _ hm
  have h2 : (2 : K) ≠ 0 := Invertible.ne_zero (2 : K)
  have hce : c * eSq g ≠ 0 := fun e => h0 (by rw [← h, mul_assoc, e, mul_zero])
  have : f = 0 := by
    have : (2 * f) * (c * eSq g) = 0 := by rw [← hm'.symm]; ring
    rcases mul_eq_zero.mp this with h | h
    · exact (mul_eq_zero.mp h).resolve_left h2
    · exact absurd h hce
  rw [hf, this, zero_smul]

/-- The dual in each mode: which side the pseudoscalar is on. -/
theorem dual_side {g : Matrix (Fin n) (Fin n) K} (hs : g.IsSymm) {i iInv : Mv K n} {c d : K}
    (h1 : Rep g i (c • Spec.pseudo g)) (h2 : Rep g iInv (d • Spec.pseudo g)) {mode : String} :
    (mode ∈ ["+I", "-I", "+Iinv", "-Iinv"] → ∃ k : K, (k = c ∨ k = -c ∨ k = d ∨ k = -d) ∧
      ∀ A x, Rep g A x → Rep g (A.dual g i iInv mode) (k • (Spec.pseudo g * x))) ∧
    (mode ∈ ["I+", "I-", "Iinv+", "Iinv-"] → ∃ k : K, (k = c ∨ k = -c ∨ k = d ∨ k = -d) ∧
      ∀ A x, Rep g A x → Rep g (A.dual g i iInv mode) (k • (x * Spec.pseudo g))) := by
  have hL : ∀ {I : Mv K n} {c : K} (s : K), Rep g I (c • Spec.pseudo g) → ∀ A x, Rep g A x →
      Rep g ((I.smul s).mul g A) ((s * c) • (Spec.pseudo g * x)) := fun s hI A x hA =>
    (Rep.mul hs (hI.smul s) hA).congr (by rw [smul_smul, smul_mul_assoc])
  have hR : ∀ {I : Mv K n} {c : K} (s : K), Rep g I (c • Spec.pseudo g) → ∀ A x, Rep g A x →
      Rep g ((A.smul s).mul g I) ((s * c) • (x * Spec.pseudo g)) := fun s hI A x hA =>
    (Rep.mul hs (hA.smul s) hI).congr (by rw [smul_mul_smul_comm])
  constructor
  all_goals
    intro hm
    simp only [List.mem_cons, List.not_mem_nil, or_false] at hm
  · rcases hm with rfl | rfl | rfl | rfl
    · exact ⟨1 * c, by simp, fun A x hA => hL 1 h1 A x hA⟩
    · exact ⟨-1 * c, by simp, fun A x hA => hL (-1) h1 A x hA⟩
    · exact ⟨1 * d, by simp, fun A x hA => hL 1 h2 A x hA⟩
    · exact ⟨-1 * d, by simp, fun A x hA => hL (-1) h2 A x hA⟩
  · rcases hm with rfl | rfl | rfl | rfl
    · exact ⟨1 * c, by simp, fun A x hA => hR 1 h1 A x hA⟩
    · exact ⟨-1 * c, by simp, fun A x hA => hR (-1) h1 A x hA⟩
    · exact ⟨1 * d, by simp, fun A x hA => hR 1 h2 A x hA⟩
    · exact ⟨-1 * d, by simp, fun A x hA => hR (-1) h2 A x hA⟩

section
variable {D : Fin n → Derivation ℤ K K} {g0 : Matrix (Fin n) (Fin n) K} {N : Option (Fin n → K)}
  {conn : Option (Fin n → Fin n → Expr K n)} {l : List (Mv K n)}
  (hs : g0.IsSymm)
  (hN : ∀ N', N = some N' → ∀ i, N' i ^ 2 = g0 i i ∨ N' i ^ 2 = - g0 i i)
  (hO : N.isSome → isOrtho g0 = true) (h : connOf (fun i => D i) g0 N = some conn)
  (hl : gradVecs g0 N = some l)
  {sqrt : K → K} {plus : Bool} {i iInv : Mv K n}
  (hI : normI (currentMetric N g0) sqrt plus = some (i, iInv))
  (hsq : sqrt (if plus then eSq (currentMetric N g0) else -eSq (currentMetric N g0)) *
    sqrt (if plus then eSq (currentMetric N g0) else -eSq (currentMetric N g0)) =
      if plus then eSq (currentMetric N g0) else -eSq (currentMetric N g0))
include hs hN hO h hl hI hsq

/-- What the theorems below use: the dual is multiplication by a constant pseudoscalar from the side that the mode
says. -/
theorem dual_env : ∃ (Γ : Fin n → Matrix (Fin n) (Fin n) K) (u : Fin n → Fin n → K),
    Spec.Recip (currentMetric N g0) D Γ (scaleOf N) u ∧
    (∀ (op : ProdOp) {F : Mv K n} {x}, Rep (currentMetric N g0) F x → ∃ G,
      (gradDop l false).mulMv (Fields.ofMetric (fun i => D i) g0 N conn) op F = .inl G ∧
      Rep (currentMetric N g0) G (∑ i, opS (currentMetric N g0) op (Spec.vec (currentMetric N g0) (u i))
        (Spec.deriv (currentMetric N g0) (D i) (Γ i) x))) ∧
    (∀ (k : Fin n) {F : Mv K n} {x}, Rep (currentMetric N g0) F x →
      Rep (currentMetric N g0) (F.diffN (Fields.ofMetric (fun i => D i) g0 N conn) k 1)
        (Spec.deriv (currentMetric N g0) (D k) (Γ k) x)) ∧
    ∃ c d : K, Rep (currentMetric N g0) i (c • Spec.pseudo (currentMetric N g0)) ∧
      Rep (currentMetric N g0) iInv (d • Spec.pseudo (currentMetric N g0)) ∧
      ∀ a, (a = c ∨ a = -c ∨ a = d ∨ a = -d) → ∀ k,
        Spec.deriv (currentMetric N g0) (D k) (Γ k) (a • Spec.pseudo (currentMetric N g0)) = 0 := by
  obtain ⟨Γ, u, hr, hg, -, hc, -⟩ := grad_env hs hN hO h hl
  have hsc := currentMetric_symm hs N
  obtain ⟨c, h1, h2, h3⟩ := normI_spec hsc hI hsq
  refine ⟨Γ, u, hr, hg, fun k F x hF => diffN_rep (X := Fields.ofMetric (fun i => D i) g0 N conn) (D := D) (Γ := Γ)
    hsc (fun _ => rfl) (fun _ => rfl) hc k 1 hF, c, _, h1, h2, fun a ha k => ?_⟩
  have e1 : ∀ k, D k (1 : K) = 0 := fun k => (D k).map_one_eq_zero
  have hsgn : a = c ∨ a = -c := by
    cases plus <;> simp only [Bool.false_eq_true, if_false, if_true, neg_neg] at ha <;> tauto
  refine deriv_constSq_pseudo hsc (hr.compat k) (s := if plus then 1 else -1) ?_ ?_ ?_
  · cases plus <;> simp [e1]
  · cases plus <;> simp
  · rw [← h3]; rcases hsgn with rfl | rfl <;> ring

/-- C105: the derivative of the pseudoscalar `Ga.i` by any coordinate is zero, although its coefficient need not be
constant. -/
theorem C105_pseudoscalar (k : Fin n) :
    (i.diffN (Fields.ofMetric (fun i => D i) g0 N conn) k 1).eq (currentMetric N g0) Mv.zero = true ∧
    (iInv.diffN (Fields.ofMetric (fun i => D i) g0 N conn) k 1).eq (currentMetric N g0) Mv.zero = true := by
  obtain ⟨Γ, u, hr, hg, hd, c, d, h1, h2, h3⟩ := dual_env hs hN hO h hl hI hsq
  have hsc := currentMetric_symm hs N
  exact ⟨((hd k h1).eq_iff hsc Rep.zero).mpr (h3 c (Or.inl rfl) k),
    ((hd k h2).eq_iff hsc Rep.zero).mpr (h3 d (Or.inr (Or.inr (Or.inl rfl))) k)⟩

/-- C105: `F.dual().diff(x_k) == F.diff(x_k).dual()` in each of the eight modes. -/
theorem C105_diff {mode : String} (hm : mode ∈ dualModeLst) (k : Fin n) {F : Mv K n}
    (hF : F.WF (currentMetric N g0)) (hF' : F.isBladeRep = true) :
    ((F.dual (currentMetric N g0) i iInv mode).diffN (Fields.ofMetric (fun i => D i) g0 N conn) k 1).eq
      (currentMetric N g0)
      ((F.diffN (Fields.ofMetric (fun i => D i) g0 N conn) k 1).dual (currentMetric N g0) i iInv mode) = true := by
  obtain ⟨Γ, u, hr, hg, hd, c, d, h1, h2, h3⟩ := dual_env hs hN hO h hl hI hsq
  have hsc := currentMetric_symm hs N
  have rF := Rep.of_wf hF hF'
  obtain ⟨a, ha, hx⟩ := dual_spec hsc h1 h2 hm
  rcases hx with hx | hx
  · rw [(hd k (hx _ _ rF)).eq_iff hsc (hx _ _ (hd k rF)), ← smul_mul_assoc, Spec.deriv_mul hsc (hr.compat k),
      h3 a ha, zero_mul, zero_add, smul_mul_assoc]
  · rw [(hd k (hx _ _ rF)).eq_iff hsc (hx _ _ (hd k rF)), ← mul_smul_comm, Spec.deriv_mul hsc (hr.compat k),
      h3 a ha, mul_zero, add_zero, mul_smul_comm]

/-- C105: the gradient of a dual is the dual of the gradient, `grad*F.dual() == (grad*F).dual()`, the divergence of a
dual is the dual of the curl, `grad<F.dual() == (grad^F).dual()`, and the curl of a dual is the dual of the
divergence, `grad^F.dual() == (grad<F).dual()`; in the modes in which the pseudoscalar is the left factor, up to the
sign `(-1)^(n+1)`. -/
theorem C105_gradient {mode : String} {σ : K}
    (hm : (mode ∈ ["I+", "I-", "Iinv+", "Iinv-"] ∧ σ = 1) ∨
      (mode ∈ ["+I", "-I", "+Iinv", "-Iinv"] ∧ σ = (-1) ^ (n + 1)))
    {op op' : ProdOp} (hop : (op, op') ∈ [(ProdOp.geo, ProdOp.geo), (.left, .outer), (.outer, .left)])
    {F : Mv K n} (hF : F.WF (currentMetric N g0)) (hF' : F.isBladeRep = true) : ∃ G H,
    (gradDop l false).mulMv (Fields.ofMetric (fun i => D i) g0 N conn) op
      (F.dual (currentMetric N g0) i iInv mode) = .inl G ∧
    (gradDop l false).mulMv (Fields.ofMetric (fun i => D i) g0 N conn) op' F = .inl H ∧
    G.eq (currentMetric N g0) ((H.dual (currentMetric N g0) i iInv mode).smul σ) = true := by
  obtain ⟨Γ, u, hr, hg, hd, c, d, h1, h2, h3⟩ := dual_env hs hN hO h hl hI hsq
  have hsc := currentMetric_symm hs N
  have rF := Rep.of_wf hF hF'
  obtain ⟨hL, hR⟩ := dual_side hsc h1 h2 (mode := mode)
  obtain ⟨H, e1, e2⟩ := hg op' rF
  rcases hm with ⟨hm, rfl⟩ | ⟨hm, rfl⟩
  · obtain ⟨a, ha, hx⟩ := hR hm
    obtain ⟨G, e3, e4⟩ := hg op (hx _ _ rF)
    refine ⟨G, H, e3, e1, ?_⟩
    rw [e4.eq_iff hsc ((hx _ _ e2).smul 1), one_smul, Finset.sum_mul, Finset.smul_sum]
    refine Finset.sum_congr rfl fun k _ => ?_
    rw [← mul_smul_comm, Spec.deriv_mul hsc (hr.compat k), h3 a ha, mul_zero, add_zero, mul_smul_comm,
      opS_smul_right]
    congr 1
    simp only [List.mem_cons, List.not_mem_nil, or_false, Prod.mk.injEq] at hop
    rcases hop with ⟨rfl, rfl⟩ | ⟨rfl, rfl⟩ | ⟨rfl, rfl⟩
    · rw [opS_geo, opS_geo, mul_assoc]
    · rw [opS, opS, Spec.wedge_mul_pseudo_lc]
    · rw [opS, opS, Spec.lc_mul_pseudo]
  · obtain ⟨a, ha, hx⟩ := hL hm
    obtain ⟨G, e3, e4⟩ := hg op (hx _ _ rF)
    refine ⟨G, H, e3, e1, ?_⟩
    rw [e4.eq_iff hsc ((hx _ _ e2).smul _), Finset.mul_sum, Finset.smul_sum, Finset.smul_sum]
    refine Finset.sum_congr rfl fun k _ => ?_
    rw [← smul_mul_assoc, Spec.deriv_mul hsc (hr.compat k), h3 a ha, zero_mul, zero_add, smul_mul_assoc,
      opS_smul_right, smul_comm]
    congr 1
    simp only [List.mem_cons, List.not_mem_nil, or_false, Prod.mk.injEq] at hop
    rcases hop with ⟨rfl, rfl⟩ | ⟨rfl, rfl⟩ | ⟨rfl, rfl⟩
    · rw [opS_geo, opS_geo, Spec.vec_mul_pseudo_mul]
    · rw [opS, opS, Spec.lc_vec, Spec.con_pseudo_mul]
    · rw [opS, opS, Spec.lc_vec, Spec.wedge_pseudo_mul]

/-- C105: the divergence of the dual of a curl vanishes, `grad<((grad^F).dual()) == 0`, and so does the divergence of
a divergence, `grad<(grad<F) == 0`, in every coordinate system of every space, if the derivatives of functions
commute. -/
theorem C105_div_curl (hD : ∀ i j f, D i (D j f) = D j (D i f)) {mode : String} (hm : mode ∈ dualModeLst)
    {F : Mv K n} (hF : F.WF (currentMetric N g0)) (hF' : F.isBladeRep = true) : ∃ G H G' H',
    (gradDop l false).mulMv (Fields.ofMetric (fun i => D i) g0 N conn) .outer F = .inl G ∧
    (gradDop l false).mulMv (Fields.ofMetric (fun i => D i) g0 N conn) .left
      (G.dual (currentMetric N g0) i iInv mode) = .inl H ∧
    H.eq (currentMetric N g0) Mv.zero = true ∧
    (gradDop l false).mulMv (Fields.ofMetric (fun i => D i) g0 N conn) .left F = .inl G' ∧
    (gradDop l false).mulMv (Fields.ofMetric (fun i => D i) g0 N conn) .left G' = .inl H' ∧
    H'.eq (currentMetric N g0) Mv.zero = true := by
  obtain ⟨Γ, u, hr, hg, hd, c, d, h1, h2, h3⟩ := dual_env hs hN hO h hl hI hsq
  have hsc := currentMetric_symm hs N
  set g := currentMetric N g0 with hgdef
  have rF := Rep.of_wf hF hF'
  have key : ∀ x : Spec.Cl g, (∑ k, Spec.wedge g (Spec.vec g (u k)) (Spec.deriv g (D k) (Γ k)
      (∑ j, Spec.wedge g (Spec.vec g (u j)) (Spec.deriv g (D j) (Γ j) x)))) = 0 := fun x => hr.dS_dS hD x
  -- the divergence of `x I` is the curl of `x`, times `I`
  have div : ∀ x : Spec.Cl g, (∑ k, Spec.leftContraction g (Spec.vec g (u k)) (Spec.deriv g (D k) (Γ k)
      (x * c • Spec.pseudo g))) = (∑ k, Spec.wedge g (Spec.vec g (u k)) (Spec.deriv g (D k) (Γ k) x)) *
        c • Spec.pseudo g := by
    intro x
    rw [Finset.sum_mul]
    refine Finset.sum_congr rfl fun k _ => ?_
    rw [Spec.deriv_mul hsc (hr.compat k), h3 c (Or.inl rfl), mul_zero, add_zero, mul_smul_comm, mul_smul_comm,
      Spec.wedge_mul_pseudo_lc, Spec.lc_smul_right]
  have curl : ∀ x : Spec.Cl g, (∑ k, Spec.wedge g (Spec.vec g (u k)) (Spec.deriv g (D k) (Γ k)
      (x * c • Spec.pseudo g))) = (∑ k, Spec.leftContraction g (Spec.vec g (u k)) (Spec.deriv g (D k) (Γ k) x)) *
        c • Spec.pseudo g := by
    intro x
    rw [Finset.sum_mul]
    refine Finset.sum_congr rfl fun k _ => ?_
    rw [Spec.deriv_mul hsc (hr.compat k), h3 c (Or.inl rfl), mul_zero, add_zero, mul_smul_comm, mul_smul_comm,
      Spec.lc_mul_pseudo, Spec.wedge_smul]
  -- the pseudoscalar is invertible
  have hinv : ∀ x : Spec.Cl g, x * c • Spec.pseudo g = 0 → x = 0 := by
    intro x hx
    obtain ⟨c', h1', -, h3'⟩ := normI_spec hsc hI hsq
    have hcc : c • Spec.pseudo g = c' • Spec.pseudo g := by rw [← h1.val, h1'.val]
    have := congrArg (· * c' • Spec.pseudo g) hx
    simp only [zero_mul, hcc, mul_assoc, smul_mul_smul_comm, eSq_val hsc] at this
    rw [Algebra.smul_def (c' * c'), ← map_mul, h3'] at this
    cases plus
    · simpa using this
    · simpa using this
  obtain ⟨G, e1, e2⟩ := hg .outer rF
  obtain ⟨a, ha, hx⟩ := dual_spec hsc h1 h2 hm
  obtain ⟨G', e5, e6⟩ := hg .left rF
  obtain ⟨H', e7, e8⟩ := hg .left e6
  have last : H'.eq g Mv.zero = true := by
    rw [e8.eq_iff hsc Rep.zero]
    apply hinv
    exact (curl _).symm.trans ((congrArg (fun z => ∑ k, Spec.wedge g (Spec.vec g (u k))
      (Spec.deriv g (D k) (Γ k) z)) (curl (F.val g)).symm).trans (key _))
  rcases hx with hx | hx
  · obtain ⟨H, e3, e4⟩ := hg .left (hx _ _ e2)
    refine ⟨G, H, G', H', e1, e3, ?_, e5, e7, last⟩
    rw [e4.eq_iff hsc Rep.zero]
    have e : ∀ x : Spec.Cl g, (∑ k, Spec.leftContraction g (Spec.vec g (u k)) (Spec.deriv g (D k) (Γ k)
        (a • (Spec.pseudo g * x)))) = (-1 : K) ^ (n + 1) • a • (Spec.pseudo g *
          ∑ k, Spec.wedge g (Spec.vec g (u k)) (Spec.deriv g (D k) (Γ k) x)) := by
      intro x
      rw [Finset.mul_sum, Finset.smul_sum, Finset.smul_sum]
      refine Finset.sum_congr rfl fun k _ => ?_
      rw [← smul_mul_assoc, Spec.deriv_mul hsc (hr.compat k), h3 a ha, zero_mul, zero_add, smul_mul_assoc,
        Spec.lc_smul_right, Spec.lc_vec, Spec.con_pseudo_mul, smul_comm]
    exact (e _).trans (by
      have := key (F.val g)
      change _ • a • (_ * ∑ k, Spec.wedge g (Spec.vec g (u k)) (Spec.deriv g (D k) (Γ k)
        (∑ j, Spec.wedge g (Spec.vec g (u j)) (Spec.deriv g (D j) (Γ j) (F.val g))))) = 0
      rw [this, mul_zero, smul_zero, smul_zero])
  · obtain ⟨H, e3, e4⟩ := hg .left (hx _ _ e2)
    refine ⟨G, H, G', H', e1, e3, ?_, e5, e7, last⟩
    rw [e4.eq_iff hsc Rep.zero]
    have e : ∀ x : Spec.Cl g, (∑ k, Spec.leftContraction g (Spec.vec g (u k)) (Spec.deriv g (D k) (Γ k)
        (a • (x * Spec.pseudo g)))) = a • ((∑ k, Spec.wedge g (Spec.vec g (u k))
          (Spec.deriv g (D k) (Γ k) x)) * Spec.pseudo g) := by
      intro x
      rw [Finset.sum_mul, Finset.smul_sum]
      refine Finset.sum_congr rfl fun k _ => ?_
      rw [← mul_smul_comm, Spec.deriv_mul hsc (hr.compat k), h3 a ha, mul_zero, add_zero, mul_smul_comm,
        Spec.wedge_mul_pseudo_lc, Spec.lc_smul_right]
    exact (e _).trans (by
      have := key (F.val g)
      change a • ((∑ k, Spec.wedge g (Spec.vec g (u k)) (Spec.deriv g (D k) (Γ k)
        (∑ j, Spec.wedge g (Spec.vec g (u j)) (Spec.deriv g (D j) (Γ j) (F.val g))))) * _) = 0
      rw [this, zero_mul, smul_zero])

end

/-! ### Concrete cases -/

namespace Ex

/-- Polar coordinates, with the basis vectors of length `1` and `r`: the pseudoscalar is `e_r ^ e_theta / r`. -/
theorem polar_normI : ∃ i iInv, normI (currentMetric none polar) (fun _ => coord 0) false = some (i, iInv) := by
  have e : eSq polar = -(coord 0 ^ 2) := by
    rw [eSq_eq polar_symm, polar, Matrix.det_diagonal, Fin.prod_univ_two]; simp
  have hdet : polar.det ≠ 0 := by
    have := coord_ne_zero (n := 2) 0
    simp [polar, Matrix.det_diagonal, Fin.prod_univ_two, this]
  have := C20_normalisable (g := polar) (sqrt := fun _ => coord 0) (plus := false) polar_symm hdet
    (by simp only [Bool.false_eq_true, if_false]; rw [e]; ring)
  obtain ⟨p, hp⟩ := Option.isSome_iff_exists.mp this
  exact ⟨p.1, p.2, hp⟩

theorem polar_eSq : eSq (currentMetric none polar) = -(coord 0 ^ 2) := by
  rw [currentMetric, eSq_eq polar_symm, polar, Matrix.det_diagonal, Fin.prod_univ_two]; simp

/-- In polar coordinates: the curl of the dual of the vector field `theta * e_r` is minus the dual of its
divergence if the pseudoscalar is the left factor. -/
example : ∃ conn l i iInv G H, connOf (fun i => partialD i) polar none = some conn ∧ gradVecs polar none = some l ∧
    normI (currentMetric none polar) (fun _ => coord 0) false = some (i, iInv) ∧
    (gradDop l false).mulMv (Fields.ofMetric (fun i => partialD i) polar none conn) .outer
      (Mv.dual polar (Mv.vector ![coord 1, 0]) i iInv "+I") = .inl G ∧
    (gradDop l false).mulMv (Fields.ofMetric (fun i => partialD i) polar none conn) .left
      (Mv.vector ![coord 1, 0]) = .inl H ∧
    G.eq polar ((H.dual polar i iInv "+I").smul (-1)) = true := by
  obtain ⟨d, hd⟩ := polar_de none (Or.inl rfl)
  have hdet : polar.det ≠ 0 := by
    have := coord_ne_zero (n := 2) 0
    simp [polar, Matrix.det_diagonal, Fin.prod_univ_two, this]
  obtain ⟨l, hl⟩ := Option.isSome_iff_exists.mp (C60_exists (N := none) polar_symm hdet
    (fun _ h => by cases h) fun _ => polar_ortho)
  obtain ⟨i, iInv, hI⟩ := polar_normI
  have hc : connOf (fun i => partialD i) polar none = some (some d) := by
    rw [connOf, if_pos polar_connect, hd]; rfl
  have hV : Rep (currentMetric none polar) (Mv.vector ![coord 1, 0]) _ := Rep.vector _
  obtain ⟨G, H, h1, h2, h3⟩ := C105_gradient (D := partialD) (N := none) polar_symm (fun _ h => by cases h)
    (fun _ => polar_ortho) hc hl hI (by simp only [Bool.false_eq_true, if_false]; rw [polar_eSq]; ring)
    (mode := "+I") (σ := (-1) ^ (2 + 1)) (Or.inr ⟨by decide, rfl⟩) (op := .outer) (op' := .left) (by simp)
    hV.wf hV.flag
  refine ⟨some d, l, i, iInv, G, H, hc, hl, hI, h1, h2, ?_⟩
  have : ((-1 : Fun 2) ^ (2 + 1)) = -1 := by norm_num
  rw [this] at h3
  exact h3

end Ex

end GA
