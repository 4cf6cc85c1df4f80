import Verif.Proofs.Reflect
import Verif.Props.C58
import Verif.Props.C107Group
import Verif.Props.C110
import Mathlib.LinearAlgebra.Matrix.DotProduct

/-!
# C111: versors and isometries

A transformation is an isometry (`Preserves`) if `L(a) | L(b) == a | b` for all vectors.  `Lt.ofVersor g V` models `Lt(V)`,
`productOf g vs` is the geometric product of the vectors of a list, `NonNull g v` says that `v * v` is not zero.
-/

set_option linter.unusedSectionVars false
set_option maxRecDepth 10000

namespace GA
open CliffordAlgebra (involute)
variable {n : ℕ} {K : Type*} [Field K] [DecidableEq K] [Invertible (2 : K)]
  {g : Matrix (Fin n) (Fin n) K}

/-- `L(a) | L(b) == a | b` for all vectors `a`, `b`. -/
def Preserves (g : Matrix (Fin n) (Fin n) K) (L : Lt K n) : Prop :=
  ∀ a b : Fin n → K, ((L.call g (Mv.vector a)).dot g (L.call g (Mv.vector b))).eq g
    ((Mv.vector a).dot g (Mv.vector b)) = true

theorem preserves_iff (hs : g.IsSymm) {L : Lt K n} (hL : L.WF) :
    Preserves g L ↔ ∀ a b, Spec.ip g (L.mat.mulVec a) (L.mat.mulVec b) = Spec.ip g a b := by
  refine forall_congr' fun a => forall_congr' fun b => ?_
  have wa := Rep.vector (g := g) a
  have wb := Rep.vector (g := g) b
  rw [Rep.eq_iff hs (Rep.dot hs (Rep.call hs hL wa) (Rep.call hs hL wb)) (Rep.dot hs wa wb),
    Spec.outer_vec, Spec.outer_vec, Spec.hestenesDot_vec_ip, Spec.hestenesDot_vec_ip]
  exact ⟨fun h => algebraMap_inj g h, fun h => by rw [h]⟩

theorem tw_unique {x y : Spec.Cl g} (e : x * y = 1) {M M' : Matrix (Fin n) (Fin n) K} (h : Spec.Tw g x M)
    (h' : Spec.Tw g x M') : M = M' := by
  refine Matrix.ext_iff_mulVec.mpr fun v => ?_
  have h1 : Spec.vec g (M.mulVec v) * x = Spec.vec g (M'.mulVec v) * x := by rw [← h v, h' v]
  have h2 := congrArg (· * y) h1
  simp only [mul_assoc, e, mul_one] at h2
  have h3 : Spec.vec g (M.mulVec v - M'.mulVec v) = 0 := by
    rw [Spec.vec, map_sub, sub_eq_zero]; exact h2
  exact sub_eq_zero.mp (vec_eq_zero h3)

theorem ofVersor_tw (hs : g.IsSymm) {V : Mv K n} {x : Spec.Cl g} (r : Rep g V x) {L : Lt K n}
    (h : Lt.ofVersor g V = some L) : L.WF ∧ Spec.Tw g x L.mat ∧ ∃ y, x * y = 1 ∧ y * x = 1 := by
  obtain ⟨W, hW, y, hy, h1, h2, hL, hv, -⟩ := ofVersor_spec hs r h
  refine ⟨hL, fun v => ?_, y, h1, h2⟩
  rw [← hv v, mul_assoc _ y, h2, mul_one]

theorem ofVersor_of_tw (hs : g.IsSymm) {V : Mv K n} {x : Spec.Cl g} (r : Rep g V x) {q : K} (hq : q ≠ 0)
    (e : x * CliffordAlgebra.reverse x = algebraMap K _ q) {M : Matrix (Fin n) (Fin n) K} (h : Spec.Tw g x M) :
    ∃ L, Lt.ofVersor g V = some L ∧ L.WF ∧ L.mat = M := by
  obtain ⟨W, hW⟩ := C23_inverse_exists hs r.wf hq
    ((Rep.eq_iff hs (Rep.mul hs r (Rep.rev hs r)) (Rep.scalarMv q)).mpr e)
  obtain ⟨w1, w2, w3⟩ := Rep.inv hs r hW
  obtain ⟨L, h1, h2⟩ := ofFunction_of_basis hs (fun x => ((V.gInvol g).mul g x).mul g W) M (fun i => by
    have hb : Rep g (Mv.ofExpr [(1, .blade [i])]) (Spec.vec g (Pi.single i (1 : K))) := by
      refine (Rep.ofExpr (valid_bladeE (List.pairwise_singleton _ i))).congr ?_
      rw [den_eq_lin, bladeE, lin_cons, lin_nil, one_smul, add_zero, symDen, Spec.blade_singleton, Spec.e]
    refine (Rep.mul hs (Rep.mul hs (Rep.gInvol hs r) hb) w1).congr ?_
    rw [h, mul_assoc, w2, mul_one]
    congr 1
    simp)
  exact ⟨L, by rw [Lt.ofVersor, hW, Option.bind_some, h1], h2⟩

theorem versor_tw {x : Spec.Cl g} (h : Versor g x) : ∃ M, Spec.Tw g x M := by
  obtain ⟨⟨q, hq, e⟩, h⟩ := h
  have e' := Versor.left hq e
  choose u hu using fun i : Fin n => Spec.homogeneous_one (h (Pi.single i 1))
  refine ⟨Matrix.of fun j i => q⁻¹ * u i j, fun v => ?_⟩
  have h1 : ∀ i, involute x * Spec.vec g (Pi.single i 1) = q⁻¹ • (Spec.vec g (u i) * x) := fun i => by
    rw [← hu i, mul_assoc _ _ x, e', ← Algebra.commutes, ← Algebra.smul_def, smul_smul, inv_mul_cancel₀ hq, one_smul]
  have hv : v = ∑ i, v i • (Pi.single i (1 : K) : Fin n → K) := by
    funext j; simp [Finset.sum_apply, Pi.single_apply]
  conv_lhs => rw [hv]
  rw [Spec.vec, map_sum, Finset.mul_sum]
  have h2 : (Matrix.of fun j i => q⁻¹ * u i j).mulVec v = ∑ i, (v i * q⁻¹) • u i := by
    funext j
    simp only [Matrix.mulVec, dotProduct, Matrix.of_apply, Finset.sum_apply, Pi.smul_apply, smul_eq_mul]
    exact Finset.sum_congr rfl fun i _ => by ring
  rw [h2, Spec.vec, map_sum, Finset.sum_mul]
  refine Finset.sum_congr rfl fun i _ => ?_
  have := h1 i
  rw [Spec.vec] at this
  rw [map_smul, mul_smul_comm, this, smul_smul, map_smul, smul_mul_assoc]
  rfl

theorem ofVersor_product (hs : g.IsSymm) {vs : List (Fin n → K)} (h : ∀ v ∈ vs, NonNull g v) :
    ∃ L, Lt.ofVersor g (productOf g vs) = some L ∧ L.WF ∧
      L.mat = (vs.map fun a => Spec.reflM g a (Spec.Q g a)).prod ∧ L.mat.det = (-1) ^ vs.length := by
  have h' : ∀ v ∈ vs, Spec.Q g v ≠ 0 := fun v hv => (nonNull_iff hs v).mp (h v hv)
  obtain ⟨q, hq, e⟩ := Spec.prodL_mul_reverse h'
  obtain ⟨h1, h2⟩ := Spec.Tw.prodL hs h'
  obtain ⟨L, h3, h4, h5⟩ := ofVersor_of_tw hs (rep_productOf hs vs) hq e h1
  exact ⟨L, h3, h4, h5, by rw [h5, h2]⟩

/-- C111: `Lt(v)` for a vector `v` that is not null is the reflection in the hyperplane orthogonal to `v`: it maps `v` to
`-v` and keeps the vectors orthogonal to `v`. -/
theorem C111_reflection (hs : g.IsSymm) {v : Fin n → K} (hv : NonNull g v) :
    ∃ L, Lt.ofVersor g (Mv.vector v) = some L ∧ L.WF ∧ (L.call g (Mv.vector v)).eq g (Mv.vector v).neg = true ∧
      ∀ w, ((Mv.vector v).dot g (Mv.vector w)).isZero = true → (L.call g (Mv.vector w)).eq g (Mv.vector w) = true := by
  have hq := (nonNull_iff hs v).mp hv
  have rv := Rep.vector (g := g) v
  have t0 : Spec.Tw g (1 : Spec.Cl g) 1 := fun w => by simp
  have t := t0.vec_mul hs hq
  rw [mul_one, mul_one] at t
  obtain ⟨L, h1, h2, h3⟩ := ofVersor_of_tw hs rv hq (by
    rw [show CliffordAlgebra.reverse (Spec.vec g v) = Spec.vec g v from CliffordAlgebra.reverse_ι v, Spec.vec_sq]) t
  refine ⟨L, h1, h2, ?_, fun w hw => ?_⟩
  · rw [Rep.eq_iff hs (Rep.call hs h2 rv) rv.neg, Spec.outer_vec, h3, Spec.reflM_mulVec hs, Spec.ip_Q,
      show (Spec.Q g v)⁻¹ * (2 * Spec.Q g v) = 2 by field_simp, two_smul, sub_add_cancel_left, Spec.vec, map_neg]
    rfl
  · have rw' := Rep.vector (g := g) w
    have d := Rep.dot hs rv rw'
    rw [isZero_iff d.wf, d.val, Spec.hestenesDot_vec_ip] at hw
    have : Spec.ip g v w = 0 := algebraMap_inj g (by rw [hw, map_zero])
    rw [Rep.eq_iff hs (Rep.call hs h2 rw') rw', Spec.outer_vec, h3, Spec.reflM_fix hs this]

/-- C111: every isometry of a metric that is not degenerate is `Lt(V)` for a product `V` of vectors that are not null, and
`L.det()` is `1` for an even and `-1` for an odd number of vectors. -/
theorem C111_every_isometry (hs : g.IsSymm) (hd : g.det ≠ 0) {L : Lt K n} (hL : L.WF) (h : Preserves g L) :
    ∃ vs : List (Fin n → K), (∀ v ∈ vs, NonNull g v) ∧
      (∃ L', Lt.ofVersor g (productOf g vs) = some L' ∧ L'.WF ∧ L'.matrix = L.matrix ∧
        ∀ A : Mv K n, A.WF g → A.isBladeRep = true → (L'.call g A).eq g (L.call g A) = true) ∧
      L.det g = some ((-1) ^ vs.length) := by
  rw [preserves_iff hs hL] at h
  obtain ⟨vs, h1, h2⟩ := Spec.isom_eq_refl hs hd (M := L.mat) fun v => by rw [← Spec.ip_Q, h, Spec.ip_Q]
  have h1' : ∀ v ∈ vs, NonNull g v := fun v hv => (nonNull_iff hs v).mpr (h1 v hv)
  obtain ⟨L', h3, h4, h5, h6⟩ := ofVersor_product hs h1'
  rw [← h2] at h5
  refine ⟨vs, h1', ⟨L', h3, h4, by rw [h4.matrix, hL.matrix, h5], fun A hA ha => ?_⟩, ?_⟩
  · have r := Rep.of_wf hA ha
    rw [Rep.eq_iff hs (Rep.call hs h4 r) (Rep.call hs hL r), h5]
  · rw [C36_det hs hd hL hL.matrix, ← h6, h5]

/-- C111: an isometry with determinant 1 is `Lt(V)` for an even versor `V`, so that it acts on all multivectors as
`A ↦ V * A * V.inv()`; the metric is not degenerate. -/
theorem C111_rotation (hs : g.IsSymm) (hd : g.det ≠ 0) (hn : n ≠ 0) {L : Lt K n} (hL : L.WF) (h : Preserves g L)
    (h1 : L.det g = some 1) :
    ∃ V W : Mv K n, V.WF g ∧ V.isBladeRep = true ∧ V.isVersor g = true ∧ (V.gInvol g).eq g V = true ∧ V.inv g = some W ∧
      ∀ A : Mv K n, A.WF g → A.isBladeRep = true → (L.call g A).eq g ((V.mul g A).mul g W) = true := by
  obtain ⟨vs, hv, ⟨L', h3, h4, h5, h6⟩, h7⟩ := C111_every_isometry hs hd hL h
  have r := rep_productOf hs vs
  have hpar : ∀ vs : List (Fin n → K), involute (Spec.prodL g vs) = (-1 : K) ^ vs.length • Spec.prodL g vs := by
    intro vs
    induction vs with
    | nil => simp [Spec.prodL]
    | cons v vs ih =>
      rw [Spec.prodL_cons, map_mul, ih, show involute (Spec.vec g v) = -Spec.vec g v from CliffordAlgebra.involute_ι v,
        List.length_cons, pow_succ, mul_smul_comm, neg_mul, smul_neg, mul_neg_one, neg_smul]
  have hev : ((productOf g vs).gInvol g).eq g (productOf g vs) = true := by
    rw [(r.gInvol hs).eq_iff hs r, hpar]
    rw [h1, Option.some_inj] at h7
    rw [← h7, one_smul]
  obtain ⟨W, hW, -⟩ := C58_sandwich hs r.wf r.2.1 h3 r.wf r.2.1
  refine ⟨productOf g vs, W, r.wf, r.2.1, C107_versor_complete hs hn r.wf r.2.1 hv ((Rep.eq_iff hs r r).mpr rfl), hev, hW,
    fun A hA ha => ?_⟩
  have ra := Rep.of_wf hA ha
  obtain ⟨W', hW', h8, -⟩ := C58_sandwich hs r.wf r.2.1 h3 hA ha
  rw [hW] at hW'
  cases hW'
  have h9 := h8 hev
  have rW := (r.inv hs hW).1
  have h10 := h6 A hA ha
  rw [Rep.eq_iff hs (Rep.call hs h4 ra) (Rep.call hs hL ra)] at h10
  rw [Rep.eq_iff hs (Rep.call hs h4 ra) ((r.mul hs ra).mul hs rW)] at h9
  rw [Rep.eq_iff hs (Rep.call hs hL ra) ((r.mul hs ra).mul hs rW), ← h10, h9]

/-- C111: in a metric that is not degenerate, two multivectors for which `Lt` returns the same transformation differ by a
scalar factor only. -/
theorem C111_unique (hs : g.IsSymm) (hd : g.det ≠ 0) {V V' : Mv K n} (hV : V.WF g) (hb : V.isBladeRep = true)
    (hV' : V'.WF g) (hb' : V'.isBladeRep = true) {L L' : Lt K n} (h : Lt.ofVersor g V = some L)
    (h' : Lt.ofVersor g V' = some L') :
    L.matrix = L'.matrix ↔ ∃ c : K, c ≠ 0 ∧ V'.eq g (V.smul c) = true := by
  have r := Rep.of_wf hV hb
  have r' := Rep.of_wf hV' hb'
  obtain ⟨hL, t, y, e1, e2⟩ := ofVersor_tw hs r h
  obtain ⟨hL', t', y', e1', e2'⟩ := ofVersor_tw hs r' h'
  rw [hL.matrix, hL'.matrix, Option.some_inj]
  constructor
  · intro hm
    -- `y * x'` commutes with all vectors up to the grade involution
    obtain ⟨c, hc⟩ := Spec.scalar_of_fix hs hd (W := y * V'.val g) (by
      intro v
      rw [map_mul, mul_assoc, t' v, ← hm, ← mul_assoc, ← mul_assoc]
      congr 1
      have i1 : involute y * involute (V.val g) = 1 := by rw [← map_mul, e2, map_one]
      calc involute y * Spec.vec g (L.mat.mulVec v) = involute y * (Spec.vec g (L.mat.mulVec v) * V.val g) * y := by
            rw [mul_assoc, mul_assoc, e1, mul_one]
        _ = involute y * (involute (V.val g) * Spec.vec g v) * y := by rw [t v]
        _ = Spec.vec g v * y := by rw [← mul_assoc, i1, one_mul])
    have h3 : V'.val g = c • V.val g := by
      have := congrArg (V.val g * ·) hc
      simp only [← mul_assoc, e1, one_mul] at this
      rw [this, ← Algebra.commutes, Algebra.smul_def]
    refine ⟨c, ?_, (r'.eq_iff hs (r.smul c)).mpr h3⟩
    rintro rfl
    rw [zero_smul] at h3
    rw [h3, zero_mul] at e1'
    exact one_ne_zero (α := K) (algebraMap_inj g (by rw [map_one, map_zero, e1']))
  · rintro ⟨c, hc, e⟩
    rw [r'.eq_iff hs (r.smul c)] at e
    refine tw_unique e1 t fun v => ?_
    have := t' v
    rw [e, map_smul, smul_mul_assoc, mul_smul_comm] at this
    exact smul_right_injective _ hc this

/-- C111: for every multivector that passes `is_versor`, `Lt(V)` returns an isometry, in every metric; `Lt(V*W)` is
`Lt(V) * Lt(W)`. -/
theorem C111_compose (hs : g.IsSymm) {V W : Mv K n} (hV : V.WF g) (hb : V.isBladeRep = true) (hW : W.WF g)
    (hb' : W.isBladeRep = true) (h1 : V.isVersor g = true) (h2 : W.isVersor g = true) :
    ∃ L L' P, Lt.ofVersor g V = some L ∧ Lt.ofVersor g W = some L' ∧ Lt.ofVersor g (V.mul g W) = some P ∧
      L.WF ∧ L'.WF ∧ P.WF ∧ Preserves g L ∧ P.matrix = (L.mul L').matrix := by
  have r := Rep.of_wf hV hb
  have r' := Rep.of_wf hW hb'
  have v1 := ((isVersor_iff_versor hs r).mp h1).2
  have v2 := ((isVersor_iff_versor hs r').mp h2).2
  have v3 := v1.mul v2
  obtain ⟨M, t⟩ := versor_tw v1
  obtain ⟨M', t'⟩ := versor_tw v2
  obtain ⟨q, hq, e⟩ := v1.1
  obtain ⟨q', hq', e'⟩ := v2.1
  obtain ⟨q'', hq'', e''⟩ := v3.1
  obtain ⟨L, a1, a2, a3⟩ := ofVersor_of_tw hs r hq e t
  obtain ⟨L', b1, b2, b3⟩ := ofVersor_of_tw hs r' hq' e' t'
  have t'' : Spec.Tw g (V.val g * W.val g) (M * M') := fun v => by
    rw [map_mul, mul_assoc, t' v, ← mul_assoc, t, mul_assoc, Matrix.mulVec_mulVec]
  obtain ⟨P, c1, c2, c3⟩ := ofVersor_of_tw hs (r.mul hs r') hq'' e'' t''
  refine ⟨L, L', P, a1, b1, c1, a2, b2, c2, C58_versor_isometry hs hV hb a1, ?_⟩
  rw [c2.matrix, (a2.mul b2).1.matrix, (a2.mul b2).2, c3, a3, b3]

/-- C111: `Lt(V).det()` is 1 if the versor `V` is even and `-1` if it is odd; the metric is not degenerate. -/
theorem C111_det (hs : g.IsSymm) (hd : g.det ≠ 0) {V : Mv K n} (hV : V.WF g) (hb : V.isBladeRep = true)
    (h : V.isVersor g = true) {L : Lt K n} (hL : Lt.ofVersor g V = some L) :
    (L.det g = some 1 ↔ (V.gInvol g).eq g V = true) ∧ (L.det g = some (-1) ↔ (V.gInvol g).eq g V.neg = true) := by
  have r := Rep.of_wf hV hb
  obtain ⟨vs, hv, he⟩ := C107_versor_sound_partial hs hd hV hb h
  rw [r.eq_iff hs (rep_productOf hs vs)] at he
  obtain ⟨h1, t, y, e1, -⟩ := ofVersor_tw hs r hL
  have h' : ∀ v ∈ vs, Spec.Q g v ≠ 0 := fun v hw => (nonNull_iff hs v).mp (hv v hw)
  obtain ⟨t', hdet⟩ := Spec.Tw.prodL hs h'
  rw [← he] at t'
  have hm := tw_unique e1 t t'
  have hpar : ∀ vs : List (Fin n → K), involute (Spec.prodL g vs) = (-1 : K) ^ vs.length • Spec.prodL g vs := by
    intro vs
    induction vs with
    | nil => simp [Spec.prodL]
    | cons v vs ih =>
      rw [Spec.prodL_cons, map_mul, ih, show involute (Spec.vec g v) = -Spec.vec g v from CliffordAlgebra.involute_ι v,
        List.length_cons, pow_succ, mul_smul_comm, neg_mul, smul_neg, mul_neg_one, neg_smul]
  have hx : V.val g ≠ 0 := fun h0 => by
    rw [h0, zero_mul] at e1
    exact one_ne_zero (α := K) (algebraMap_inj g (by rw [map_one, map_zero, e1]))
  have hp := hpar vs
  rw [← he] at hp
  rw [C36_det hs hd h1 h1.matrix, hm, hdet, (r.gInvol hs).eq_iff hs r, (r.gInvol hs).eq_iff hs r.neg, hp, Option.some_inj,
    Option.some_inj]
  constructor
  · refine ⟨fun h => by rw [h, one_smul], fun h => ?_⟩
    have : ((-1 : K) ^ vs.length - 1) • V.val g = 0 := by rw [sub_smul, h, one_smul, sub_self]
    exact sub_eq_zero.mp ((smul_eq_zero.mp this).resolve_right hx)
  · refine ⟨fun h => by rw [h, neg_one_smul], fun h => ?_⟩
    have : ((-1 : K) ^ vs.length + 1) • V.val g = 0 := by rw [add_smul, h, one_smul, neg_add_cancel]
    exact eq_neg_of_add_eq_zero_left ((smul_eq_zero.mp this).resolve_right hx)

/-- C111: the isometries of a metric that is not degenerate are exactly the transformations with `L.adj() = L.inv()`. -/
theorem C111_adjoint (hs : g.IsSymm) (hd : g.det ≠ 0) {L : Lt K n} (hL : L.WF) :
    Preserves g L ↔ ∃ L' L'', L.adj g = some L' ∧ L.inv g = some L'' ∧ L'.matrix = L''.matrix := by
  obtain ⟨gi, L', h1, h2, h3, h4, h5⟩ := adj_spec hs hd hL
  rw [preserves_iff hs hL]
  have hform : (∀ a b, Spec.ip g (L.mat.mulVec a) (L.mat.mulVec b) = Spec.ip g a b) ↔ L.mat.transpose * g * L.mat = g := by
    simp only [Spec.ip_mulVec hs, mulVec_dot, Matrix.mulVec_mulVec]
    constructor
    · intro h
      refine Matrix.ext_iff_mulVec.mpr fun b => ?_
      refine dotProduct_eq _ _ fun a => ?_
      rw [dotProduct_comm, dotProduct_comm _ a, ← h a b, mul_assoc]
    · intro h a b
      rw [← mul_assoc, h]
  rw [hform]
  have hinv : ∀ {M : Matrix (Fin n) (Fin n) K}, M * L.mat = 1 → ∃ L'', L.inv g = some L'' ∧ L''.WF ∧ L''.mat = M := by
    intro M e
    have hdet : L.mat.det ≠ 0 := by
      intro h0
      have := congrArg Matrix.det e
      rw [Matrix.det_mul, h0, mul_zero, Matrix.det_one] at this
      exact zero_ne_one this
    rw [Lt.inv, isSingular_spec hs hd hL, Option.bind_some, hL.matrix, Option.bind_some, matInv]
    simp only [hdet, decide_false, Bool.false_eq_true, if_false, Option.map_some]
    refine ⟨_, rfl, (Lt.ofMatrix_spec _).1, ?_⟩
    rw [(Lt.ofMatrix_spec _).2]
    have e2 : L.mat * (L.mat.det⁻¹ • L.mat.adjugate) = 1 := by
      rw [Matrix.mul_smul, Matrix.mul_adjugate, smul_smul, inv_mul_cancel₀ hdet, one_smul]
    exact (left_inv_eq_right_inv e e2).symm
  constructor
  · intro h
    obtain ⟨L'', k1, k2, k3⟩ := hinv (M := gi * L.mat.transpose * g) (by
      rw [mul_assoc, mul_assoc, ← mul_assoc _ g, h, h1])
    exact ⟨L', L'', h3, k1, by rw [h4.matrix, k2.matrix, h5, k3]⟩
  · rintro ⟨A, B, hA, hB, hAB⟩
    rw [h3] at hA
    cases hA
    have hdet : L.mat.det ≠ 0 := by
      intro h0
      have := (C38_inverse_raises hs hd hL).mpr (by rw [C36_det hs hd hL hL.matrix, h0])
      rw [hB] at this
      cases this
    obtain ⟨L'', k1, k2, k3⟩ := hinv (M := L.mat.det⁻¹ • L.mat.adjugate) (by
      rw [Matrix.smul_mul, Matrix.adjugate_mul, smul_smul, inv_mul_cancel₀ hdet, one_smul])
    rw [hB] at k1
    cases k1
    rw [h4.matrix, k2.matrix, Option.some_inj, h5, k3] at hAB
    have e : gi * L.mat.transpose * g * L.mat = 1 := by
      rw [hAB, Matrix.smul_mul, Matrix.adjugate_mul, smul_smul, inv_mul_cancel₀ hdet, one_smul]
    have := congrArg (g * ·) e
    simp only [← mul_assoc, h2, one_mul, mul_one] at this
    exact this

/-- C111: for an even versor `V` and a blade `B` of the subspace `U`, `V * B * V.inv()` stands for the image of `U` under
`Lt(V)`; for an odd versor also. -/
theorem C111_subspace (hs : g.IsSymm) {V W B : Mv K n} (hV : V.WF g) (hb : V.isBladeRep = true) (hB : B.WF g)
    (hb' : B.isBladeRep = true) {L : Lt K n} (h : Lt.ofVersor g V = some L) {M : Matrix (Fin n) (Fin n) K}
    (hM : L.matrix = some M) (hW : V.inv g = some W) (hp : (V.gInvol g).eq g V = true ∨ (V.gInvol g).eq g V.neg = true)
    {U : Submodule K (Fin n → K)} (hU : StandsFor g B U) :
    StandsFor g ((V.mul g B).mul g W) (U.map M.mulVecLin) ∧ Module.finrank K (U.map M.mulVecLin) = Module.finrank K U := by
  have r := Rep.of_wf hV hb
  have rB := Rep.of_wf hB hb'
  obtain ⟨hL, t, y, e1, e2⟩ := ofVersor_tw hs r h
  have rW := (r.inv hs hW).1
  rw [hL.matrix, Option.some_inj] at hM
  subst hM
  have hinj : Function.Injective L.mat.mulVecLin := by
    rw [← LinearMap.ker_eq_bot, LinearMap.ker_eq_bot']
    intro v hv
    have h1 := t v
    rw [show L.mat.mulVec v = 0 from hv, Spec.vec, Spec.vec, map_zero, zero_mul] at h1
    have i1 : involute y * involute (V.val g) = 1 := by rw [← map_mul, e2, map_one]
    have h2 := congrArg (involute y * ·) h1
    simp only [← mul_assoc, i1, one_mul, mul_zero] at h2
    exact vec_eq_zero h2
  have hker : Disjoint U (LinearMap.ker L.mat.mulVecLin) := by
    rw [LinearMap.ker_eq_bot.mpr hinj]; exact disjoint_bot_right
  have hc := (C110_image hs hL hL.matrix hB hb' hU).2 hker
  refine ⟨?_, (LinearEquiv.finrank_eq (Submodule.equivMapOfInjective _ hinj U)).symm⟩
  have rc := Rep.call hs hL rB
  have rm := (r.mul hs rB).mul hs rW
  rw [standsFor_iff hs rc] at hc
  rw [standsFor_iff hs rm]
  obtain ⟨W', hW', h1, h2⟩ := C58_sandwich hs hV hb h hB hb'
  rw [hW] at hW'
  cases hW'
  rcases hp with hp | hp
  · have h3 := h1 hp
    rw [Rep.eq_iff hs rc rm] at h3
    rwa [← h3]
  · have h3 := h2 hp
    rw [Rep.eq_iff hs rc ((r.mul hs (rB.gInvol hs)).mul hs rW),
      Spec.homogeneous_involute ((standsFor_iff hs rB U).mp hU).homogeneous, mul_smul_comm, smul_mul_assoc] at h3
    have h4 := hc.smul (c := (-1) ^ Module.finrank K U) (pow_ne_zero _ (neg_ne_zero.mpr one_ne_zero))
    rwa [h3, smul_smul, ← mul_pow, neg_one_mul, neg_neg, one_pow, one_smul] at h4

/-! The hypotheses are met: a product of two vectors in a metric that is not orthogonal. -/

namespace Ex

/-- `e_1 * (e_1 + e_2)`. -/
abbrev rotor : Mv ℚ 3 := productOf gN [![1, 0, 0], ![1, 1, 0]]

theorem rotor_wf : rotor.WF gN ∧ rotor.isBladeRep = true :=
  ⟨(rep_productOf gN_symm _).wf, (rep_productOf gN_symm _).2.1⟩

theorem rotor_versor : rotor.isVersor gN = true := by decide +kernel

example : ∃ L, Lt.ofVersor gN rotor = some L ∧ L.WF ∧ Preserves gN L ∧ L.det gN = some 1 := by
  obtain ⟨L, -, -, h, -, -, hL, -, -, hp, -⟩ :=
    C111_compose gN_symm rotor_wf.1 rotor_wf.2 rotor_wf.1 rotor_wf.2 rotor_versor rotor_versor
  refine ⟨L, h, hL, hp, ?_⟩
  exact (C111_det gN_symm (by decide +kernel) rotor_wf.1 rotor_wf.2 rotor_versor h).1.mpr (by decide +kernel)

/-- It is not the identity, and its matrix has the entries computed by hand. -/
example : ((Lt.ofVersor gN rotor).bind Lt.matrix).map (fun M => decide (M = 1)) = some false := by decide +kernel

example : NonNull gN ![1, 0, 0] ∧ NonNull gN ![1, 1, 0] ∧ gN.det ≠ 0 := by
  unfold NonNull; decide +kernel

example : ((Lt.ofVersor gN (Mv.vector ![1, 0, 0])).bind (Lt.det gN)) = some (-1) := by decide +kernel

/-- A transformation that is no isometry. -/
example : ¬ Preserves gN (Lt.ofMatrix (2 : Matrix (Fin 3) (Fin 3) ℚ)) := fun h => by
  have := h ![1, 0, 0] ![1, 0, 0]
  revert this
  decide +kernel

end Ex

end GA
