import Verif.Props.C107
import Verif.Props.C23
import Verif.Props.C31
import Verif.Props.C36

/-!
# C107: versors form a group

`V.isVersor g` models `V.is_versor()`, `V.inv g` models `V.inv()` (`none` where it raises), `V.qform g` models `V.qform()`.
-/

set_option linter.unusedSectionVars false
set_option maxRecDepth 10000

namespace GA
open CliffordAlgebra
variable {n : ℕ} {K : Type*} [Field K] [DecidableEq K] [Invertible (2 : K)]
  {g : Matrix (Fin n) (Fin n) K}

theorem vec_eq_zero {v : Fin n → K} (h : Spec.vec g v = 0) : v = 0 := by
  have h3 := congrArg (Spec.toExt g) h
  rwa [Spec.toExt_vec, map_zero, ← map_zero (ExteriorAlgebra.ι K), ExteriorAlgebra.ι_inj] at h3

/-- `x x̃` is a non-zero scalar and `x̂ v x̃` is a vector for every vector `v`. -/
def Versor (g : Matrix (Fin n) (Fin n) K) (x : Spec.Cl g) : Prop :=
  (∃ q : K, q ≠ 0 ∧ x * CliffordAlgebra.reverse x = algebraMap K _ q) ∧ ∀ v, Spec.Homogeneous g 1 (involute x * Spec.vec g v * CliffordAlgebra.reverse x)

theorem Versor.left {x : Spec.Cl g} {q : K} (hq : q ≠ 0) (e : x * CliffordAlgebra.reverse x = algebraMap K _ q) :
    CliffordAlgebra.reverse x * x = algebraMap K _ q := by
  have e1 : x * (q⁻¹ • CliffordAlgebra.reverse x) = 1 := by
    rw [mul_smul_comm, e, Algebra.smul_def, ← map_mul, inv_mul_cancel₀ hq, map_one]
  have e2 := Spec.mul_eq_one_symm e1
  rw [smul_mul_assoc] at e2
  have e3 := congrArg (q • ·) e2
  simp only [smul_smul, mul_inv_cancel₀ hq, one_smul] at e3
  rw [e3, Algebra.algebraMap_eq_smul_one]

theorem isVersor_iff_versor (hs : g.IsSymm) {V : Mv K n} {x : Spec.Cl g} (r : Rep g V x) :
    V.isVersor g = true ↔ n ≠ 0 ∧ Versor g x := by
  rw [isVersor_spec hs r]
  constructor
  · rintro ⟨h1, h2, v, hv⟩
    refine ⟨fun h => hv ?_, h1, h2⟩
    subst h
    rw [show v = 0 from Subsingleton.elim _ _, Spec.vec, map_zero, mul_zero, zero_mul]
  · rintro ⟨hn, ⟨q, hq, e⟩, h2⟩
    refine ⟨⟨q, hq, e⟩, h2, Pi.single ⟨0, Nat.pos_of_ne_zero hn⟩ 1, fun h0 => ?_⟩
    have e' := Versor.left hq e
    have e2 : involute (CliffordAlgebra.reverse x) * involute x = algebraMap K _ q := by rw [← map_mul, e', AlgHom.commutes]
    have h3 : involute (CliffordAlgebra.reverse x) * (involute x * Spec.vec g (Pi.single ⟨0, Nat.pos_of_ne_zero hn⟩ 1) * CliffordAlgebra.reverse x) * x = 0 := by
      rw [h0, mul_zero, zero_mul]
    have h4 : involute (CliffordAlgebra.reverse x) * (involute x * Spec.vec g (Pi.single ⟨0, Nat.pos_of_ne_zero hn⟩ 1) * CliffordAlgebra.reverse x) * x =
        (q * q) • Spec.vec g (Pi.single ⟨0, Nat.pos_of_ne_zero hn⟩ 1) := by
      rw [mul_assoc (involute x), ← mul_assoc, e2, mul_assoc, mul_assoc, e', ← Algebra.commutes, ← Algebra.smul_def,
        ← Algebra.smul_def, smul_smul]
    rw [h4] at h3
    have h5 := (smul_eq_zero.mp h3).resolve_left (mul_ne_zero hq hq)
    have := congrFun (vec_eq_zero h5) ⟨0, Nat.pos_of_ne_zero hn⟩
    simp at this

theorem Versor.mul {x y : Spec.Cl g} (hx : Versor g x) (hy : Versor g y) : Versor g (x * y) := by
  obtain ⟨⟨p, hp, ep⟩, hx⟩ := hx
  obtain ⟨⟨q, hq, eq⟩, hy⟩ := hy
  refine ⟨⟨p * q, mul_ne_zero hp hq, ?_⟩, fun v => ?_⟩
  · rw [CliffordAlgebra.reverse.map_mul, mul_assoc, ← mul_assoc y, eq, Algebra.commutes, ← mul_assoc, ep, ← map_mul]
  · obtain ⟨u, hu⟩ := Spec.homogeneous_one (hy v)
    have := hx u
    rw [← hu] at this
    rw [map_mul, CliffordAlgebra.reverse.map_mul]
    simpa only [mul_assoc] using this

theorem Versor.smul {x : Spec.Cl g} (hx : Versor g x) {c : K} (hc : c ≠ 0) : Versor g (c • x) := by
  obtain ⟨⟨p, hp, ep⟩, hx⟩ := hx
  refine ⟨⟨c * (c * p), mul_ne_zero hc (mul_ne_zero hc hp), ?_⟩, fun v => ?_⟩
  · rw [map_smul, smul_mul_assoc, mul_smul_comm, ep, Algebra.smul_def, Algebra.smul_def, ← map_mul, ← map_mul]
  · rw [map_smul, map_smul, smul_mul_assoc, smul_mul_assoc, mul_smul_comm]
    exact ((hx v).smul c).smul c

theorem Versor.rev {x : Spec.Cl g} (hx : Versor g x) : Versor g (CliffordAlgebra.reverse x) := by
  obtain ⟨⟨q, hq, e⟩, hx⟩ := hx
  have e' := Versor.left hq e
  have e2 : involute (CliffordAlgebra.reverse x) * involute x = algebraMap K _ q := by rw [← map_mul, e', AlgHom.commutes]
  refine ⟨⟨q, hq, by rw [reverse_reverse, e']⟩, fun v => ?_⟩
  have hu := fun v => Spec.homogeneous_one (hx v)
  choose u hu using hu
  obtain ⟨M, hMu⟩ : ∃ M : Matrix (Fin n) (Fin n) K, ∀ k i, M k i = u (Pi.single i 1) k :=
    ⟨Matrix.of fun k i => u (Pi.single i 1) k, fun _ _ => rfl⟩
  have hM : ∀ a, involute x * Spec.vec g a * CliffordAlgebra.reverse x = Spec.vec g (M.mulVec a) := by
    intro a
    have e1 : M.mulVec a = ∑ i, a i • u (Pi.single i 1) := by
      funext k
      simp only [hMu, Matrix.mulVec, dotProduct, Finset.sum_apply, Pi.smul_apply, smul_eq_mul]
      exact Finset.sum_congr rfl fun i _ => mul_comm _ _
    have e2 : a = ∑ i, a i • (Pi.single i 1 : Fin n → K) := by
      funext k
      simp [Finset.sum_apply, Pi.single_apply]
    rw [e1]
    conv_lhs => rw [e2]
    simp only [Spec.vec, map_sum, map_smul, Finset.mul_sum, Finset.sum_mul, mul_smul_comm, smul_mul_assoc]
    refine Finset.sum_congr rfl fun i _ => ?_
    congr 1
    exact hu _
  have h4 : ∀ a, involute (CliffordAlgebra.reverse x) * Spec.vec g (M.mulVec a) * x = (q * q) • Spec.vec g a := fun a => by
    rw [← hM, mul_assoc (involute x), ← mul_assoc, e2, mul_assoc, mul_assoc, e', ← Algebra.commutes, ← Algebra.smul_def,
      ← Algebra.smul_def, smul_smul]
  have hinj : Function.Injective M.mulVecLin := by
    rw [← LinearMap.ker_eq_bot, LinearMap.ker_eq_bot']
    intro a ha
    have h5 := h4 a
    rw [← Matrix.mulVecLin_apply, ha, Spec.vec, map_zero, mul_zero, zero_mul] at h5
    exact vec_eq_zero ((smul_eq_zero.mp h5.symm).resolve_left (mul_ne_zero hq hq))
  obtain ⟨a, ha⟩ := LinearMap.injective_iff_surjective.mp hinj v
  rw [reverse_reverse, ← ha, Matrix.mulVecLin_apply, h4]
  exact (Spec.homogeneous_vec a).smul _

/-- C107: products of multivectors that pass `is_versor` pass, in every metric. -/
theorem C107_versor_mul (hs : g.IsSymm) {V W : Mv K n} (hV : V.WF g) (hV' : V.isBladeRep = true) (hW : W.WF g)
    (hW' : W.isBladeRep = true) (h1 : V.isVersor g = true) (h2 : W.isVersor g = true) :
    (V.mul g W).isVersor g = true := by
  have r1 := Rep.of_wf hV hV'
  have r2 := Rep.of_wf hW hW'
  rw [isVersor_iff_versor hs r1] at h1
  rw [isVersor_iff_versor hs r2] at h2
  exact (isVersor_iff_versor hs (r1.mul hs r2)).mpr ⟨h1.1, h1.2.mul h2.2⟩

/-- C107: the reverse and the non-zero multiples of a multivector that passes `is_versor` pass. -/
theorem C107_versor_rev (hs : g.IsSymm) {V : Mv K n} (hV : V.WF g) (hV' : V.isBladeRep = true)
    (h : V.isVersor g = true) {c : K} (hc : c ≠ 0) :
    (V.rev g).isVersor g = true ∧ (V.smul c).isVersor g = true := by
  have r := Rep.of_wf hV hV'
  rw [isVersor_iff_versor hs r] at h
  exact ⟨(isVersor_iff_versor hs (r.rev hs)).mpr ⟨h.1, h.2.rev⟩,
    (isVersor_iff_versor hs (r.smul c)).mpr ⟨h.1, h.2.smul hc⟩⟩

/-- C107: a multivector that passes `is_versor` has an inverse, computed by `inv`, that passes. -/
theorem C107_versor_inv (hs : g.IsSymm) {V : Mv K n} (hV : V.WF g) (hV' : V.isBladeRep = true)
    (h : V.isVersor g = true) : ∃ W, V.inv g = some W ∧ W.isVersor g = true := by
  have r := Rep.of_wf hV hV'
  rw [isVersor_iff_versor hs r] at h
  obtain ⟨q, hq, e⟩ := h.2.1
  have rm := r.mul hs (r.rev hs)
  obtain ⟨W, hW⟩ := C23_inverse_exists hs hV hq (by
    rw [rm.eq_iff hs (Rep.scalarMv q), e])
  obtain ⟨hWf, h1, h2⟩ := inv_spec hs hV hW
  have rW := (r.inv hs hW).1
  refine ⟨W, hW, ?_⟩
  refine (isVersor_iff_versor hs rW).mpr ⟨h.1, ?_⟩
  have : W.val g = q⁻¹ • CliffordAlgebra.reverse (V.val g) := by
    have e1 : V.val g * (q⁻¹ • CliffordAlgebra.reverse (V.val g)) = 1 := by
      rw [mul_smul_comm, e, Algebra.smul_def, ← map_mul, inv_mul_cancel₀ hq, map_one]
    rw [← one_mul (q⁻¹ • _), ← h2, mul_assoc, e1, mul_one]
  rw [this]
  exact h.2.rev.smul (inv_ne_zero hq)

/-- C107: the quadratic form of a product of versors is the product of their quadratic forms. -/
theorem C107_versor_qform (hs : g.IsSymm) {V W : Mv K n} (hV : V.WF g) (hV' : V.isBladeRep = true) (hW : W.WF g)
    (hW' : W.isBladeRep = true) (h1 : V.isVersor g = true) (h2 : W.isVersor g = true) :
    (V.mul g W).qform g = V.qform g * W.qform g ∧ V.qform g ≠ 0 := by
  have r1 := Rep.of_wf hV hV'
  have r2 := Rep.of_wf hW hW'
  rw [isVersor_iff_versor hs r1] at h1
  rw [isVersor_iff_versor hs r2] at h2
  obtain ⟨-, ⟨p, hp, ep⟩, -⟩ := h1
  obtain ⟨-, ⟨q, hq, eq⟩, -⟩ := h2
  have ep' := Versor.left hp ep
  have eq' := Versor.left hq eq
  have key : ∀ {A : Mv K n} {x : Spec.Cl g} (r : Rep g A x) {c : K}, CliffordAlgebra.reverse x * x = algebraMap K _ c → A.qform g = c := by
    intro A x r c hc
    have rm := (r.rev hs).mul hs r
    have := rm.scalar
    rw [hc, grade_zero_algebraMap] at this
    exact algebraMap_inj g this
  rw [key r1 ep', key r2 eq', key (r1.mul hs r2) (c := p * q) (by
    rw [CliffordAlgebra.reverse.map_mul, mul_assoc, ← mul_assoc (CliffordAlgebra.reverse (V.val g)), ep', Algebra.commutes, ← mul_assoc, eq', ← map_mul, mul_comm])]
  exact ⟨rfl, hp⟩

/-- C107: in a metric that is not degenerate, a versor is even or odd. -/
theorem C107_versor_parity (hs : g.IsSymm) (hd : g.det ≠ 0) {V : Mv K n} (hV : V.WF g) (hV' : V.isBladeRep = true)
    (h : V.isVersor g = true) : (V.gInvol g).eq g V = true ∨ (V.gInvol g).eq g V.neg = true := by
  obtain ⟨L, -, h2⟩ := C107_versor_sound_partial hs hd hV hV' h
  have r := Rep.of_wf hV hV'
  rw [r.eq_iff hs (rep_productOf hs L)] at h2
  rw [h2] at r
  rw [(r.gInvol hs).eq_iff hs r, (r.gInvol hs).eq_iff hs r.neg]
  clear h2 r
  induction L with
  | nil => left; simp [Spec.prodL]
  | cons v L ih =>
    rw [Spec.prodL_cons, map_mul, show involute (Spec.vec g v) = -Spec.vec g v from involute_ι v]
    rcases ih with ih | ih
    · right; rw [ih, neg_mul]
    · left; rw [ih, neg_mul_neg]

/-- Witness: two versors of a non-orthogonal metric, their product and its inverse. -/
example :
    let V := productOf Ex.gN [![1, 0, 0], ![1, 1, 0]]
    let W := productOf Ex.gN [![0, 1, 2]]
    V.isVersor Ex.gN = true ∧ W.isVersor Ex.gN = true ∧ (V.mul Ex.gN W).isVersor Ex.gN = true ∧
      (V.mul Ex.gN W).qform Ex.gN = V.qform Ex.gN * W.qform Ex.gN ∧ ((V.inv Ex.gN).map fun U => U.isVersor Ex.gN) = some true := by
  decide +kernel

end GA
