import Verif.Proofs.Exp
import Verif.Proofs.Invert
import Verif.Proofs.Examples

/-!
# C30: exponentials and rotations

`A.exp g F plus minus` models `A.exp(hint)` where `plus` is `hint == '+'` and `minus` is
`hint == '-'`, and `A.rotate g F plus minus θ` models `A.rotate_multivector(θ, hint)`; `none` stands
for the `ValueError`.  `F` are the elementary functions of the coefficients, which satisfy the
identities listed in `Elementary.Laws` (`Verif/Spec/Elementary.lean`).
-/

set_option linter.unusedSectionVars false
set_option maxRecDepth 10000

namespace GA

variable {n : ℕ} {K : Type*} [Field K] [DecidableEq K] [Invertible (2 : K)]
  {g : Matrix (Fin n) (Fin n) K} {F : Elementary K}

/-- C30: `exp` returns a value exactly when the square is a scalar. -/
theorem C30_defined (hs : g.IsSymm) (hF : F.Laws) (plus minus : Bool) {A : Mv K n} (hA : A.WF g) :
    (A.exp g F plus minus).isSome = true ↔ ∃ q, (A.mul g A).eq g (Mv.scalarMv q) = true := by
  have hm := mul_spec' hs hA hA
  simp only [eq_spec hs hm.1 (scalarMv_spec _).1, hm.2, (scalarMv_spec (g := g) _).2.2]
  constructor
  · intro h
    by_contra hq
    push Not at hq
    rw [exp_none hs F plus minus hA hq] at h
    simp at h
  · rintro ⟨q, hq⟩
    obtain ⟨E, y, h, -⟩ := exp_spec hs hF plus minus hA hq
    rw [h]; rfl

/-- C30: the value of the exponential.  With `q = A^2`: for `q = 0` it is `1 + A`, and otherwise
`cos(m) + (sin(m)/m) * A` for every `m` with `m^2 = -q`, whichever branch is taken. -/
theorem C30_value (hs : g.IsSymm) (hF : F.Laws) (plus minus : Bool) {A E : Mv K n} (hA : A.WF g)
    (hE : A.exp g F plus minus = some E) {q : K}
    (hq : (A.mul g A).eq g (Mv.scalarMv q) = true) :
    (q = 0 → E.eq g ((Mv.scalarMv 1).add g A) = true) ∧
    (q ≠ 0 → ∀ m, m * m = -q →
      E.eq g ((Mv.scalarMv (F.cos m)).add g (A.smul (F.sin m / m))) = true) := by
  have hm := mul_spec' hs hA hA
  rw [eq_spec hs hm.1 (scalarMv_spec _).1, hm.2, (scalarMv_spec (g := g) _).2.2] at hq
  obtain ⟨E', y, h1, h2, h3⟩ := exp_spec hs hF plus minus hA hq
  rw [hE] at h1
  obtain rfl := Option.some.inj h1
  refine ⟨fun h0 => ?_, fun h0 m hm' => ?_⟩
  · have ha := add_spec hs (scalarMv_spec (g := g) (1 : K)).1 hA
    rw [eq_spec hs h2.wf ha.1, h2.val, ha.2, (scalarMv_spec (g := g) _).2.2, map_one]
    exact h3.1 (by rw [hq, h0, map_zero])
  · have hsm := smul_spec (F.sin m / m) hA
    have ha := add_spec hs (scalarMv_spec (g := g) (F.cos m)).1 hsm.1
    rw [eq_spec hs h2.wf ha.1, h2.val, ha.2, (scalarMv_spec (g := g) _).2.2, hsm.2, div_eq_mul_inv]
    exact h3.2 q m hq h0 hm'

/-- C30: `exp(s*A) * exp(t*A) = exp((s+t)*A)`, whichever branches and hints are taken. -/
theorem C30_add (hs : g.IsSymm) (hF : F.Laws) (p1 m1 p2 m2 p3 m3 : Bool) {A Es Et : Mv K n}
    (hA : A.WF g) (s t : K) (hsq : (A.mul g A).isScalar g = true)
    (h1 : (A.smul s).exp g F p1 m1 = some Es) (h2 : (A.smul t).exp g F p2 m2 = some Et) :
    ∃ E, (A.smul (s + t)).exp g F p3 m3 = some E ∧ (Es.mul g Et).eq g E = true := by
  have hm := mul_spec' hs hA hA
  obtain ⟨q, hq⟩ := (isScalar_iff hs hm.1).mp hsq
  rw [hm.2] at hq
  have hk : ∀ k : K, (A.smul k).WF g ∧ (A.smul k).val g * (A.smul k).val g =
      algebraMap K _ (k * k * q) := fun k => by
    have := smul_spec k hA
    refine ⟨this.1, ?_⟩
    rw [this.2, smul_mul_smul_comm, hq, Algebra.smul_def, ← map_mul]
  obtain ⟨E1, y1, a1, b1, c1⟩ := exp_spec hs hF p1 m1 (hk s).1 (hk s).2
  obtain ⟨E2, y2, a2, b2, c2⟩ := exp_spec hs hF p2 m2 (hk t).1 (hk t).2
  obtain ⟨E3, y3, a3, b3, c3⟩ := exp_spec hs hF p3 m3 (hk (s + t)).1 (hk (s + t)).2
  rw [h1] at a1; rw [h2] at a2
  obtain rfl := Option.some.inj a1
  obtain rfl := Option.some.inj a2
  refine ⟨E3, a3, ?_⟩
  rw [(b1.mul hs b2).eq_iff hs b3]
  rw [(smul_spec s hA).2] at c1
  rw [(smul_spec t hA).2] at c2
  rw [(smul_spec (s + t) hA).2] at c3
  exact isExp_add hF hq c1 c2 c3

theorem exp_mul_neg (hs : g.IsSymm) (hF : F.Laws) {A Ep Em A1 A2 : Mv K n} {s : K} {q : K}
    (hq : A.val g * A.val g = algebraMap K _ q) (p1 m1 p2 m2 : Bool)
    (hw1 : A1.WF g) (hw2 : A2.WF g) (hv1 : A1.val g = s • A.val g) (hv2 : A2.val g = (-s) • A.val g)
    (h1 : A1.exp g F p1 m1 = some Ep) (h2 : A2.exp g F p2 m2 = some Em) :
    Rep g Ep (Ep.val g) ∧ Rep g Em (Em.val g) ∧ Ep.val g * Em.val g = 1 ∧
      ∃ a b : K, Ep.val g = algebraMap K _ a + b • A.val g := by
  have hk : ∀ k : K, (k • A.val g) * (k • A.val g) = algebraMap K _ (k * k * q) := fun k => by
    rw [smul_mul_smul_comm, hq, Algebra.smul_def, ← map_mul]
  obtain ⟨E1, y1, a1, b1, c1⟩ := exp_spec hs hF p1 m1 hw1 (by rw [hv1]; exact hk s)
  obtain ⟨E2, y2, a2, b2, c2⟩ := exp_spec hs hF p2 m2 hw2 (by rw [hv2]; exact hk (-s))
  rw [h1] at a1; rw [h2] at a2
  obtain rfl := Option.some.inj a1
  obtain rfl := Option.some.inj a2
  rw [hv1] at c1; rw [hv2] at c2
  refine ⟨b1.congr b1.val.symm, b2.congr b2.val.symm, ?_, ?_⟩
  · rw [b1.val, b2.val]
    refine isExp_add hF hq c1 c2 ?_
    rw [add_neg_cancel, zero_smul]
    exact isExp_zero
  · obtain ⟨a, b, h⟩ := isExp_form hF (hk s) c1
    exact ⟨a, b * s, by rw [b1.val, h, smul_smul]⟩

/-- C30: `exp(A) * exp(-A) = 1`, whichever branches and hints are taken. -/
theorem C30_inverse (hs : g.IsSymm) (hF : F.Laws) (p1 m1 p2 m2 : Bool) {A Ep Em : Mv K n}
    (hA : A.WF g) (hsq : (A.mul g A).isScalar g = true)
    (h1 : A.exp g F p1 m1 = some Ep) (h2 : A.neg.exp g F p2 m2 = some Em) :
    (Ep.mul g Em).eq g (Mv.scalarMv 1) = true := by
  have hm := mul_spec' hs hA hA
  obtain ⟨q, hq⟩ := (isScalar_iff hs hm.1).mp hsq
  rw [hm.2] at hq
  have hn := neg_spec hA
  obtain ⟨r1, r2, e, -⟩ := exp_mul_neg hs hF (s := 1) hq p1 m1 p2 m2 hA hn.1 (by rw [one_smul])
    (by rw [hn.2, neg_one_smul]) h1 h2
  rw [(r1.mul hs r2).eq_iff hs (Rep.scalarMv 1), e, map_one]

/-- The rotors of `rotate_multivector`. -/
theorem rotate_spec (hs : g.IsSymm) (hF : F.Laws) (plus minus : Bool) {θ : Mv K n} (hθ : θ.WF g)
    (hsq : (θ.mul g θ).isScalar g = true) :
    ∃ p m : Spec.Cl g, m * p = 1 ∧ p * m = 1 ∧
      (∃ a b : K, m = algebraMap K _ a + b • θ.val g) ∧ (∃ a b : K, p = algebraMap K _ a + b • θ.val g) ∧
      ∀ A : Mv K n, A.WF g →
        ∃ S, A.rotate g F plus minus θ = some S ∧ S.WF g ∧ S.val g = m * A.val g * p := by
  have hm := mul_spec' hs hθ hθ
  obtain ⟨q, hq⟩ := (isScalar_iff hs hm.1).mp hsq
  rw [hm.2] at hq
  have hn := neg_spec hθ
  have h1 := smul_spec ⅟(2 : K) hn.1
  have h2 := smul_spec ⅟(2 : K) hθ
  have e1 : (θ.neg.smul ⅟2).val g = (-⅟(2 : K)) • θ.val g := by rw [h1.2, hn.2]; module
  have hk : ∀ k : K, (k • θ.val g) * (k • θ.val g) = algebraMap K _ (k * k * q) := fun k => by
    rw [smul_mul_smul_comm, hq, Algebra.smul_def, ← map_mul]
  obtain ⟨Rm, y1, a1, -⟩ := exp_spec hs hF plus minus h1.1 (by rw [e1]; exact hk _)
  obtain ⟨Rp, y2, a2, -⟩ := exp_spec hs hF plus minus h2.1 (by rw [h2.2]; exact hk _)
  obtain ⟨r1, r2, e, f1⟩ := exp_mul_neg hs hF (s := -⅟(2 : K)) hq plus minus plus minus h1.1 h2.1 e1
    (by rw [h2.2, neg_neg]) a1 a2
  obtain ⟨-, -, e', f2⟩ := exp_mul_neg hs hF (s := ⅟(2 : K)) hq plus minus plus minus h2.1 h1.1 h2.2
    e1 a2 a1
  refine ⟨Rp.val g, Rm.val g, e, e', f1, f2, fun A hA => ?_⟩
  have hmul := mul_spec' hs r1.wf hA
  have hmul' := mul_spec' hs hmul.1 r2.wf
  refine ⟨_, ?_, hmul'.1, by rw [hmul'.2, hmul.2]⟩
  rw [Mv.rotate, a1, a2]

/-- C30: a rotation is defined for every multivector when the square of `θ` is a scalar. -/
theorem C30_rotate_defined (hs : g.IsSymm) (hF : F.Laws) (plus minus : Bool) {A θ : Mv K n}
    (hA : A.WF g) (hθ : θ.WF g) (hsq : (θ.mul g θ).isScalar g = true) :
    ∃ S, A.rotate g F plus minus θ = some S ∧ S.WF g := by
  obtain ⟨p, m, -, -, -, -, h⟩ := rotate_spec hs hF plus minus hθ hsq
  obtain ⟨S, h1, h2, -⟩ := h A hA
  exact ⟨S, h1, h2⟩

/-- C30: a rotation respects the geometric product. -/
theorem C30_rotate_mul (hs : g.IsSymm) (hF : F.Laws) (plus minus : Bool) {A B θ SA SB : Mv K n}
    (hA : A.WF g) (hB : B.WF g) (hθ : θ.WF g) (hsq : (θ.mul g θ).isScalar g = true)
    (h1 : A.rotate g F plus minus θ = some SA) (h2 : B.rotate g F plus minus θ = some SB) :
    ∃ S, (A.mul g B).rotate g F plus minus θ = some S ∧ S.eq g (SA.mul g SB) = true := by
  obtain ⟨p, m, -, hpm, -, -, h⟩ := rotate_spec hs hF plus minus hθ hsq
  obtain ⟨S1, a1, b1, c1⟩ := h A hA
  obtain ⟨S2, a2, b2, c2⟩ := h B hB
  have hm := mul_spec' hs hA hB
  obtain ⟨S3, a3, b3, c3⟩ := h _ hm.1
  rw [h1] at a1; rw [h2] at a2
  obtain rfl := Option.some.inj a1
  obtain rfl := Option.some.inj a2
  refine ⟨S3, a3, ?_⟩
  have hm' := mul_spec' hs b1 b2
  rw [eq_spec hs b3 hm'.1, c3, hm'.2, c1, c2, hm.2]
  simp only [mul_assoc]
  rw [← mul_assoc p m, hpm, one_mul]

/-- C30: a rotation is linear. -/
theorem C30_rotate_linear (hs : g.IsSymm) (hF : F.Laws) (plus minus : Bool) {A B θ SA SB : Mv K n}
    (k : K) (hA : A.WF g) (hB : B.WF g) (hθ : θ.WF g) (hsq : (θ.mul g θ).isScalar g = true)
    (h1 : A.rotate g F plus minus θ = some SA) (h2 : B.rotate g F plus minus θ = some SB) :
    ∃ S, (A.add g (B.smul k)).rotate g F plus minus θ = some S ∧
      S.eq g (SA.add g (SB.smul k)) = true := by
  obtain ⟨p, m, -, hpm, -, -, h⟩ := rotate_spec hs hF plus minus hθ hsq
  obtain ⟨S1, a1, b1, c1⟩ := h A hA
  obtain ⟨S2, a2, b2, c2⟩ := h B hB
  have hk := smul_spec k hB
  have hm := add_spec hs hA hk.1
  obtain ⟨S3, a3, b3, c3⟩ := h _ hm.1
  rw [h1] at a1; rw [h2] at a2
  obtain rfl := Option.some.inj a1
  obtain rfl := Option.some.inj a2
  refine ⟨S3, a3, ?_⟩
  have hk' := smul_spec k b2
  have hm' := add_spec hs b1 hk'.1
  rw [eq_spec hs b3 hm'.1, c3, hm'.2, hk'.2, c1, c2, hm.2, hk.2, mul_add, add_mul, mul_smul_comm,
    smul_mul_assoc]

/-- C30: a rotation leaves the scalars fixed. -/
theorem C30_rotate_scalar (hs : g.IsSymm) (hF : F.Laws) (plus minus : Bool) {θ S : Mv K n} (c : K)
    (hθ : θ.WF g) (hsq : (θ.mul g θ).isScalar g = true)
    (h1 : (Mv.scalarMv c).rotate g F plus minus θ = some S) : S.eq g (Mv.scalarMv c) = true := by
  obtain ⟨p, m, hmp, -, -, -, h⟩ := rotate_spec hs hF plus minus hθ hsq
  have hc := scalarMv_spec (g := g) c
  obtain ⟨S1, a1, b1, c1⟩ := h _ hc.1
  rw [h1] at a1
  obtain rfl := Option.some.inj a1
  rw [eq_spec hs b1 hc.1, c1, hc.2.2, ← Algebra.commutes, mul_assoc, hmp, mul_one]

open _root_.Spec CliffordAlgebra in
/-- C30: a rotation by a bivector maps vectors to vectors. -/
theorem C30_rotate_vector (hs : g.IsSymm) (hF : F.Laws) (plus minus : Bool) {θ : Mv K n}
    (v : Fin n → K) (hθ : θ.WF g) (hsq : (θ.mul g θ).isScalar g = true)
    (h2 : ∀ r, r ≠ 2 → Spec.grade g r (θ.val g) = 0) :
    ∃ (u : Fin n → K) (S : Mv K n), (Mv.vector v).rotate g F plus minus θ = some S ∧
      S.eq g (Mv.vector u) = true := by
  obtain ⟨p, m, hmp, hpm, ⟨a, b, hm⟩, -, h⟩ := rotate_spec hs hF plus minus hθ hsq
  have hv := Rep.vector (g := g) v
  obtain ⟨S, a1, b1, c1⟩ := h _ hv.wf
  have hqq := mul_spec' hs hθ hθ
  obtain ⟨q, hq⟩ := (isScalar_iff hs hqq.1).mp hsq
  rw [hqq.2] at hq
  rw [hv.val] at c1
  generalize θ.val g = t at *
  have ht : Homogeneous g 2 t := h2
  -- `p` is the inverse of `m`, hence a multiple of `a - b t`
  have hmm : m * (algebraMap K _ a - b • t) = algebraMap K _ (a * a - b * b * q) := by
    rw [hm, mul_sub, add_mul, add_mul, ← map_mul, smul_mul_smul_comm, hq, ← Algebra.smul_def,
      Algebra.smul_def (b * b), ← map_mul, ← Algebra.commutes, ← Algebra.smul_def, map_sub]
    module
  set k := a * a - b * b * q with hk
  have hp : algebraMap K _ a - b • t = k • p := by
    have := congrArg (fun z => p * z) hmm
    simp only [← mul_assoc, hpm, one_mul] at this
    rw [this, ← Algebra.commutes, Algebra.smul_def]
  have hk0 : k ≠ 0 := by
    intro h0
    rw [h0, zero_smul, sub_eq_zero] at hp
    have h3 : grade g 2 t = t := ht.grade_eq
    have hbt : b • t = 0 := by
      have := congrArg (grade g 2) hp
      rwa [grade_algebraMap g a (by norm_num), map_smul, h3, eq_comm] at this
    rw [hbt] at hp hm
    have ha : a = 0 := algebraMap_inj g (by rw [hp, map_zero])
    rw [ha, map_zero, add_zero] at hm
    rw [hm, zero_mul] at hmp
    have : (1 : K) = 0 := algebraMap_inj g (by rw [map_one, map_zero, hmp])
    exact one_ne_zero this
  -- the rotated vector
  have hx : k • S.val g =
      (a * a) • vec g v + (a * b) • (t * vec g v - vec g v * t) - (b * b) • (t * vec g v * t) := by
    rw [c1, ← mul_smul_comm, ← hp, hm, add_mul, mul_sub, add_mul, add_mul, ← Algebra.smul_def,
      ← Algebra.commutes, ← Algebra.smul_def, ← Algebra.commutes a, ← Algebra.smul_def]
    simp only [smul_mul_assoc, mul_smul_comm, smul_smul]
    module
  have hv1 := homogeneous_vec (g := g) v
  have rt : CliffordAlgebra.reverse (Q := Q g) t = -t := by
    rw [(homogeneous_reverse ht).2]; norm_num
  have rv : CliffordAlgebra.reverse (Q := Q g) (vec g v) = vec g v := by exact reverse_ι v
  have hrev : CliffordAlgebra.reverse (Q := Q g) (k • S.val g) = k • S.val g := by
    rw [hx]
    simp only [map_add, map_sub, map_smul, CliffordAlgebra.reverse.map_mul, rt, rv, mul_assoc, neg_mul, mul_neg, neg_neg]
    module
  have hgr : ∀ r, r ≠ 1 → grade g r (k • S.val g) = 0 := by
    intro r hr
    by_cases h3 : r = 3
    · subst h3
      have h4 := congrArg (grade g 3) hrev
      rw [grade_reverse, (homogeneous_reverse (homogeneous_grade 3 (k • S.val g))).2] at h4
      norm_num at h4
      have : (2 : K) • grade g 3 (k • S.val g) = 0 := by
        rw [map_smul, two_smul]
        nth_rw 1 [← h4]
        rw [neg_add_cancel]
      exact two_cancel (R := K) (by rw [this, smul_zero])
    · have h1 : grade g r (t * vec g v) = 0 :=
        grade_mul_homogeneous ht hv1 fun j _ _ h => by omega
      have h1' : grade g r (vec g v * t) = 0 :=
        grade_mul_homogeneous hv1 ht fun j _ _ h => by omega
      have h5 : grade g r (t * vec g v * t) = 0 := by
        -- split `t v` into grades 1 and 3
        have hsplit : t * vec g v = grade g 1 (t * vec g v) + grade g 3 (t * vec g v) := by
          classical
          conv_lhs => rw [← sum_grade g (t * vec g v)]
          have hz : ∀ i, i ≠ 1 → i ≠ 3 → grade g i (t * vec g v) = 0 := fun i h1 h3 =>
            grade_mul_homogeneous ht hv1 fun j _ _ h => by omega
          have hsub : ∑ i ∈ Finset.range (n + 1), grade g i (t * vec g v) =
              ∑ i ∈ Finset.range (n + 4), grade g i (t * vec g v) := by
            refine Finset.sum_subset (fun i hi => ?_) fun i _ hi => grade_gt ?_ _
            · simp at hi ⊢; omega
            · simp at hi; omega
          rw [hsub, ← Finset.sum_subset (s₁ := {1, 3})
            (fun i hi => by simp at hi ⊢; omega)
            (fun i _ hi => by
              simp only [Finset.mem_insert, Finset.mem_singleton, not_or] at hi
              exact hz i hi.1 hi.2)]
          rw [Finset.sum_insert (by simp), Finset.sum_singleton]
        rw [hsplit, add_mul, map_add]
        have e1 : grade g r (grade g 1 (t * vec g v) * t) = 0 :=
          grade_mul_homogeneous (homogeneous_grade 1 _) ht fun j _ _ h => by omega
        have e3 : grade g r (grade g 3 (t * vec g v) * t) = 0 := by
          by_cases h5 : r = 5
          · subst h5
            have := grade_top (homogeneous_grade (g := g) 3 (t * vec g v)) ht
            rw [this, grade_top ht hv1, wedge_assoc, wedge_comm hv1 ht, wedge_smul, ← wedge_assoc,
              ← grade_top ht ht, hq, grade_algebraMap g q (by norm_num), zero_wedge, smul_zero]
          · exact grade_mul_homogeneous (homogeneous_grade 3 _) ht fun j _ _ h => by omega
        rw [e1, e3, add_zero]
      rw [hx, map_sub, map_add, map_smul, map_smul, map_smul, map_sub, h1, h1', h5, hv1 r hr]
      simp
  obtain ⟨u, hu⟩ := homogeneous_one (g := g) (x := k • S.val g) hgr
  refine ⟨k⁻¹ • u, S, a1, ?_⟩
  have hr := Rep.vector (g := g) (k⁻¹ • u)
  rw [eq_spec hs b1 hr.wf, hr.val, vec_smul, ← hu, smul_smul, inv_mul_cancel₀ hk0, one_smul]

section example_
open Classical

noncomputable local instance : Invertible (2 : ℂ) := invertibleOfNonzero two_ne_zero

/-- The hypotheses are met: complex coefficients, the plane `(1,2,0) ∧ (0,0,3)` in a
3-dimensional space with squares `1, -1, 1`; both rotors exist. -/
example :
    let g : Matrix (Fin 3) (Fin 3) ℂ := Matrix.diagonal ![1, -1, 1]
    let θ := (Mv.vector ![1, 2, 0]).wedge g (Mv.vector ![0, 0, 3])
    g.IsSymm ∧ Elementary.complex.Laws ∧ θ.WF g ∧ (θ.mul g θ).isScalar g = true ∧
      ∀ r, r ≠ 2 → Spec.grade g r (θ.val g) = 0 := by
  intro g θ
  have hs : g.IsSymm := Matrix.diagonal_transpose _
  have h := (Rep.vector (g := g) ![1, 2, 0]).wedge hs (Rep.vector ![0, 0, 3])
  have hL : Spec.wedge g (Spec.vec g ![1, 2, 0]) (Spec.vec g ![0, 0, 3]) =
      Spec.wedgeL g [![1, 2, 0], ![0, 0, 3]] := by
    rw [Spec.wedgeL_cons, Spec.wedgeL_cons, Spec.wedgeL_nil, Spec.wedge_one]
  rw [hL] at h
  refine ⟨hs, Elementary.complex_laws, h.wf, ?_, ?_⟩
  · have hm := h.mul hs h
    rw [isScalar_iff hs hm.wf, hm.val]
    exact Spec.homogeneous_zero_iff.mp (Spec.wedgeL_sq_homogeneous _)
  · rw [h.val]; exact _root_.Spec.homogeneous_wedgeL (g := g) [![1, 2, 0], ![0, 0, 3]]

end example_

end GA
