import Verif.Spec.Elementary
import Verif.Proofs.Project
import Verif.Proofs.Flags

/-! The exponential of a multivector whose square is a scalar. -/

set_option linter.unusedSectionVars false

namespace Spec
open GA CliffordAlgebra
variable {n : ℕ} {R : Type*} [CommRing R] [Invertible (2 : R)]
  {g : Matrix (Fin n) (Fin n) R}

theorem grade_top_wedgeL (L : List (Fin n → R)) {s : ℕ} {y : Cl g} (hy : Homogeneous g s y) :
    grade g (L.length + s) (wedgeL g L * y) = wedge g (wedgeL g L) y := by
  induction L with
  | nil => rw [List.length_nil, Nat.zero_add, wedgeL_nil, one_mul, one_wedge, hy.grade_eq]
  | cons v L ih =>
    have hL := homogeneous_wedgeL (g := g) L
    rw [wedgeL_cons, wedge_assoc, ← ih, wedge_vec, sub_mul, map_sub, mul_assoc, vec_mul, map_add,
      grade_con, List.length_cons, show L.length + 1 + s = L.length + s + 1 by omega, grade_wedge_vec]
    have h1 : grade g (L.length + s + 1 + 1) (wedgeL g L * y) = 0 :=
      grade_mul_homogeneous hL hy fun j _ _ h => by omega
    have h2 : grade g (L.length + s + 1) (con g v (wedgeL g L) * y) = 0 := by
      rcases Nat.eq_zero_or_pos L.length with h0 | h0
      · rw [h0] at hL; rw [con_homogeneous_zero v hL, zero_mul, map_zero]
      · have : Homogeneous g (L.length - 1) (con g v (wedgeL g L)) :=
          homogeneous_con v (by rwa [Nat.sub_add_cancel h0])
        exact grade_mul_homogeneous this hy fun j _ _ h => by omega
    rw [h1, h2, map_zero]; abel

/-- The part of highest grade of a product is the exterior product. -/
theorem grade_top {r s : ℕ} {x y : Cl g} (hx : Homogeneous g r x) (hy : Homogeneous g s y) :
    grade g (r + s) (x * y) = wedge g x y := by
  rw [← hx.grade_eq]
  clear hx
  induction x using blade_induction g with
  | h0 => simp [zero_wedge]
  | hadd x x' h h' => rw [map_add, add_mul, map_add, h, h', add_wedge]
  | hsm c l hl =>
    rw [map_smul, smul_mul_assoc, map_smul, smul_wedge, grade_blade]
    split_ifs with h
    · subst h
      have := grade_top_wedgeL (g := g) (l.map fun i => Pi.single i (1 : R)) hy
      rw [List.length_map, ← blade_eq_wedgeL] at this
      rw [this]
    · simp [zero_wedge]

end Spec

namespace GA
variable {n : ℕ} {K : Type*} [Field K] [DecidableEq K] [Invertible (2 : K)]
  {g : Matrix (Fin n) (Fin n) K}

theorem isBlade_den {s : Sym n} (h : IsBl s) (c : K) : Valid [(c, s)] := by
  intro t ht; rw [List.mem_singleton] at ht; subst ht; exact h

theorem valid_trigE (c s : K) {u : Expr K n} (h : Valid u) : Valid (trigE c s u) :=
  Valid.of ((valid_scalarE c).syms.addE (h.syms.smulE s))

theorem den_trigE (c s : K) (u : Expr K n) :
    den g (trigE c s u) = algebraMap K _ c + s • den g u := by
  rw [trigE, den_addE, den_scalarE, den_smulE]

/-- What `exp` computes: `1 + x` for a null `x`; otherwise `cos m + (sin m / m) x` with any square
root `m` of `-x^2`. -/
def IsExp (F : Elementary K) (x y : Spec.Cl g) : Prop :=
  (x * x = 0 → y = 1 + x) ∧
  ∀ q m : K, x * x = algebraMap K _ q → q ≠ 0 → m * m = -q →
    y = algebraMap K _ (F.cos m) + (F.sin m * m⁻¹) • x

theorem cos_congr {F : Elementary K} (hF : F.Laws) {m m' : K} (h : m * m = m' * m') (hm : m ≠ 0) :
    F.cos m = F.cos m' ∧ F.sin m * m⁻¹ = F.sin m' * m'⁻¹ := by
  have : (m - m') * (m + m') = 0 := by linear_combination h
  rcases mul_eq_zero.mp this with h | h
  · rw [sub_eq_zero.mp h]; exact ⟨rfl, rfl⟩
  · rw [eq_neg_of_add_eq_zero_left h, hF.cos_neg, hF.sin_neg, inv_neg]; exact ⟨rfl, by ring⟩

theorem isExp_of_cos {F : Elementary K} (hF : F.Laws) {x y : Spec.Cl g} {q m : K}
    (hq : x * x = algebraMap K _ q) (h0 : q ≠ 0) (hm : m * m = -q)
    (hy : y = algebraMap K _ (F.cos m) + (F.sin m * m⁻¹) • x) : IsExp F x y := by
  refine ⟨fun h => ?_, fun q' m' hq' h0' hm' => ?_⟩
  · exact absurd (algebraMap_inj g (by rw [← hq, h, map_zero])) h0
  · have e : q = q' := algebraMap_inj g (hq.symm.trans hq')
    subst e
    have hm0 : m ≠ 0 := by rintro rfl; apply h0; simpa using hm.symm
    obtain ⟨h1, h2⟩ := cos_congr hF (hm.trans hm'.symm) hm0
    rw [hy, h1, h2]

theorem isExp_of_cosh {F : Elementary K} (hF : F.Laws) {x y : Spec.Cl g} {q m : K}
    (hq : x * x = algebraMap K _ q) (h0 : q ≠ 0) (hm : m * m = q)
    (hy : y = algebraMap K _ (F.cosh m) + (F.sinh m * m⁻¹) • x) : IsExp F x y := by
  have hs := hF.sqrt_sq (-q)
  generalize F.sqrt (-q) = m' at hs
  have hm0 : m ≠ 0 := by rintro rfl; apply h0; simpa using hm.symm
  have hm0' : m' ≠ 0 := by rintro rfl; apply h0; simpa using hs.symm
  refine isExp_of_cos hF hq h0 hs ?_
  have e1 : m * m = -(m' * m') := by rw [hm, hs, neg_neg]
  rw [hy, hF.cosh_eq m m' e1]
  congr 2
  have := hF.sinh_eq m m' e1
  field_simp
  linear_combination this

theorem linearExpand_single {A : Expr K n} (hA : Valid A) {c : K} {b : Sym n}
    (h : linearExpand A = [(c, b)]) : IsBl b ∧ den g A = c • den g [((1 : K), b)] := by
  have h1 : AllSyms IsBl (linearExpand A) := (valid_iff.mp hA).linearExpand isBl_one
  rw [h] at h1
  refine ⟨h1 (c, b) (by simp), ?_⟩
  have h2 := den_linearExpand g A
  rw [h] at h2
  rw [← h2]
  simp [den]

set_option maxHeartbeats 800000 in
theorem exp_spec (hs : g.IsSymm) {F : Elementary K} (hF : F.Laws) (plus minus : Bool) {A : Mv K n}
    (hA : A.WF g) {q : K} (hq : A.val g * A.val g = algebraMap K _ q) :
    ∃ E y, A.exp g F plus minus = some E ∧ Rep g E y ∧ IsExp F (A.val g) y := by
  have hr := Rep.bladeRep hs hA
  have hsq := hr.mul hs hr
  rw [Mv.exp]
  dsimp only
  rw [if_pos ((isScalar_iff hs hsq.wf).mpr ⟨q, hsq.val.trans hq⟩),
    scalarPart_of_val hsq.wf (hsq.val.trans hq)]
  by_cases h0 : q = 0
  · rw [if_pos h0]
    refine ⟨_, _, rfl, hr.addScalar 1, fun _ => by rw [map_one, add_comm], fun q' m hq' h0' => ?_⟩
    exact absurd (algebraMap_inj g (by rw [← hq', hq, h0])) h0'
  rw [if_neg h0]
  split
  · rename_i c b hl
    obtain ⟨hb, hd⟩ := linearExpand_single (g := g) hr.valid hl
    rw [hr.den] at hd
    have hB := Rep.ofExpr (g := g) (isBlade_den hb (1 : K))
    have hc : c ≠ 0 := by
      rintro rfl
      rw [zero_smul] at hd
      rw [hd, zero_mul] at hq
      exact h0 (algebraMap_inj g (by rw [← hq, map_zero]))
    set z := den g [((1 : K), b)] with hz
    have hzz : z * z = algebraMap K _ (c⁻¹ * c⁻¹ * q) := by
      rw [hd] at hq
      have : z * z = (c⁻¹ * c⁻¹) • ((c • z) * (c • z)) := by
        rw [smul_mul_smul_comm, smul_smul, ← mul_smul_one (c⁻¹ * c⁻¹ * (c * c))]
        rw [mul_smul_one]
        rw [show c⁻¹ * c⁻¹ * (c * c) = 1 by field_simp, one_smul]
      rw [this, hq, Algebra.smul_def, ← map_mul]
    have hbs : ((Mv.ofExpr [((1 : K), b)]).mul g (Mv.ofExpr [((1 : K), b)])).scalar =
        c⁻¹ * c⁻¹ * q := by
      have h2 := hB.mul hs hB
      exact scalarPart_of_val h2.wf (h2.val.trans hzz)
    rw [hbs]
    have hdm : ∀ m : K, den g [(m⁻¹, b)] = m⁻¹ • z := by intro m; simp [hz, den]
    split_ifs with hm
    · have hsm := hF.sqrt_sq (-(c⁻¹ * c⁻¹ * q))
      generalize F.sqrt (-(c⁻¹ * c⁻¹ * q)) = m at hsm
      refine ⟨_, _, rfl, Rep.ofExpr (valid_trigE _ _ (isBlade_den hb _)), ?_⟩
      refine isExp_of_cos hF hq h0 (m := m * c) ?_ ?_
      · have : m * c * (m * c) = m * m * (c * c) := by ring
        rw [this, hsm]; field_simp
      · rw [den_trigE, hdm, hd, smul_smul, smul_smul]
        congr 2
        rw [mul_inv]; field_simp
    · have hsm := hF.sqrt_sq (c⁻¹ * c⁻¹ * q)
      generalize F.sqrt (c⁻¹ * c⁻¹ * q) = m at hsm
      refine ⟨_, _, rfl, Rep.ofExpr (valid_trigE _ _ (isBlade_den hb _)), ?_⟩
      refine isExp_of_cosh hF hq h0 (m := m * c) ?_ ?_
      · have : m * c * (m * c) = m * m * (c * c) := by ring
        rw [this, hsm]; field_simp
      · rw [den_trigE, hdm, hd, smul_smul, smul_smul]
        congr 2
        rw [mul_inv]; field_simp
  · have hv : ∀ m : K, Valid (smulE m⁻¹ (A.bladeRep g).obj) := fun m =>
      Valid.of (hr.valid.syms.smulE _)
    have hdm : ∀ m : K, den g (smulE m⁻¹ (A.bladeRep g).obj) = m⁻¹ • A.val g := fun m => by
      rw [den_smulE, hr.den]
    generalize (if F.isNumber q = true then F.isPos q else plus) = t
    cases t
    · have hsm := hF.sqrt_sq (-q)
      rw [if_neg (by simp)]
      refine ⟨_, _, rfl, Rep.ofExpr (valid_trigE _ _ (hv _)), ?_⟩
      refine isExp_of_cos hF hq h0 hsm ?_
      rw [den_trigE, hdm, smul_smul]
    · have hsm := hF.sqrt_sq q
      rw [if_pos rfl]
      refine ⟨_, _, rfl, Rep.ofExpr (valid_trigE _ _ (hv _)), ?_⟩
      refine isExp_of_cosh hF hq h0 hsm ?_
      rw [den_trigE, hdm, smul_smul]

/-- `exp` raises exactly when the square is not a scalar. -/
theorem exp_none (hs : g.IsSymm) (F : Elementary K) (plus minus : Bool) {A : Mv K n} (hA : A.WF g)
    (hq : ∀ q, A.val g * A.val g ≠ algebraMap K _ q) : A.exp g F plus minus = none := by
  have hr := Rep.bladeRep hs hA
  have hsq := hr.mul hs hr
  rw [Mv.exp]
  dsimp only
  rw [if_neg]
  intro h
  obtain ⟨c, hc⟩ := (isScalar_iff hs hsq.wf).mp h
  exact hq c (hsq.val.symm.trans hc)

/-- Additivity of the exponential on the multiples of one multivector. -/
theorem isExp_add {F : Elementary K} (hF : F.Laws) {x : Spec.Cl g} {q s t : K}
    (hq : x * x = algebraMap K _ q) {y z w : Spec.Cl g} (hy : IsExp F (s • x) y)
    (hz : IsExp F (t • x) z) (hw : IsExp F ((s + t) • x) w) : y * z = w := by
  have hsq : ∀ k : K, (k • x) * (k • x) = algebraMap K _ (k * k * q) := fun k => by
    rw [smul_mul_smul_comm, hq, Algebra.smul_def, ← map_mul]
  by_cases h0 : q = 0
  · have hk : ∀ k : K, (k • x) * (k • x) = 0 := fun k => by rw [hsq, h0, mul_zero, map_zero]
    have hxx : x * x = 0 := by rw [hq, h0, map_zero]
    rw [hy.1 (hk _), hz.1 (hk _), hw.1 (hk _), add_mul, mul_add, mul_add, smul_mul_smul_comm, hxx,
      smul_zero, one_mul, one_mul, mul_one, add_smul]
    abel
  · have hm := hF.sqrt_sq (-q)
    generalize F.sqrt (-q) = m at hm
    have hm0 : m ≠ 0 := by rintro rfl; apply h0; simpa using hm.symm
    have key : ∀ (k : K) (u : Spec.Cl g), IsExp F (k • x) u →
        u = algebraMap K _ (F.cos (k * m)) + (F.sin (k * m) * m⁻¹) • x := by
      intro k u hu
      by_cases hk : k = 0
      · subst hk
        rw [hu.1 (by simp), zero_smul, zero_mul, hF.cos_zero, hF.sin_zero, map_one, zero_mul,
          zero_smul]
      · rw [hu.2 _ (k * m) (hsq k) (by simp [hk, h0]) (by linear_combination k * k * hm), smul_smul]
        congr 2
        field_simp
    rw [key _ _ hy, key _ _ hz, key _ _ hw, add_mul s t m, hF.cos_add, hF.sin_add]
    rw [mul_add, add_mul, add_mul, ← map_mul, smul_mul_smul_comm, hq, ← Algebra.smul_def,
      ← Algebra.commutes, ← Algebra.smul_def, Algebra.smul_def _ (algebraMap K _ q), ← map_mul]
    have e : F.sin (s * m) * m⁻¹ * (F.sin (t * m) * m⁻¹) * q = -(F.sin (s * m) * F.sin (t * m)) := by
      have : q = -(m * m) := by rw [hm, neg_neg]
      rw [this]; field_simp
    rw [e, map_sub, map_neg]
    module

theorem isExp_zero {F : Elementary K} : IsExp (g := g) F 0 1 :=
  ⟨fun _ => (add_zero 1).symm, fun q m hq h0 => by
    rw [mul_zero] at hq
    exact absurd (algebraMap_inj g (by rw [← hq, map_zero])) h0⟩

/-- The exponential is `a + b x`. -/
theorem isExp_form {F : Elementary K} (hF : F.Laws) {x y : Spec.Cl g} {q : K}
    (hq : x * x = algebraMap K _ q) (hy : IsExp F x y) :
    ∃ a b : K, y = algebraMap K _ a + b • x := by
  by_cases h0 : q = 0
  · exact ⟨1, 1, by rw [hy.1 (by rw [hq, h0, map_zero]), map_one, one_smul]⟩
  · exact ⟨_, _, hy.2 q _ hq h0 (hF.sqrt_sq (-q))⟩

end GA
