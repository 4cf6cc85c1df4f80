import Verif.Proofs.Blade
import Verif.Proofs.Examples

/-!
# C28, C29: projection into and reflection in a blade

`A.projectInBlade g B` models `A.project_in_blade(B)` and `A.reflectInBlade g B` models
`A.reflect_in_blade(B)`; `none` stands for the `ValueError`.
-/

set_option linter.unusedSectionVars false
set_option maxRecDepth 100000

namespace GA

variable {n : ℕ} {K : Type*} [Field K] [DecidableEq K] [Invertible (2 : K)]
  {g : Matrix (Fin n) (Fin n) K}

/-- `B` is a blade: its value is the exterior product `v_1 ∧ ... ∧ v_r` of some vectors.  As every
multivector a user builds, it is well-formed and in blade representation. -/
def IsBladeMv (g : Matrix (Fin n) (Fin n) K) (B : Mv K n) : Prop :=
  B.WF g ∧ B.isBladeRep = true ∧
    ∃ L : List (Fin n → K), B.val g = L.foldr (fun v x => Spec.wedge g (Spec.vec g v) x) 1

theorem IsBladeMv.rep {B : Mv K n} (h : IsBladeMv g B) :
    ∃ L : List (Fin n → K), Rep g B (Spec.wedgeL g L) := by
  obtain ⟨h1, h2, L, h3⟩ := h
  exact ⟨L, h1, h2, h3⟩

/-- Exterior products of vectors, computed by the code, are blades. -/
theorem isBladeMv_wedge (hs : g.IsSymm) (v : Fin n → K) {B : Mv K n} (hB : IsBladeMv g B) :
    IsBladeMv g ((Mv.vector v).wedge g B) := by
  obtain ⟨L, h⟩ := hB.rep
  have := (Rep.vector (g := g) v).wedge hs h
  exact ⟨this.wf, this.flag, v :: L, this.val⟩

theorem isBladeMv_vector (v : Fin n → K) : IsBladeMv g (Mv.vector v) := by
  have := Rep.vector (g := g) v
  exact ⟨this.wf, this.flag, [v], by rw [this.val]; exact (Spec.wedge_one _).symm⟩

/-- C28/C29: `is_blade` accepts every non-zero blade. -/
theorem C28_is_blade_complete (hs : g.IsSymm) {B : Mv K n} (hB : IsBladeMv g B)
    (h0 : B.val g ≠ 0) : B.isBlade g = true := by
  obtain ⟨L, h⟩ := hB.rep
  exact isBlade_wedgeL hs h (h.val ▸ h0)

/-- C28: the projection into an invertible blade is defined for every multivector. -/
theorem C28_defined (hs : g.IsSymm) {A B : Mv K n} (hA : A.WF g) (hB : IsBladeMv g B)
    (hq : B.qform g ≠ 0) : ∃ P, A.projectInBlade g B = some P ∧ P.WF g := by
  obtain ⟨L, h⟩ := hB.rep
  obtain ⟨-, c, d, hd, hc, -⟩ := blade_inverse hs h hq
  obtain ⟨P, h1, h2⟩ := project_spec hs hA rfl h hq hd hc
  exact ⟨P, h1, h2.wf⟩

/-- C28: the projection is linear. -/
theorem C28_linear (hs : g.IsSymm) {A A' B P P' : Mv K n} (k : K) (hA : A.WF g) (hA' : A'.WF g)
    (hB : IsBladeMv g B) (hq : B.qform g ≠ 0) (hP : A.projectInBlade g B = some P)
    (hP' : A'.projectInBlade g B = some P') :
    ∃ S, (A.add g (A'.smul k)).projectInBlade g B = some S ∧ S.eq g (P.add g (P'.smul k)) = true := by
  obtain ⟨L, h⟩ := hB.rep
  obtain ⟨-, c, d, hd, hc, -⟩ := blade_inverse hs h hq
  obtain ⟨P1, h1, r1⟩ := project_spec hs hA rfl h hq hd hc
  obtain ⟨P2, h2, r2⟩ := project_spec hs hA' rfl h hq hd hc
  rw [hP] at h1; rw [hP'] at h2
  obtain rfl := Option.some.inj h1
  obtain rfl := Option.some.inj h2
  have hk := smul_spec k hA'
  have hadd := add_spec hs hA hk.1
  obtain ⟨S, h3, r3⟩ := project_spec hs hadd.1 rfl h hq hd hc
  refine ⟨S, h3, ?_⟩
  rw [r3.eq_iff hs (r1.add hs (r2.smul k)), hadd.2, hk.2, Spec.lc_add_left, Spec.lc_smul_left, add_mul,
    smul_mul_assoc]

/-- C28: projecting twice is projecting once. -/
theorem C28_idempotent (hs : g.IsSymm) {A B P : Mv K n} (hA : A.WF g) (hB : IsBladeMv g B)
    (hq : B.qform g ≠ 0) (hP : A.projectInBlade g B = some P) :
    ∃ P', P.projectInBlade g B = some P' ∧ P'.eq g P = true := by
  obtain ⟨L, h⟩ := hB.rep
  obtain ⟨-, c, d, hd, hc, -⟩ := blade_inverse hs h hq
  obtain ⟨P1, h1, r1⟩ := project_spec hs hA rfl h hq hd hc
  rw [hP] at h1
  obtain rfl := Option.some.inj h1
  obtain ⟨P2, h2, r2⟩ := project_spec hs r1.wf r1.val h hq hd hc
  refine ⟨P2, h2, ?_⟩
  rw [r2.eq_iff hs r1, Spec.proj_proj hc hd]

/-- C28: the projection of a vector `a` is a vector inside `B` (`proj(a)^B == 0`), and
`a - proj(a)` is orthogonal to `B` (`(a - proj(a)) < B == 0`). -/
theorem C28_vector (hs : g.IsSymm) {B : Mv K n} (a : Fin n → K) (hB : IsBladeMv g B)
    (hq : B.qform g ≠ 0) :
    ∃ u : Fin n → K, ∃ P, (Mv.vector a).projectInBlade g B = some P ∧
      P.eq g (Mv.vector u) = true ∧ (P.wedge g B).isZero = true ∧
      (((Mv.vector a).sub g P).left g B).isZero = true := by
  obtain ⟨L, h⟩ := hB.rep
  obtain ⟨-, c, d, hd, hc, -⟩ := blade_inverse hs h hq
  have hv := Rep.vector (g := g) a
  obtain ⟨P, h1, r1⟩ := project_spec hs hv.wf hv.val h hq hd hc
  obtain ⟨u, e1, e2, e3⟩ := Spec.proj_vec hc hd a
  rw [e1] at r1
  refine ⟨u, P, h1, ?_, ?_, ?_⟩
  · rw [r1.eq_iff hs (Rep.vector u)]
  · have := r1.wedge hs h
    rw [isZero_iff this.wf, this.val, e2]
  · have := (hv.sub hs r1).left hs h
    rw [isZero_iff this.wf, this.val, ← map_sub_vec, Spec.lc_vec, e3]

/-- The converse of C28's acceptance test is false: `is_blade` accepts `e_1^e_2^e_3 + e_4^e_5^e_6` in
Euclidean 6-space, and the "projection" of the vector `e_1` into it is not a vector. -/
theorem C28_non_blade_accepted :
    let V : Mv ℚ 6 := Mv.ofExpr [(1, .blade [0, 1, 2]), (1, .blade [3, 4, 5])]
    V.isBlade 1 = true ∧ V.qform 1 = 2 ∧
      ((Mv.ofExpr (bladeE [0])).projectInBlade 1 V).map (fun P => P.isVector 1) = some false := by
  decide +kernel

/-- C29: the reflection in an invertible blade is defined for every multivector (in blade
representation, or for an orthogonal basis). -/
theorem C29_defined (hs : g.IsSymm) {A B : Mv K n} (hA : A.WF g)
    (hb : A.isBladeRep = true ∨ isOrtho g = true) (hB : IsBladeMv g B) (hq : B.qform g ≠ 0) :
    ∃ P, A.reflectInBlade g B = some P ∧ P.WF g ∧ P.isBladeRep = true := by
  obtain ⟨L, h⟩ := hB.rep
  obtain ⟨-, c, d, hd, hc, -⟩ := blade_inverse hs h hq
  obtain ⟨P, h1, h2⟩ := reflect_spec hs (hA.valid hb) rfl h hq hd hc
  exact ⟨P, h1, h2.wf, h2.flag⟩

/-- C29: the reflection is linear. -/
theorem C29_linear (hs : g.IsSymm) {A A' B P P' : Mv K n} (k : K) (hA : A.WF g)
    (hb : A.isBladeRep = true) (hA' : A'.WF g) (hb' : A'.isBladeRep = true)
    (hB : IsBladeMv g B) (hq : B.qform g ≠ 0) (hP : A.reflectInBlade g B = some P)
    (hP' : A'.reflectInBlade g B = some P') :
    ∃ S, (A.add g (A'.smul k)).reflectInBlade g B = some S ∧ S.eq g (P.add g (P'.smul k)) = true := by
  obtain ⟨L, h⟩ := hB.rep
  obtain ⟨-, c, d, hd, hc, -⟩ := blade_inverse hs h hq
  have a1 := Rep.of_wf hA hb
  have a2 := Rep.of_wf hA' hb'
  obtain ⟨P1, h1, r1⟩ := reflect_spec hs a1.valid a1.val h hq hd hc
  obtain ⟨P2, h2, r2⟩ := reflect_spec hs a2.valid a2.val h hq hd hc
  rw [hP] at h1; rw [hP'] at h2
  obtain rfl := Option.some.inj h1
  obtain rfl := Option.some.inj h2
  have a3 := a1.add hs (a2.smul k)
  obtain ⟨S, h3, r3⟩ := reflect_spec hs a3.valid a3.val h hq hd hc
  refine ⟨S, h3, ?_⟩
  rw [r3.eq_iff hs (r1.add hs (r2.smul k)), map_add, map_smul, mul_add, add_mul,
    mul_smul_comm k, smul_mul_assoc k]

/-- C29: the reflection respects the geometric product. -/
theorem C29_multiplicative (hs : g.IsSymm) {A A' B P P' : Mv K n} (hA : A.WF g)
    (hb : A.isBladeRep = true) (hA' : A'.WF g) (hb' : A'.isBladeRep = true)
    (hB : IsBladeMv g B) (hq : B.qform g ≠ 0) (hP : A.reflectInBlade g B = some P)
    (hP' : A'.reflectInBlade g B = some P') :
    ∃ S, (A.mul g A').reflectInBlade g B = some S ∧ S.eq g (P.mul g P') = true := by
  obtain ⟨L, h⟩ := hB.rep
  obtain ⟨-, c, d, hd, hc, -⟩ := blade_inverse hs h hq
  have a1 := Rep.of_wf hA hb
  have a2 := Rep.of_wf hA' hb'
  obtain ⟨P1, h1, r1⟩ := reflect_spec hs a1.valid a1.val h hq hd hc
  obtain ⟨P2, h2, r2⟩ := reflect_spec hs a2.valid a2.val h hq hd hc
  rw [hP] at h1; rw [hP'] at h2
  obtain rfl := Option.some.inj h1
  obtain rfl := Option.some.inj h2
  have a3 := a1.mul hs a2
  obtain ⟨S, h3, r3⟩ := reflect_spec hs a3.valid a3.val h hq hd hc
  refine ⟨S, h3, ?_⟩
  have hd' : (d • Spec.wedgeL g L) * Spec.wedgeL g L = 1 := by
    rw [smul_mul_assoc, hc, Algebra.smul_def, ← map_mul, hd, map_one]
  rw [r3.eq_iff hs (r1.mul hs r2), map_mul]
  generalize d • Spec.wedgeL g L = b at *
  rw [mul_assoc, mul_assoc, mul_assoc, mul_assoc, mul_assoc, ← mul_assoc b, hd', one_mul]

/-- C29: reflecting twice gives the multivector back. -/
theorem C29_involutive (hs : g.IsSymm) {A B P : Mv K n} (hA : A.WF g) (hb : A.isBladeRep = true)
    (hB : IsBladeMv g B) (hq : B.qform g ≠ 0) (hP : A.reflectInBlade g B = some P) :
    ∃ S, P.reflectInBlade g B = some S ∧ S.eq g A = true := by
  obtain ⟨L, h⟩ := hB.rep
  obtain ⟨-, c, d, hd, hc, -⟩ := blade_inverse hs h hq
  have a1 := Rep.of_wf hA hb
  obtain ⟨P1, h1, r1⟩ := reflect_spec hs a1.valid a1.val h hq hd hc
  rw [hP] at h1
  obtain rfl := Option.some.inj h1
  obtain ⟨S, h3, r3⟩ := reflect_spec hs r1.valid r1.val h hq hd hc
  refine ⟨S, h3, ?_⟩
  rw [r3.eq_iff hs a1, map_mul, map_mul, map_smul, twist_twist, twist_wedgeL]
  have e1 : Spec.wedgeL g L * (Spec.wedgeL g L * A.val g * (d • Spec.wedgeL g L)) *
      (d • Spec.wedgeL g L) = (Spec.wedgeL g L * Spec.wedgeL g L) * A.val g *
        (d • d • (Spec.wedgeL g L * Spec.wedgeL g L)) := by
    simp only [mul_assoc, mul_smul_comm, smul_mul_assoc]
  rw [e1, hc, mul_assoc, ← Algebra.smul_def, mul_smul_comm, mul_smul_comm, ← Algebra.commutes,
    ← Algebra.smul_def, smul_smul, smul_smul, smul_smul]
  have : c * d * d * c = 1 := by linear_combination (d * c + 1) * hd
  rw [this, one_smul]

/-- C29: on a vector `a` the reflection is `2*proj(a) - a`. -/
theorem C29_vector (hs : g.IsSymm) {B : Mv K n} (a : Fin n → K) (hB : IsBladeMv g B)
    (hq : B.qform g ≠ 0) :
    ∃ P S, (Mv.vector a).projectInBlade g B = some P ∧ (Mv.vector a).reflectInBlade g B = some S ∧
      S.eq g ((P.smul 2).sub g (Mv.vector a)) = true := by
  obtain ⟨L, h⟩ := hB.rep
  obtain ⟨-, c, d, hd, hc, -⟩ := blade_inverse hs h hq
  have hv := Rep.vector (g := g) a
  obtain ⟨P, h1, r1⟩ := project_spec hs hv.wf hv.val h hq hd hc
  obtain ⟨S, h2, r2⟩ := reflect_spec hs hv.valid hv.val h hq hd hc
  refine ⟨P, S, h1, h2, ?_⟩
  rw [r2.eq_iff hs ((r1.smul 2).sub hs hv), ← Spec.refl_vec hc hd, twist_vec,
    mul_smul_comm ((-1) ^ _), smul_mul_assoc ((-1) ^ _)]

/-- The hypotheses are met by the plane `(e_0 + 2 e_2) ∧ e_1` of a non-orthogonal algebra. -/
example :
    let B := (Mv.vector ![1, 0, 2]).wedge Ex.gN (Mv.vector ![0, 1, 0])
    IsBladeMv Ex.gN B ∧ B.qform Ex.gN ≠ 0 ∧
      (Ex.A.projectInBlade Ex.gN B).isSome = true ∧ (Ex.A.reflectInBlade Ex.gN B).isSome = true :=
  ⟨isBladeMv_wedge Ex.gN_symm _ (isBladeMv_vector _), by decide +kernel, by decide +kernel,
    by decide +kernel⟩

/-- The documented formula `∑ r, (-1)^(s(r+1)) B <A>_r B⁻¹`, `s` the grade of `B`, is not what the code
computes (mv.py:2279-2289 and doc/module-components.rst): for a vector `A` (so `r = 1`) and a plane `B`
(so `s = 2`) it has the other sign.  By `C29_vector` the value of the code is the reflection. -/
theorem C29_documented_formula_counterexample :
    let B := (Mv.vector ![1, 0, 0]).wedge Ex.gO (Mv.vector ![0, 1, 0])
    let A := Mv.vector ![1, 0, 0]
    ∃ S Bi, A.reflectInBlade Ex.gO B = some S ∧ B.inv Ex.gO = some Bi ∧ (A.getGrade 1).eq Ex.gO A = true ∧
      IsBladeMv Ex.gO B ∧ S.eq Ex.gO A = true ∧
      S.eq Ex.gO (((B.mul Ex.gO A).mul Ex.gO Bi).smul ((-1) ^ (2 * (1 + 1)))) = false := by
  intro B A
  have h1 : (A.reflectInBlade Ex.gO B).isSome = true := by decide +kernel
  have h2 : (B.inv Ex.gO).isSome = true := by decide +kernel
  refine ⟨_, _, (Option.some_get h1).symm, (Option.some_get h2).symm, ?_,
    isBladeMv_wedge Ex.gO_symm _ (isBladeMv_vector _), ?_, ?_⟩ <;> decide +kernel +revert

end GA
