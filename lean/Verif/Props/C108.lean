import Verif.Proofs.Norm
import Verif.Props.C28Outer
import Verif.Props.C37Mv
import Verif.Props.C69
import Verif.Props.C107Group

/-!
# C108: `sp` is a scalar product and, in Euclidean algebras, `norm` is its norm

`A.spRev g B` models `A.sp(B, 'rev')`, `A.qform g` models `A.qform()`, `A.norm g T F isNonneg posDef hint` models
`A.norm(hint)` where `posDef` is the answer of `g.is_positive_definite`, `T` are SymPy's tests of signs and `F` its square
root.
-/

set_option linter.unusedSectionVars false
set_option maxRecDepth 10000

namespace Spec
open GA CliffordAlgebra
variable {n : ℕ} {K : Type*} [Field K] [DecidableEq K] [Invertible (2 : K)] {g : Matrix (Fin n) (Fin n) K}

theorem outer_reverse (M : Matrix (Fin n) (Fin n) K) (x : Cl g) : outer g M (reverse x) = reverse (outer g M x) := by
  induction x using wedge_induction with
  | h0 => simp
  | h1 => rw [reverse.map_one, outer_one, reverse.map_one]
  | hadd x y hx hy => simp only [map_add, hx, hy]
  | hsmul c x hx => simp only [map_smul, hx]
  | hv w x hx =>
    rw [reverse_wedge, outer_wedge, outer_wedge, hx, reverse_wedge, show reverse (vec g w) = vec g w from reverse_ι w, outer_vec,
      show reverse (vec g (M.mulVec w)) = vec g (M.mulVec w) from reverse_ι _]

/-- The adjoint of an outermorphism. -/
theorem sp_outer {M N : Matrix (Fin n) (Fin n) K} (h : ∀ a b, ip g a (M.mulVec b) = ip g (N.mulVec a) b) (x y : Cl g) :
    sp x (outer g M y) = sp (outer g N x) y := by
  apply algebraMap_inj g
  have e : ∀ x y : Cl g, algebraMap K (Cl g) (sp x y) = grade g 0 (leftContraction g (reverse x) y) := fun x y => by
    rw [grade_zero_lc, ← algebraMap_sc]; rfl
  rw [e, e, lc_outer h, ← outer_reverse, ← homogeneous_outer, ← algebraMap_sc, Algebra.algebraMap_eq_smul_one, map_smul, outer_one]

/-- The projection into an invertible blade is its own adjoint. -/
theorem sp_proj {L : List (Fin n → K)} {c d : K} (hB : wedgeL g L * wedgeL g L = algebraMap K _ c) (hd : d * c = 1)
    (hL : wedgeL g L ≠ 0) (x y : Cl g) :
    sp x (leftContraction g y (wedgeL g L) * (d • wedgeL g L)) = sp (leftContraction g x (wedgeL g L) * (d • wedgeL g L)) y := by
  obtain ⟨M, hM⟩ := proj_outer hB hd
  rw [hM, hM]
  refine sp_outer (fun a b => ?_) x y
  have hu : ∀ a, wedge g (vec g (M.mulVec a)) (wedgeL g L) = 0 ∧ con g (a - M.mulVec a) (wedgeL g L) = 0 := fun a => by
    obtain ⟨u, h1, h2, h3⟩ := proj_vec hB hd a
    have e : vec g (u - M.mulVec a) = 0 := by
      have := hM (vec g a)
      rw [h1, outer_vec] at this
      rw [vec, map_sub, sub_eq_zero]; exact this
    have e' : u = M.mulVec a := by
      have h3 := congrArg (toExt g) e
      rw [toExt_vec, map_zero, ← map_zero (ExteriorAlgebra.ι K), ExteriorAlgebra.ι_inj] at h3
      exact sub_eq_zero.mp h3
    exact e' ▸ ⟨h2, h3⟩
  have key : ∀ a b, ip g (a - M.mulVec a) (M.mulVec b) = 0 := fun a b => by
    have h := congrArg (con g (a - M.mulVec a)) (hu b).1
    rw [con_wedge_vec, (hu a).2, wedge_zero, sub_zero, con, map_zero] at h
    exact (smul_eq_zero.mp h).resolve_right hL
  have k1 := key a b
  have k2 := key b a
  have sub : ∀ a b c : Fin n → K, ip g (a - b) c = ip g a c - ip g b c := fun a b c => by
    rw [ip, ip, ip, map_sub]; rfl
  have comm : ∀ a b : Fin n → K, ip g a b = ip g b a := fun a b => by
    rw [ip, ip]; exact QuadraticMap.associated_isSymm K (Q g) a b
  rw [sub, sub_eq_zero] at k1 k2
  rw [k1, comm _ b, k2, comm]

end Spec

namespace GA
section field
variable {n : ℕ} {K : Type*} [Field K] [DecidableEq K] [Invertible (2 : K)] {g : Matrix (Fin n) (Fin n) K}

theorem spRev_spec (hs : g.IsSymm) {A B : Mv K n} {x y : Spec.Cl g} (rA : Rep g A x) (rB : Rep g B y) :
    A.spRev g B = Spec.sp x y := ((rA.rev hs).mul hs rB).scalar_sc

theorem qform_sp (hs : g.IsSymm) {A : Mv K n} {x : Spec.Cl g} (rA : Rep g A x) : A.qform g = Spec.sp x x :=
  spRev_spec hs rA rA

/-- C108: `sp(·, 'rev')` is symmetric and linear in each argument, and `qform` is its quadratic form. -/
theorem C108_bilinear (hs : g.IsSymm) {A B C : Mv K n} (hA : A.WF g) (hA' : A.isBladeRep = true) (hB : B.WF g)
    (hB' : B.isBladeRep = true) (hC : C.WF g) (hC' : C.isBladeRep = true) (c : K) :
    A.spRev g B = B.spRev g A ∧ (A.add g B).spRev g C = A.spRev g C + B.spRev g C ∧
      (A.smul c).spRev g B = c * A.spRev g B ∧ A.qform g = A.spRev g A := by
  have rA := Rep.of_wf hA hA'
  have rB := Rep.of_wf hB hB'
  have rC := Rep.of_wf hC hC'
  rw [spRev_spec hs rA rB, spRev_spec hs rB rA, spRev_spec hs (rA.add hs rB) rC, spRev_spec hs rA rC, spRev_spec hs rB rC,
    spRev_spec hs (rA.smul c) rB]
  exact ⟨Spec.sp_comm _ _, Spec.sp_add_left _ _ _, Spec.sp_smul_left _ _ _, rfl⟩

/-- C108: multiplication by `A` from the left or the right is adjoint to multiplication by `A.rev()`, reversion and grade
involution keep the scalar product, and different grades are orthogonal. -/
theorem C108_adjoint (hs : g.IsSymm) {A B C : Mv K n} (hA : A.WF g) (hA' : A.isBladeRep = true) (hB : B.WF g)
    (hB' : B.isBladeRep = true) (hC : C.WF g) (hC' : C.isBladeRep = true) :
    (A.mul g B).spRev g C = B.spRev g ((A.rev g).mul g C) ∧ (B.mul g A).spRev g C = B.spRev g (C.mul g (A.rev g)) ∧
      (A.rev g).spRev g (B.rev g) = A.spRev g B ∧ (A.gInvol g).spRev g (B.gInvol g) = A.spRev g B ∧
      ∀ j k, j ≠ k → (A.getGrade j).spRev g (B.getGrade k) = 0 := by
  have rA := Rep.of_wf hA hA'
  have rB := Rep.of_wf hB hB'
  have rC := Rep.of_wf hC hC'
  rw [spRev_spec hs (rA.mul hs rB) rC, spRev_spec hs rB ((rA.rev hs).mul hs rC), spRev_spec hs (rB.mul hs rA) rC,
    spRev_spec hs rB (rC.mul hs (rA.rev hs)), spRev_spec hs (rA.rev hs) (rB.rev hs), spRev_spec hs rA rB,
    spRev_spec hs (rA.gInvol hs) (rB.gInvol hs)]
  refine ⟨Spec.sp_mul_left _ _ _, Spec.sp_mul_right _ _ _, Spec.sp_reverse _ _, Spec.sp_involute _ _, fun j k h => ?_⟩
  rw [spRev_spec hs (rA.getGrade j) (rB.getGrade k)]
  exact Spec.sp_grades h (Spec.homogeneous_grade j _) (Spec.homogeneous_grade k _)

/-- C108: `qform(A + B)` is `qform(A) + 2 sp(A, B, 'rev') + qform(B)`, so that Pythagoras' theorem and the parallelogram law
hold. -/
theorem C108_expand (hs : g.IsSymm) {A B : Mv K n} (hA : A.WF g) (hA' : A.isBladeRep = true) (hB : B.WF g)
    (hB' : B.isBladeRep = true) :
    (A.add g B).qform g = A.qform g + 2 * A.spRev g B + B.qform g ∧
      (A.add g B).qform g + (A.sub g B).qform g = 2 * (A.qform g + B.qform g) := by
  have rA := Rep.of_wf hA hA'
  have rB := Rep.of_wf hB hB'
  rw [qform_sp hs (rA.add hs rB), qform_sp hs (rA.sub hs rB), qform_sp hs rA, qform_sp hs rB, spRev_spec hs rA rB]
  simp only [Spec.sp_add_left, Spec.sp_add_right, Spec.sp_sub_left, Spec.sp_sub_right, Spec.sp_comm (B.val g) (A.val g)]
  constructor <;> ring

/-- C108: for a vector `v` and every multivector `A`, `v < A` and `v ^ A` are orthogonal, and their quadratic forms add up to
`qform(v) qform(A)`. -/
theorem C108_vector_split (hs : g.IsSymm) (v : Fin n → K) {A : Mv K n} (hA : A.WF g) (hA' : A.isBladeRep = true) :
    ((Mv.vector v).left g A).spRev g ((Mv.vector v).wedge g A) = 0 ∧
      ((Mv.vector v).left g A).qform g + ((Mv.vector v).wedge g A).qform g = (Mv.vector v).qform g * A.qform g := by
  have rA := Rep.of_wf hA hA'
  have rv := Rep.vector (g := g) v
  have rl := (rv.left hs rA).congr (Spec.lc_vec v _)
  have rw' := rv.wedge hs rA
  rw [spRev_spec hs rl rw', qform_sp hs rl, qform_sp hs rw', qform_sp hs rA, Spec.sp_con_wedge, Spec.sp_vec_mul]
  refine ⟨rfl, ?_⟩
  congr 1
  refine algebraMap_inj g ?_
  rw [qform_grade hs rv, show CliffordAlgebra.reverse (Spec.vec g v) = Spec.vec g v from CliffordAlgebra.reverse_ι v,
    show Spec.vec g v * Spec.vec g v = algebraMap K _ (Spec.Q g v) from CliffordAlgebra.ι_sq_scalar _ v, grade_zero_algebraMap]

/-- C108: multiplication by a versor, from either side, multiplies scalar products and quadratic forms by the quadratic
form of the versor. -/
theorem C108_versor (hs : g.IsSymm) {V A B : Mv K n} (hV : V.WF g) (hV' : V.isBladeRep = true) (hv : V.isVersor g = true)
    (hA : A.WF g) (hA' : A.isBladeRep = true) (hB : B.WF g) (hB' : B.isBladeRep = true) :
    (V.mul g A).spRev g (V.mul g B) = V.qform g * A.spRev g B ∧ (A.mul g V).spRev g (B.mul g V) = V.qform g * A.spRev g B ∧
      (V.mul g A).qform g = V.qform g * A.qform g ∧ (A.mul g V).qform g = V.qform g * A.qform g := by
  have rV := Rep.of_wf hV hV'
  rw [isVersor_iff_versor hs rV] at hv
  obtain ⟨-, ⟨q, hq, e⟩, -⟩ := hv
  have e' := Versor.left hq e
  have key : ∀ {A B : Mv K n} {x y : Spec.Cl g}, Rep g A x → Rep g B y →
      (V.mul g A).spRev g (V.mul g B) = V.qform g * A.spRev g B ∧ (A.mul g V).spRev g (B.mul g V) = V.qform g * A.spRev g B := by
    intro A B x y rA rB
    have hqf : V.qform g = q := by
      refine algebraMap_inj g ?_
      rw [qform_grade hs rV, e', grade_zero_algebraMap]
    rw [spRev_spec hs (rV.mul hs rA) (rV.mul hs rB), spRev_spec hs (rA.mul hs rV) (rB.mul hs rV), spRev_spec hs rA rB, hqf,
      Spec.sp_mul_left, Spec.sp_mul_right, ← mul_assoc, e', mul_assoc, e, ← Algebra.commutes, ← Algebra.smul_def,
      Spec.sp_smul_right]
    exact ⟨rfl, rfl⟩
  have rA := Rep.of_wf hA hA'
  exact ⟨(key rA (Rep.of_wf hB hB')).1, (key rA (Rep.of_wf hB hB')).2, (key rA rA).1, (key rA rA).2⟩

/-- C108: the projection into an invertible blade is an orthogonal projection of the whole algebra: it is its own adjoint, and
`qform(A)` is `qform(proj(A)) + qform(A - proj(A))`. -/
theorem C108_projection (hs : g.IsSymm) {A A' B P P' : Mv K n} (hA : A.WF g) (hb : A.isBladeRep = true) (hA' : A'.WF g)
    (hb' : A'.isBladeRep = true) (hB : IsBladeMv g B) (hq : B.qform g ≠ 0) (hP : A.projectInBlade g B = some P)
    (hP' : A'.projectInBlade g B = some P') :
    P.spRev g A' = A.spRev g P' ∧ A.qform g = P.qform g + (A.sub g P).qform g := by
  obtain ⟨L, h⟩ := hB.rep
  obtain ⟨h0, c, d, hd, hc, -⟩ := blade_inverse hs h hq
  obtain ⟨P1, h1, r1⟩ := project_spec hs hA rfl h hq hd hc
  obtain ⟨P2, h2, r2⟩ := project_spec hs hA' rfl h hq hd hc
  rw [hP] at h1; rw [hP'] at h2
  obtain rfl := Option.some.inj h1
  obtain rfl := Option.some.inj h2
  have rA := Rep.of_wf hA hb
  rw [spRev_spec hs r1 (Rep.of_wf hA' hb'), spRev_spec hs rA r2, qform_sp hs rA, qform_sp hs r1, qform_sp hs (rA.sub hs r1)]
  refine ⟨(Spec.sp_proj hc hd h0 _ _).symm, ?_⟩
  have k := Spec.sp_proj hc hd h0 (Spec.leftContraction g (A.val g) (Spec.wedgeL g L) * (d • Spec.wedgeL g L)) (A.val g)
  rw [Spec.proj_proj hc hd] at k
  simp only [Spec.sp_sub_left, Spec.sp_sub_right]
  rw [Spec.sp_comm (A.val g) (Spec.leftContraction g _ _ * _), k]
  ring

end field

section ordered
variable {n : ℕ} {K : Type*} [Field K] [LinearOrder K] [IsStrictOrderedRing K] [Invertible (2 : K)]
  {g : Matrix (Fin n) (Fin n) K}

/-- The metric is positive definite. -/
def Euclidean (g : Matrix (Fin n) (Fin n) K) : Prop := ∀ v : Fin n → K, v ≠ 0 → 0 < ∑ i, ∑ j, v i * g i j * v j

/-- C108: the inequality of Cauchy and Schwarz, with equality exactly for dependent multivectors. -/
theorem C108_cauchy_schwarz (hs : g.IsSymm) (hp : Euclidean g) {A B : Mv K n} (hA : A.WF g) (hA' : A.isBladeRep = true)
    (hB : B.WF g) (hB' : B.isBladeRep = true) :
    A.spRev g B ^ 2 ≤ A.qform g * B.qform g ∧
      (A.spRev g B ^ 2 = A.qform g * B.qform g ↔
        ∃ s t : K, (s ≠ 0 ∨ t ≠ 0) ∧ (A.smul s).eq g (B.smul t) = true) := by
  have rA := Rep.of_wf hA hA'
  have rB := Rep.of_wf hB hB'
  obtain ⟨b0, b1⟩ := qform_posdef hs hp rB
  have rC := (rA.smul (B.qform g)).sub hs (rB.smul (A.spRev g B))
  obtain ⟨c0, c1⟩ := qform_posdef hs hp rC
  have ec : ((A.smul (B.qform g)).sub g (B.smul (A.spRev g B))).qform g =
      B.qform g * (A.qform g * B.qform g - A.spRev g B ^ 2) := by
    rw [qform_sp hs rC, qform_sp hs rA, qform_sp hs rB, spRev_spec hs rA rB]
    simp only [Spec.sp_sub_left, Spec.sp_sub_right, Spec.sp_smul_left, Spec.sp_smul_right, Spec.sp_comm (B.val g) (A.val g)]
    ring
  rw [ec] at c0 c1
  have z : B.qform g = 0 → A.spRev g B = 0 := fun h => by
    rw [spRev_spec hs rA rB, b1 h, ← zero_smul K (0 : Spec.Cl g), Spec.sp_smul_right, zero_mul]
  refine ⟨?_, fun h => ?_, ?_⟩
  · rcases b0.eq_or_lt with h | h
    · rw [z h.symm, ← h]; simp
    · have := nonneg_of_mul_nonneg_right c0 h
      linarith
  · by_cases hb : B.qform g = 0
    · refine ⟨0, 1, Or.inr one_ne_zero, ?_⟩
      rw [(rA.smul 0).eq_iff hs (rB.smul 1), b1 hb, zero_smul, smul_zero]
    · refine ⟨B.qform g, A.spRev g B, Or.inl hb, ?_⟩
      rw [(rA.smul _).eq_iff hs (rB.smul _), ← sub_eq_zero]
      exact c1 (by rw [h]; ring)
  · rintro ⟨s, t, hst, h⟩
    rw [(rA.smul _).eq_iff hs (rB.smul _)] at h
    rw [qform_sp hs rA, qform_sp hs rB, spRev_spec hs rA rB]
    have e1 : s * Spec.sp (A.val g) (A.val g) = t * Spec.sp (A.val g) (B.val g) := by
      rw [← Spec.sp_smul_right, h, Spec.sp_smul_right]
    have e2 : s * Spec.sp (A.val g) (B.val g) = t * Spec.sp (B.val g) (B.val g) := by
      rw [← Spec.sp_smul_left, h, Spec.sp_smul_left]
    rcases hst with h0 | h0
    · refine mul_left_cancel₀ h0 ?_
      linear_combination Spec.sp (A.val g) (B.val g) * e2 - Spec.sp (B.val g) (B.val g) * e1
    · refine mul_left_cancel₀ h0 ?_
      linear_combination -Spec.sp (A.val g) (B.val g) * e1 + Spec.sp (A.val g) (A.val g) * e2

/-- C108: in a Euclidean algebra `norm` is a norm: it is zero for zero only, `norm(c*A)` is `|c| norm(A)`, and the triangle
inequality holds. -/
theorem C108_norm (hs : g.IsSymm) (hp : Euclidean g) {T : SignTests K} (hT : T.Sound) {F : RootFuns K} (hF : F.Laws)
    {isNonneg : K → Bool} (hN : ∀ x, isNonneg x = true → 0 ≤ x) (posDef : Bool) {A B : Mv K n} (hA : A.WF g)
    (hA' : A.isBladeRep = true) (hB : B.WF g) (hB' : B.isBladeRep = true) (c : K) :
    ∃ a b s t, A.norm g T F isNonneg posDef "0" = some a ∧ B.norm g T F isNonneg posDef "0" = some b ∧
      (A.add g B).norm g T F isNonneg posDef "0" = some s ∧ (A.smul c).norm g T F isNonneg posDef "0" = some t ∧
      0 ≤ a ∧ (a = 0 ↔ A.isZero = true) ∧ s ≤ a + b ∧ t = |c| * a ∧ |A.spRev g B| ≤ a * b := by
  have rA := Rep.of_wf hA hA'
  have rB := Rep.of_wf hB hB'
  have rS := rA.add hs rB
  have rT := rA.smul c
  have key : ∀ {X : Mv K n} {x : Spec.Cl g}, Rep g X x →
      ∃ y, X.norm g T F isNonneg posDef "0" = some y ∧ 0 ≤ y ∧ y ^ 2 = X.qform g := fun {X x} r => by
    obtain ⟨y, h1, h2, h3⟩ := C31_norm hs hT hF hN (posDef := posDef) (fun _ => hp) (Or.inl rfl) r.wf r.flag
      (fun h => absurd h (by decide)) (fun h => absurd h (by decide))
    exact ⟨y, h1, h2, by rw [h3, abs_of_nonneg (qform_posdef hs hp r).1]⟩
  obtain ⟨a, a1, a2, a3⟩ := key rA
  obtain ⟨b, b1, b2, b3⟩ := key rB
  obtain ⟨s, s1, s2, s3⟩ := key rS
  obtain ⟨t, t1, t2, t3⟩ := key rT
  have cs : |A.spRev g B| ≤ a * b := by
    refine abs_le_of_sq_le_sq ?_ (mul_nonneg a2 b2)
    rw [mul_pow, a3, b3]
    exact (C108_cauchy_schwarz hs hp hA hA' hB hB').1
  refine ⟨a, b, s, t, a1, b1, s1, t1, a2, ?_, ?_, ?_, cs⟩
  · rw [← (C31_positive_definite hs hp hA hA').2, ← a3]
    exact (pow_eq_zero_iff two_ne_zero).symm
  · refine abs_le_of_sq_le_sq' ?_ (add_nonneg a2 b2) |>.2
    rw [s3, (C108_expand hs hA hA' hB hB').1, ← a3, ← b3]
    nlinarith [le_abs_self (A.spRev g B)]
  · rw [← pow_left_inj₀ t2 (mul_nonneg (abs_nonneg c) a2) two_ne_zero, t3, mul_pow, sq_abs, a3, qform_sp hs rT, qform_sp hs rA,
      Spec.sp_smul_left, Spec.sp_smul_right]
    ring

/-- C108: in a Euclidean algebra `|v ^ A| ≤ |v| |A|` and `|v < A| ≤ |v| |A|` for vectors `v`, and projections into blades do not
become longer. -/
theorem C108_shorter (hs : g.IsSymm) (hp : Euclidean g) (v : Fin n → K) {A : Mv K n} (hA : A.WF g)
    (hA' : A.isBladeRep = true) :
    ((Mv.vector v).wedge g A).qform g ≤ (Mv.vector v).qform g * A.qform g ∧
      ((Mv.vector v).left g A).qform g ≤ (Mv.vector v).qform g * A.qform g ∧
      ∀ {B P : Mv K n}, IsBladeMv g B → B.qform g ≠ 0 → A.projectInBlade g B = some P → P.qform g ≤ A.qform g := by
  have rA := Rep.of_wf hA hA'
  have rv := Rep.vector (g := g) v
  have h := (C108_vector_split hs v hA hA').2
  have h1 := (qform_posdef hs hp (rv.left hs rA)).1
  have h2 := (qform_posdef hs hp (rv.wedge hs rA)).1
  refine ⟨by linarith, by linarith, fun {B P} hB hq hP => ?_⟩
  have h3 := (C108_projection hs hA hA' hA hA' hB hq hP hP).2
  obtain ⟨L, hL⟩ := hB.rep
  obtain ⟨-, c, d, hd, hc, -⟩ := blade_inverse hs hL hq
  obtain ⟨P1, h4, r1⟩ := project_spec hs hA rfl hL hq hd hc
  rw [hP] at h4
  obtain rfl := Option.some.inj h4
  have h5 := (qform_posdef hs hp (rA.sub hs r1)).1
  linarith

/-- C108: Hadamard's inequality: the volume of the parallelepiped spanned by vectors, the norm of their exterior product, is at
most the product of their lengths. -/
theorem C108_hadamard (hs : g.IsSymm) (hp : Euclidean g) (L : List (Fin n → K)) :
    0 ≤ (outerOf g L).qform g ∧ (outerOf g L).qform g ≤ (L.map fun v => (Mv.vector v).qform g).prod := by
  refine ⟨(qform_posdef hs hp (rep_outerOf hs L)).1, ?_⟩
  induction L with
  | nil =>
    have r := Rep.scalarMv (g := g) (1 : K)
    have : (Mv.scalarMv (1 : K) : Mv K n).qform g = 1 := by
      refine algebraMap_inj g ?_
      rw [qform_grade hs r, map_one, CliffordAlgebra.reverse.map_one, mul_one, ← map_one (algebraMap K _), grade_zero_algebraMap]
    exact this.le
  | cons v L ih =>
    have r := rep_outerOf (g := g) hs L
    rw [List.map_cons, List.prod_cons]
    refine ((C108_shorter hs hp v r.wf r.flag).1).trans ?_
    exact mul_le_mul_of_nonneg_left ih (qform_posdef hs hp (Rep.vector v)).1

end ordered

section Ex

/-- A Euclidean metric whose basis is not orthogonal. -/
def Ex.gE (K : Type*) [Field K] : Matrix (Fin 3) (Fin 3) K := !![2, 1, 0; 1, 2, 1; 0, 1, 2]

theorem Ex.gE_symm (K : Type*) [Field K] : (Ex.gE K).IsSymm := by
  ext i j; fin_cases i <;> fin_cases j <;> rfl

theorem Ex.gE_euclidean (K : Type*) [Field K] [LinearOrder K] [IsStrictOrderedRing K] : Euclidean (Ex.gE K) := by
  intro v hv
  simp only [Fin.sum_univ_three, Ex.gE, Matrix.of_apply, Matrix.cons_val', Matrix.cons_val_zero, Matrix.cons_val_one,
    Matrix.cons_val]
  have h : v 0 ≠ 0 ∨ v 0 + v 1 ≠ 0 ∨ v 2 ≠ 0 := by
    by_contra h
    push Not at h
    obtain ⟨h1, h2, h3⟩ := h
    refine hv (funext fun i => ?_)
    fin_cases i
    · exact h1
    · rw [h1, zero_add] at h2; exact h2
    · exact h3
  have e : v 0 * 2 * v 0 + v 0 * 1 * v 1 + v 0 * 0 * v 2 + (v 1 * 1 * v 0 + v 1 * 2 * v 1 + v 1 * 1 * v 2) +
      (v 2 * 0 * v 0 + v 2 * 1 * v 1 + v 2 * 2 * v 2) = v 0 ^ 2 + (v 0 + v 1) ^ 2 + (v 1 + v 2) ^ 2 + v 2 ^ 2 := by ring
  rw [e]
  have := sq_nonneg (v 0); have := sq_nonneg (v 0 + v 1); have := sq_nonneg (v 1 + v 2); have := sq_nonneg (v 2)
  rcases h with h | h | h
  · have := sq_pos_of_ne_zero h; linarith
  · have := sq_pos_of_ne_zero h; linarith
  · have := sq_pos_of_ne_zero h; linarith

open Ex in
/-- Witness: multivectors of mixed grades in that algebra. -/
example : A.WF (gE ℚ) ∧ B.WF (gE ℚ) ∧ A.isBladeRep = true ∧ B.isBladeRep = true ∧
    A.spRev (gE ℚ) B = -4 ∧ A.qform (gE ℚ) = 36 ∧ B.qform (gE ℚ) = 106 ∧
    A.spRev (gE ℚ) B ^ 2 < A.qform (gE ℚ) * B.qform (gE ℚ) :=
  ⟨A_wf _, B_wf _, by decide, by decide, by decide +kernel, by decide +kernel, by decide +kernel, by decide +kernel⟩

open Ex in
/-- Witness: a blade that is invertible, a projection into it, and three vectors whose volume is less than the product of their
lengths. -/
example : (outerOf (gE ℚ) [![1, 0, 0], ![0, 1, 1]]).qform (gE ℚ) ≠ 0 ∧
    ((A.projectInBlade (gE ℚ) (outerOf (gE ℚ) [![1, 0, 0], ![0, 1, 1]])).map fun P => decide (P.qform (gE ℚ) < A.qform (gE ℚ))) =
      some true ∧
    (outerOf (gE ℚ) [![1, 0, 0], ![0, 1, 0], ![1, 0, 1]]).qform (gE ℚ) = 4 ∧
    ([![1, 0, 0], ![0, 1, 0], ![1, 0, 1]].map fun v => (Mv.vector v).qform (gE ℚ)).prod = 16 := by
  decide +kernel

/-- Witness for `C108_norm`: real numbers with their square root. -/
example : Euclidean (Ex.gE ℝ) ∧ (Ex.gE ℝ).IsSymm ∧ Ex.signs.Sound ∧ RootFuns.real.Laws :=
  ⟨Ex.gE_euclidean ℝ, Ex.gE_symm ℝ, Ex.signs_sound, RootFuns.real_laws⟩

open Ex in
/-- The hypothesis of `C108_versor` is needed: `|A*A|` is not `|A|^2` for `A = 1 + e_0`, and not even at most that. -/
example : let X : Mv ℚ 3 := Mv.ofExpr [(1, .blade []), (1, .blade [0])]
    X.isVersor (gE ℚ) = false ∧ X.qform (gE ℚ) * X.qform (gE ℚ) < (X.mul (gE ℚ) X).qform (gE ℚ) := by
  decide +kernel

end Ex
end GA
