import Verif.Props.C28
import Verif.Proofs.InnerLaws
import Verif.Proofs.KeepGrades

/-!
# C28, C29: projections and reflections keep grades and products

`A.projectInBlade g B` models `A.project_in_blade(B)` and `A.reflectInBlade g B` models `A.reflect_in_blade(B)`;
`Mv.mulOp g op` models the products `*`, `^`, `|`, `<`, `>`.
-/

set_option linter.unusedSectionVars false
set_option maxRecDepth 10000

namespace Spec
open CliffordAlgebra
variable {n : ℕ} {R : Type*} [CommRing R] [Invertible (2 : R)] {g : Matrix (Fin n) (Fin n) R}

/-- `u ⌋ (x B) = (u ∧ x) B` if `u ∧ B = 0`. -/
theorem con_mul_of_wedge {u : Fin n → R} {B : Cl g} (h : wedge g (vec g u) B = 0) (x : Cl g) :
    con g u (x * B) = wedge g (vec g u) x * B := by
  have h1 : con g u B = vec g u * B := by rw [vec_mul, h, add_zero]
  have h2 := mul_vec (g := g) u (involute x)
  rw [involute_involute] at h2
  rw [con_mul, h1, ← mul_assoc, h2, vec_mul, ← add_mul]
  congr 1
  module

/-- `w ⌋ (x ⌋ B) = 0` if `w ⌋ B = 0`. -/
theorem con_lc_of_con {w : Fin n → R} {B : Cl g} (h : con g w B = 0) (x : Cl g) :
    con g w (leftContraction g x B) = 0 := by
  rw [← lc_wedge_vec]
  have e := wedge_vec_right (g := g) w (involute x)
  rw [involute_involute] at e
  rw [← e, lc_wedge, lc_vec, h, lc_zero_right]

/-- If `(a ⌋ B) B⁻¹` is a vector inside `B` for every vector `a`, with `a` minus it orthogonal to `B`, then
`x ↦ (x ⌋ B) B⁻¹` is an outermorphism. -/
theorem lc_mul_outer {B B' : Cl g} (hinv : B' * B = 1) (hinv' : B * B' = 1)
    (hv : ∀ a, ∃ u, leftContraction g (vec g a) B * B' = vec g u ∧ wedge g (vec g u) B = 0 ∧ con g (a - u) B = 0) :
    ∃ M : Matrix (Fin n) (Fin n) R, ∀ x : Cl g, leftContraction g x B * B' = outer g M x := by
  choose u h1 h2 h3 using hv
  obtain ⟨M, hMu⟩ : ∃ M : Matrix (Fin n) (Fin n) R, ∀ k i, M k i = u (Pi.single i 1) k :=
    ⟨Matrix.of fun k i => u (Pi.single i 1) k, fun _ _ => rfl⟩
  have hM : ∀ a, vec g (u a) = vec g (M.mulVec a) := by
    intro a
    have e1 : M.mulVec a = ∑ i, a i • u (Pi.single i 1) := by
      funext k
      simp only [hMu, Matrix.mulVec, dotProduct, Finset.sum_apply, Pi.smul_apply, smul_eq_mul]
      exact Finset.sum_congr rfl fun i _ => mul_comm _ _
    have e2 : a = ∑ i, a i • (Pi.single i 1 : Fin n → R) := by
      funext k
      simp [Finset.sum_apply, Pi.single_apply]
    have e3 : con g a B = ∑ i, a i • con g (Pi.single i 1) B := by
      conv_lhs => rw [e2]
      simp only [con, map_sum, map_smul, LinearMap.sum_apply, LinearMap.smul_apply]
    rw [← h1, e1, lc_vec, e3, Finset.sum_mul]
    simp only [vec, map_sum, map_smul]
    refine Finset.sum_congr rfl fun i _ => ?_
    rw [smul_mul_assoc, ← lc_vec, h1]
    rfl
  refine ⟨M, fun x => ?_⟩
  induction x using wedge_induction with
  | h0 => rw [lc_zero_left, zero_mul, map_zero]
  | h1 => rw [lc_one, hinv', outer_one]
  | hadd x y hx hy => rw [lc_add_left, add_mul, hx, hy, map_add]
  | hsmul k x hx => rw [lc_smul_left, smul_mul_assoc, hx, map_smul]
  | hv a x hx =>
    have e : leftContraction g x B = outer g M x * B := by rw [← hx, mul_assoc, hinv, mul_one]
    have ew : con g (a - u a) (leftContraction g x B) = 0 := con_lc_of_con (h3 a) x
    have ea : con g a (leftContraction g x B) = con g (u a) (leftContraction g x B) := by
      have : a = (a - u a) + u a := by abel
      conv_lhs => rw [this]
      rw [con_add_left, ew, zero_add]
    rw [lc_wedge_vec, ea, e, con_mul_of_wedge (h2 a), mul_assoc, hinv', mul_one, outer_wedge, outer_vec, hM]

/-- The projection into an invertible blade is the outermorphism of the projection of vectors. -/
theorem proj_outer {L : List (Fin n → R)} {c d : R} (hB : wedgeL g L * wedgeL g L = algebraMap R _ c)
    (hd : d * c = 1) : ∃ M : Matrix (Fin n) (Fin n) R, ∀ x : Cl g,
      leftContraction g x (wedgeL g L) * (d • wedgeL g L) = outer g M x := by
  refine lc_mul_outer ?_ ?_ fun a => proj_vec hB hd a
  · rw [smul_mul_assoc, hB, Algebra.smul_def, ← map_mul, hd, map_one]
  · rw [mul_smul_comm, hB, Algebra.smul_def, ← map_mul, hd, map_one]

end Spec

namespace GA
variable {n : ℕ} {K : Type*} [Field K] [DecidableEq K] [Invertible (2 : K)]
  {g : Matrix (Fin n) (Fin n) K}

/-- C28: the projection into an invertible blade keeps grades and respects the wedge product: the projection of
`A ^ A'` is the wedge product of the projections, and the projection of a scalar is the scalar. -/
theorem C28_outermorphism (hs : g.IsSymm) {A A' B P P' : Mv K n} (hA : A.WF g) (hA' : A'.WF g)
    (hB : IsBladeMv g B) (hq : B.qform g ≠ 0) (hP : A.projectInBlade g B = some P)
    (hP' : A'.projectInBlade g B = some P') :
    (∃ S, (A.wedge g A').projectInBlade g B = some S ∧ S.eq g (P.wedge g P') = true) ∧
    (∀ c : K, ∃ S, (Mv.scalarMv c).projectInBlade g B = some S ∧ S.eq g (Mv.scalarMv c) = true) ∧
    (A.isBladeRep = true → ∀ r, ∃ S, (A.getGrade r).projectInBlade g B = some S ∧
      S.eq g (P.getGrade r) = true) := by
  obtain ⟨L, h⟩ := hB.rep
  obtain ⟨-, c, d, hd, hc, -⟩ := blade_inverse hs h hq
  obtain ⟨M, hM⟩ := Spec.proj_outer hc hd
  obtain ⟨P1, h1, r1⟩ := project_spec hs hA rfl h hq hd hc
  obtain ⟨P2, h2, r2⟩ := project_spec hs hA' rfl h hq hd hc
  rw [hP] at h1; rw [hP'] at h2
  obtain rfl := Option.some.inj h1
  obtain rfl := Option.some.inj h2
  have hw := wedge_spec' hs hA hA'
  refine ⟨?_, fun k => ?_, fun hb r => ?_⟩
  · obtain ⟨S, h3, r3⟩ := project_spec hs hw.1 hw.2 h hq hd hc
    exact ⟨S, h3, by rw [r3.eq_iff hs (r1.wedge hs r2), hM, hM, hM, Spec.outer_wedge]⟩
  · have rk := Rep.scalarMv (g := g) k
    obtain ⟨S, h3, r3⟩ := project_spec hs rk.wf rk.val h hq hd hc
    exact ⟨S, h3, by
      rw [r3.eq_iff hs rk, hM, Algebra.algebraMap_eq_smul_one, map_smul, Spec.outer_one]⟩
  · have rA := (Rep.of_wf hA hb).getGrade r
    obtain ⟨S, h3, r3⟩ := project_spec hs rA.wf rA.val h hq hd hc
    exact ⟨S, h3, by rw [r3.eq_iff hs (r1.getGrade r), hM, hM, Spec.homogeneous_outer]⟩

/-- C29: the reflection in an invertible blade keeps grades and respects each of the products
`*`, `^`, `|`, `<`, `>`. -/
theorem C29_products (hs : g.IsSymm) {A A' B P P' : Mv K n} (hA : A.WF g)
    (hb : A.isBladeRep = true) (hA' : A'.WF g) (hb' : A'.isBladeRep = true)
    (hB : IsBladeMv g B) (hq : B.qform g ≠ 0) (hP : A.reflectInBlade g B = some P)
    (hP' : A'.reflectInBlade g B = some P') :
    (∀ op, ∃ S, (Mv.mulOp g op A A').reflectInBlade g B = some S ∧ S.eq g (Mv.mulOp g op P P') = true) ∧
    (∀ r, ∃ S, (A.getGrade r).reflectInBlade g B = some S ∧ S.eq g (P.getGrade r) = true) := by
  obtain ⟨L, h⟩ := hB.rep
  obtain ⟨-, c, d, hd, hc, -⟩ := blade_inverse hs h hq
  have a1 := Rep.of_wf hA hb
  have a2 := Rep.of_wf hA' hb'
  obtain ⟨P1, h1, r1⟩ := reflect_spec hs a1.valid a1.val h hq hd hc
  obtain ⟨P2, h2, r2⟩ := reflect_spec hs a2.valid a2.val h hq hd hc
  rw [hP] at h1; rw [hP'] at h2
  obtain rfl := Option.some.inj h1
  obtain rfl := Option.some.inj h2
  have hinv : (d • Spec.wedgeL g L) * Spec.wedgeL g L = 1 := by
    rw [smul_mul_assoc, hc, Algebra.smul_def, ← map_mul, hd, map_one]
  have hinv' : Spec.wedgeL g L * (d • Spec.wedgeL g L) = 1 := by
    rw [mul_smul_comm, hc, Algebra.smul_def, ← map_mul, hd, map_one]
  let f : Spec.Cl g →ₐ[K] Spec.Cl g := (Spec.conj hinv' hinv).comp (twist g L.length)
  have hf : ∀ x, Spec.wedgeL g L * twist g L.length x * (d • Spec.wedgeL g L) = f x := fun _ => rfl
  obtain ⟨hw, hg⟩ := Spec.algHom_keeps f fun i => by
    obtain ⟨u, e, -⟩ := Spec.proj_vec hc hd (Pi.single i 1)
    refine ⟨(2 : K) • u - Pi.single i 1, ?_⟩
    rw [← hf, twist_vec, mul_smul_comm (s := (-1 : K) ^ (L.length + 1)), smul_mul_assoc, Spec.refl_vec hc hd, e]
    simp only [Spec.vec, map_sub, map_smul]
  refine ⟨fun op => ?_, fun r => ?_⟩
  · have a3 := mulOp_rep hs op a1 a2
    obtain ⟨S, h3, r3⟩ := reflect_spec hs a3.valid a3.val h hq hd hc
    exact ⟨S, h3, by rw [r3.eq_iff hs (mulOp_rep hs op r1 r2), hf, hf, hf, opS_of_grade hw hg]⟩
  · have a3 := a1.getGrade r
    obtain ⟨S, h3, r3⟩ := reflect_spec hs a3.valid a3.val h hq hd hc
    exact ⟨S, h3, by rw [r3.eq_iff hs (r1.getGrade r), hf, hf, hg]⟩

/-- A concrete case: the plane `(e_0 + 2 e_2) ∧ e_1` of a non-orthogonal algebra, and the contraction of mixed
multivectors. -/
example : ∃ P P' S, Ex.A.reflectInBlade Ex.gN ((Mv.vector ![1, 0, 2]).wedge Ex.gN (Mv.vector ![0, 1, 0])) = some P ∧
    Ex.B.reflectInBlade Ex.gN ((Mv.vector ![1, 0, 2]).wedge Ex.gN (Mv.vector ![0, 1, 0])) = some P' ∧
    (Ex.A.left Ex.gN Ex.B).reflectInBlade Ex.gN ((Mv.vector ![1, 0, 2]).wedge Ex.gN (Mv.vector ![0, 1, 0])) =
      some S ∧ S.eq Ex.gN (P.left Ex.gN P') = true := by
  have hB : IsBladeMv Ex.gN ((Mv.vector ![1, 0, 2]).wedge Ex.gN (Mv.vector ![0, 1, 0])) :=
    isBladeMv_wedge Ex.gN_symm _ (isBladeMv_vector _)
  have hq : ((Mv.vector ![1, 0, 2]).wedge Ex.gN (Mv.vector ![0, 1, 0])).qform Ex.gN ≠ 0 := by decide +kernel
  obtain ⟨P, h1, -⟩ := C29_defined Ex.gN_symm (Ex.A_wf _) (Or.inl (by decide)) hB hq
  obtain ⟨P', h2, -⟩ := C29_defined Ex.gN_symm (Ex.B_wf _) (Or.inl (by decide)) hB hq
  obtain ⟨S, h3, h4⟩ := (C29_products Ex.gN_symm (Ex.A_wf _) (by decide) (Ex.B_wf _) (by decide) hB hq h1 h2).1 .left
  exact ⟨P, P', S, h1, h2, h3, h4⟩

end GA
