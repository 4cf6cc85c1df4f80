import Verif.Props.C30
import Verif.Proofs.KeepGrades

/-!
# C30: rotations keep grades and all products

`A.rotate g F plus minus θ` models `A.rotate_multivector(θ, hint)`, `Mv.mulOp g op` the products
`*`, `^`, `|`, `<`, `>`.
-/

set_option linter.unusedSectionVars false
set_option maxRecDepth 10000

namespace GA
variable {n : ℕ} {K : Type*} [Field K] [DecidableEq K] [Invertible (2 : K)]
  {g : Matrix (Fin n) (Fin n) K} {F : Elementary K}

/-- A rotation by a bivector is the outermorphism of a matrix. -/
theorem rotate_outer (hs : g.IsSymm) (hF : F.Laws) (plus minus : Bool) {θ : Mv K n} (hθ : θ.WF g)
    (hsq : (θ.mul g θ).isScalar g = true) (h2 : ∀ r, r ≠ 2 → Spec.grade g r (θ.val g) = 0) :
    ∃ (f : Spec.Cl g →ₐ[K] Spec.Cl g), (∀ x y, f (Spec.wedge g x y) = Spec.wedge g (f x) (f y)) ∧
      (∀ r x, f (Spec.grade g r x) = Spec.grade g r (f x)) ∧
      ∀ A : Mv K n, A.WF g → ∃ S, A.rotate g F plus minus θ = some S ∧ S.WF g ∧ S.val g = f (A.val g) := by
  obtain ⟨p, m, hmp, hpm, -, -, h⟩ := rotate_spec hs hF plus minus hθ hsq
  set f := Spec.conj hmp hpm with hf
  have hv : ∀ i : Fin n, ∃ u, f (Spec.vec g (Pi.single i 1)) = Spec.vec g u := by
    intro i
    obtain ⟨u, S, h3, h4⟩ := C30_rotate_vector hs hF plus minus (Pi.single i 1) hθ hsq h2
    have rv := Rep.vector (g := g) (Pi.single i (1 : K))
    have ru := Rep.vector (g := g) u
    obtain ⟨S', h5, h6, h7⟩ := h _ rv.wf
    rw [h3] at h5
    obtain rfl := Option.some.inj h5
    rw [eq_spec hs h6 ru.wf, h7, rv.val, ru.val] at h4
    exact ⟨u, h4⟩
  obtain ⟨hw, hg⟩ := Spec.algHom_keeps f hv
  exact ⟨f, hw, hg, h⟩

/-- C30: a rotation by a bivector keeps grades: rotating the part of grade `r` gives the part of grade `r` of the
rotated multivector. -/
theorem C30_rotate_grade (hs : g.IsSymm) (hF : F.Laws) (plus minus : Bool) {θ A S : Mv K n} (hθ : θ.WF g)
    (hsq : (θ.mul g θ).isScalar g = true) (h2 : ∀ r, r ≠ 2 → Spec.grade g r (θ.val g) = 0) (hA : A.WF g)
    (hA' : A.isBladeRep = true) (h : A.rotate g F plus minus θ = some S) (r : ℕ) :
    ∃ S', (A.getGrade r).rotate g F plus minus θ = some S' ∧
      ((S.bladeRep g).getGrade r).eq g S' = true := by
  obtain ⟨f, -, hg, hr⟩ := rotate_outer hs hF plus minus hθ hsq h2
  have rA := Rep.of_wf hA hA'
  obtain ⟨S1, a1, b1, c1⟩ := hr A hA
  obtain ⟨S2, a2, b2, c2⟩ := hr _ (rA.getGrade r).wf
  rw [h] at a1
  obtain rfl := Option.some.inj a1
  have e : Spec.grade g r (S.val g) = S2.val g := by rw [c1, c2, ← hg, (rA.getGrade r).val]
  have hb := bladeRep_spec hs b1
  have hG := getGrade_spec (r := r) hb.1 (Or.inl hb.2.1)
  exact ⟨S2, a2, by rw [eq_spec hs hG.1 b2, hG.2.2, hb.2.2, e]⟩

/-- C30: a rotation by a bivector respects each of the products `*`, `^`, `|`, `<`, `>`. -/
theorem C30_rotate_products (hs : g.IsSymm) (hF : F.Laws) (plus minus : Bool) {θ A B SA SB : Mv K n} (hθ : θ.WF g)
    (hsq : (θ.mul g θ).isScalar g = true) (h2 : ∀ r, r ≠ 2 → Spec.grade g r (θ.val g) = 0) (hA : A.WF g)
    (hB : B.WF g) (h1 : A.rotate g F plus minus θ = some SA) (h3 : B.rotate g F plus minus θ = some SB)
    (op : ProdOp) :
    ∃ S, (Mv.mulOp g op A B).rotate g F plus minus θ = some S ∧ S.eq g (Mv.mulOp g op SA SB) = true := by
  obtain ⟨f, hw, hg, hr⟩ := rotate_outer hs hF plus minus hθ hsq h2
  obtain ⟨S1, a1, b1, c1⟩ := hr A hA
  obtain ⟨S2, a2, b2, c2⟩ := hr B hB
  rw [h1] at a1; rw [h3] at a2
  obtain rfl := Option.some.inj a1
  obtain rfl := Option.some.inj a2
  have hm := mulOp_spec hs op hA hB
  have hm' := mulOp_spec hs op b1 b2
  obtain ⟨S, a, b, c⟩ := hr _ hm.1
  refine ⟨S, a, ?_⟩
  rw [eq_spec hs b hm'.1, c, hm'.2, hm.2, c1, c2, opS_of_grade hw hg]

section example_
open Classical

noncomputable local instance : Invertible (2 : ℂ) := invertibleOfNonzero two_ne_zero

/-- A concrete case: the rotation in the plane `(1,2,0) ∧ (0,0,3)` of a space with squares `1, -1, 1`, and the
inner product of any two multivectors. -/
example (A B : Mv ℂ 3) (hA : A.WF (Matrix.diagonal ![1, -1, 1])) (hB : B.WF (Matrix.diagonal ![1, -1, 1])) :
    let g : Matrix (Fin 3) (Fin 3) ℂ := Matrix.diagonal ![1, -1, 1]
    let θ := (Mv.vector ![1, 2, 0]).wedge g (Mv.vector ![0, 0, 3])
    ∃ SA SB S, A.rotate g Elementary.complex false false θ = some SA ∧
      B.rotate g Elementary.complex false false θ = some SB ∧
      (A.dot g B).rotate g Elementary.complex false false θ = some S ∧ S.eq g (SA.dot g SB) = true := by
  intro g θ
  have hs : g.IsSymm := Matrix.diagonal_transpose _
  have h := (Rep.vector (g := g) ![1, 2, 0]).wedge hs (Rep.vector ![0, 0, 3])
  have hL : Spec.wedge g (Spec.vec g ![1, 2, 0]) (Spec.vec g ![0, 0, 3]) =
      Spec.wedgeL g [![1, 2, 0], ![0, 0, 3]] := by
    rw [Spec.wedgeL_cons, Spec.wedgeL_cons, Spec.wedgeL_nil, Spec.wedge_one]
  rw [hL] at h
  have hsq : (θ.mul g θ).isScalar g = true := by
    have hm := h.mul hs h
    rw [isScalar_iff hs hm.wf, hm.val]
    exact Spec.homogeneous_zero_iff.mp (Spec.wedgeL_sq_homogeneous _)
  have h2 : ∀ r, r ≠ 2 → Spec.grade g r (θ.val g) = 0 := by
    rw [h.val]; exact _root_.Spec.homogeneous_wedgeL (g := g) [![1, 2, 0], ![0, 0, 3]]
  obtain ⟨SA, a1, -⟩ := C30_rotate_defined hs Elementary.complex_laws false false hA h.wf hsq
  obtain ⟨SB, a2, -⟩ := C30_rotate_defined hs Elementary.complex_laws false false hB h.wf hsq
  obtain ⟨S, a3, a4⟩ := C30_rotate_products hs Elementary.complex_laws false false h.wf hsq h2 hA hB a1 a2 .inner
  exact ⟨SA, SB, S, a1, a2, a3, a4⟩

end example_

end GA
