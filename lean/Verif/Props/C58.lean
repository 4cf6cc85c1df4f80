import Verif.Props.C36
import Mathlib.Algebra.BigOperators.Group.List.Basic
import Verif.Proofs.Isometry

/-!
# C58: transformations given by versors, and isometries
-/

set_option linter.unusedSectionVars false
set_option maxRecDepth 10000

namespace GA
variable {n : ℕ} {K : Type*} [Field K] [DecidableEq K] [Invertible (2 : K)]
  {g : Matrix (Fin n) (Fin n) K}

section ring
variable {R : Type*} [CommRing R] [DecidableEq R] [Invertible (2 : R)]
  {g : Matrix (Fin n) (Fin n) R}

/-- If `Lt(F)` returns for a function `F` that computes a linear map of the algebra, then the
transformation acts as `F` on vectors. -/
theorem ofFunction_spec (hs : g.IsSymm) (F : Mv R n → Mv R n) (f : Spec.Cl g →ₗ[R] Spec.Cl g)
    (hF : ∀ A x, Rep g A x → Rep g (F A) (f x)) {b : Bool} {L : Lt R n}
    (h : Lt.ofFunction g F b = some L) :
    L.WF ∧ ∀ v, f (Spec.vec g v) = Spec.vec g (L.mat.mulVec v) := by
  have hrep : ∀ i : Fin n, Rep g (F (Mv.ofExpr [(1, .blade [i])])) (f (Spec.e g i)) := fun i => by
    refine hF _ _ ((Rep.ofExpr (valid_bladeE (List.pairwise_singleton _ i))).congr ?_)
    rw [den_eq_lin, bladeE, lin_cons, lin_nil, one_smul, add_zero, symDen, Spec.blade_singleton]
  have hvec : ∀ i : Fin n, ∃ v, f (Spec.e g i) = Spec.vec g v := by
    intro i
    by_cases h0 : (F (Mv.ofExpr [(1, .blade [i])])).isVector g = false ∧
        (F (Mv.ofExpr [(1, .blade [i])])).isZero = false
    · exfalso
      cases b with
      | false => rw [(C35_function_raises F).1] at h; cases h
      | true => rw [(C35_function_raises F).2 i h0.1 h0.2] at h; cases h
    · have hom : Spec.Homogeneous g 1 (f (Spec.e g i)) := by
        by_cases h1 : (F (Mv.ofExpr [(1, .blade [i])])).isVector g = true
        · have := ((isVector_iff hs (hrep i).wf).mp h1).2
          rwa [(hrep i).val] at this
        · have h2 : (F (Mv.ofExpr [(1, .blade [i])])).isZero = true := by
            by_contra h2
            exact h0 ⟨by simpa using h1, by simpa using h2⟩
          rw [Mv.isZero, decide_eq_true_eq] at h2
          have := (val_eq_zero (hrep i).wf).mpr h2
          rw [(hrep i).val] at this
          rw [this]
          exact Spec.homogeneous_zero 1
      have hv := (hrep i).valid
      have h2 := canon_bl_len (g := g) ⟨(hrep i).wf.1, (hrep i).wf.2.1⟩ hv
        (k := 1) (by rw [(hrep i).den]; exact hom)
      have h3 : AllSyms IsV (F (Mv.ofExpr [(1, .blade [i])])).obj := by
        intro t ht
        obtain ⟨l, hl, hlt⟩ := hv t ht
        have := h2 t ht
        rw [hl] at this
        obtain ⟨j, rfl⟩ := List.length_eq_one_iff.mp (this : l.length = 1)
        exact ⟨j, hl⟩
      exact ⟨_, by rw [← (hrep i).den, den_isV h3]⟩
  choose w hw using hvec
  obtain ⟨L', h1, h2, h3⟩ := ofFunction_of_basis hs F (Matrix.of fun j i => w i j) (fun i => by
    refine (hrep i).congr ?_
    rw [hw]; rfl)
  have hb : b = true := by
    cases b with
    | false => rw [(C35_function_raises F).1] at h; cases h
    | true => rfl
  subst hb
  rw [h1] at h; cases h
  refine ⟨h2, fun v => ?_⟩
  rw [h3]
  have hlin : ∀ u : Fin n → R, f (Spec.vec g u) = ∑ i, u i • f (Spec.e g i) := by
    intro u
    have hu : u = ∑ i, u i • Pi.single i (1 : R) := by
      funext j; simp [Pi.single_apply]
    conv_lhs => rw [hu]
    rw [Spec.vec, map_sum, map_sum]
    refine Finset.sum_congr rfl fun i _ => ?_
    rw [map_smul, map_smul]; rfl
  rw [hlin]
  simp only [hw]
  have : (Matrix.of fun j i => w i j).mulVec v = ∑ i, v i • w i := by
    funext j
    simp [Matrix.mulVec, dotProduct, mul_comm]
  rw [this, Spec.vec, map_sum]
  refine Finset.sum_congr rfl fun i _ => ?_
  rw [map_smul]; rfl

end ring

/-- C58: a transformation with `M.T * g * M = g`, `M` its matrix, preserves all products: it is an
automorphism of the algebra. -/
theorem C58_isometry {R : Type*} [CommRing R] [Nontrivial R] [DecidableEq R] [Invertible (2 : R)]
    {g : Matrix (Fin n) (Fin n) R} (hs : g.IsSymm) {L : Lt R n} (hL : L.WF)
    (hM : ∀ a b : Fin n → R, ((L.call g (Mv.vector a)).dot g (L.call g (Mv.vector b))).eq g
      ((Mv.vector a).dot g (Mv.vector b)) = true)
    {A B : Mv R n} (hA : A.WF g) (hB : B.WF g) (ha : A.isBladeRep = true)
    (hb : B.isBladeRep = true) :
    (L.call g (A.mul g B)).eq g ((L.call g A).mul g (L.call g B)) = true ∧
    (L.call g (A.dot g B)).eq g ((L.call g A).dot g (L.call g B)) = true ∧
    (L.call g (A.left g B)).eq g ((L.call g A).left g (L.call g B)) = true ∧
    (L.call g (A.right g B)).eq g ((L.call g A).right g (L.call g B)) = true := by
  have hQ : ∀ v, Spec.Q g (L.mat.mulVec v) = Spec.Q g v := by
    intro v
    have h := hM v v
    have w := Rep.vector (g := g) v
    rw [Rep.eq_iff hs (Rep.dot hs (Rep.call hs hL w) (Rep.call hs hL w)) (Rep.dot hs w w),
      Spec.outer_vec, Spec.hestenesDot_vec_ip, Spec.hestenesDot_vec_ip] at h
    have := algebraMap_inj g h
    rwa [Spec.ip, Spec.ip, QuadraticMap.associated_eq_self_apply,
      QuadraticMap.associated_eq_self_apply] at this
  have a := Rep.of_wf hA ha
  have b := Rep.of_wf hB hb
  have la := Rep.call hs hL a
  have lb := Rep.call hs hL b
  rw [Rep.eq_iff hs (Rep.call hs hL (Rep.mul hs a b)) (Rep.mul hs la lb),
    Rep.eq_iff hs (Rep.call hs hL (Rep.dot hs a b)) (Rep.dot hs la lb),
    Rep.eq_iff hs (Rep.call hs hL (Rep.left hs a b)) (Rep.left hs la lb),
    Rep.eq_iff hs (Rep.call hs hL (Rep.right hs a b)) (Rep.right hs la lb)]
  exact ⟨Spec.outer_isometry hQ _ _, Spec.outer_gradedProduct hQ _ _ _,
    Spec.outer_gradedProduct hQ _ _ _, Spec.outer_gradedProduct hQ _ _ _⟩

theorem ofVersor_spec (hs : g.IsSymm) {V : Mv K n} {x : Spec.Cl g} (hV : Rep g V x) {L : Lt K n}
    (h : Lt.ofVersor g V = some L) :
    ∃ W, V.inv g = some W ∧ ∃ y, Rep g W y ∧ x * y = 1 ∧ y * x = 1 ∧ L.WF ∧
      (∀ v, CliffordAlgebra.involute x * Spec.vec g v * y = Spec.vec g (L.mat.mulVec v)) ∧
      ∀ v, Spec.Q g (L.mat.mulVec v) = Spec.Q g v := by
  rw [Lt.ofVersor, Option.bind_eq_some_iff] at h
  obtain ⟨W, hW, h⟩ := h
  obtain ⟨h1, h2, h3⟩ := Rep.inv hs hV hW
  refine ⟨W, hW, _, h1, h2, h3, ?_⟩
  obtain ⟨hL, hv⟩ := ofFunction_spec hs _
    ((LinearMap.mulRight K (W.val g)).comp (LinearMap.mulLeft K (CliffordAlgebra.involute x)))
    (fun A z hA => Rep.mul hs (Rep.mul hs (Rep.gInvol hs hV) hA) h1) h
  have hv' : ∀ v, CliffordAlgebra.involute x * Spec.vec g v * W.val g =
      Spec.vec g (L.mat.mulVec v) := hv
  refine ⟨hL, hv', fun v => ?_⟩
  set y := W.val g
  set u := L.mat.mulVec v
  -- `u = x̂ v y`, so `u = x v ŷ`
  have e1 : Spec.vec g u = x * Spec.vec g v * CliffordAlgebra.involute y := by
    have := congrArg CliffordAlgebra.involute (hv' v)
    rw [map_mul, map_mul, CliffordAlgebra.involute_involute, Spec.vec, Spec.vec,
      CliffordAlgebra.involute_ι, CliffordAlgebra.involute_ι, mul_neg, neg_mul, neg_inj] at this
    exact this.symm
  have e2 : CliffordAlgebra.involute y * CliffordAlgebra.involute x = 1 := by
    rw [← map_mul, h3, map_one]
  have e3 : Spec.vec g u * Spec.vec g u = algebraMap K _ (Spec.Q g v) := by
    conv_lhs => rw [e1]
    rw [← e1]
    nth_rw 1 [e1]
    rw [← hv' v]
    calc x * Spec.vec g v * CliffordAlgebra.involute y *
          (CliffordAlgebra.involute x * Spec.vec g v * y)
        = x * (Spec.vec g v * (CliffordAlgebra.involute y * CliffordAlgebra.involute x) *
            Spec.vec g v) * y := by simp only [mul_assoc]
      _ = x * algebraMap K _ (Spec.Q g v) * y := by
          rw [e2, mul_one, Spec.vec, CliffordAlgebra.ι_sq_scalar]
      _ = algebraMap K _ (Spec.Q g v) := by
          rw [← Algebra.commutes, mul_assoc, h2, mul_one]
  rw [Spec.vec, CliffordAlgebra.ι_sq_scalar] at e3
  exact algebraMap_inj g e3

/-- C58: whenever `Lt(V)` returns, it acts on vectors as `x ↦ V.g_invol() * x * V.inv()`. -/
theorem C58_versor (hs : g.IsSymm) {V : Mv K n} (hV : V.WF g) (hb : V.isBladeRep = true)
    {L : Lt K n} (h : Lt.ofVersor g V = some L) :
    L.WF ∧ ∃ W, V.inv g = some W ∧ ∀ v : Fin n → K,
      (L.call g (Mv.vector v)).eq g (((V.gInvol g).mul g (Mv.vector v)).mul g W) = true := by
  have r := Rep.of_wf hV hb
  obtain ⟨W, hW, y, hy, -, -, hL, hv, -⟩ := ofVersor_spec hs r h
  refine ⟨hL, W, hW, fun v => ?_⟩
  have w := Rep.vector (g := g) v
  rw [Rep.eq_iff hs (Rep.call hs hL w) (Rep.mul hs (Rep.mul hs (Rep.gInvol hs r) w) hy),
    Spec.outer_vec, hv]

/-- C58: it is an isometry: `L(a) | L(b) = a | b`. -/
theorem C58_versor_isometry (hs : g.IsSymm) {V : Mv K n} (hV : V.WF g) (hb : V.isBladeRep = true)
    {L : Lt K n} (h : Lt.ofVersor g V = some L) (a b : Fin n → K) :
    ((L.call g (Mv.vector a)).dot g (L.call g (Mv.vector b))).eq g
      ((Mv.vector a).dot g (Mv.vector b)) = true := by
  obtain ⟨W, hW, y, hy, -, -, hL, -, hQ⟩ := ofVersor_spec hs (Rep.of_wf hV hb) h
  have wa := Rep.vector (g := g) a
  have wb := Rep.vector (g := g) b
  rw [Rep.eq_iff hs (Rep.dot hs (Rep.call hs hL wa) (Rep.call hs hL wb)) (Rep.dot hs wa wb),
    Spec.outer_vec, Spec.outer_vec, Spec.hestenesDot_vec_ip, Spec.hestenesDot_vec_ip]
  congr 1
  apply (isUnit_of_invertible (2 : K)).mul_left_cancel
  have e : ∀ u w : Fin n → K, (2 : K) * Spec.ip g u w =
      Spec.Q g (u + w) - Spec.Q g u - Spec.Q g w := by
    intro u w
    rw [Spec.ip, Spec.two_smul_associated]; rfl
  rw [e, e, ← Matrix.mulVec_add, hQ, hQ, hQ]

/-- C58: on all multivectors, an even versor acts as `A ↦ V * A * V.inv()` and an odd one as
`A ↦ V * A.g_invol() * V.inv()`. -/
theorem C58_sandwich (hs : g.IsSymm) {V : Mv K n} (hV : V.WF g) (hb : V.isBladeRep = true)
    {L : Lt K n} (h : Lt.ofVersor g V = some L) {A : Mv K n} (hA : A.WF g)
    (ha : A.isBladeRep = true) : ∃ W, V.inv g = some W ∧
      ((V.gInvol g).eq g V = true → (L.call g A).eq g ((V.mul g A).mul g W) = true) ∧
      ((V.gInvol g).eq g V.neg = true →
        (L.call g A).eq g ((V.mul g (A.gInvol g)).mul g W) = true) := by
  have r := Rep.of_wf hV hb
  have a := Rep.of_wf hA ha
  obtain ⟨W, hW, y, hy, h1, h2, hL, hv, -⟩ := ofVersor_spec hs r h
  refine ⟨W, hW, fun he => ?_, fun he => ?_⟩
  · rw [Rep.eq_iff hs (Rep.gInvol hs r) r] at he
    rw [Rep.eq_iff hs (Rep.call hs hL a) (Rep.mul hs (Rep.mul hs r a) hy)]
    symm
    exact Spec.algHom_eq_outer (Spec.conj h1 h2) L.mat (fun v => by rw [← hv v, he]; rfl) _
  · rw [Rep.eq_iff hs (Rep.gInvol hs r) r.neg] at he
    rw [Rep.eq_iff hs (Rep.call hs hL a) (Rep.mul hs (Rep.mul hs r (Rep.gInvol hs a)) hy)]
    symm
    refine Spec.algHom_eq_outer ((Spec.conj h1 h2).comp CliffordAlgebra.involute) L.mat
      (fun v => ?_) _
    rw [← hv v, he]
    simp only [AlgHom.comp_apply, Spec.vec, CliffordAlgebra.involute_ι]
    show V.val g * -CliffordAlgebra.ι (Spec.Q g) v * y = _
    rw [mul_neg, neg_mul, neg_mul, neg_mul]

theorem prod_sandwich (vs : List (Fin n → K)) (hq : ∀ v ∈ vs, Spec.Q g v ≠ 0) :
    let x := (vs.map (Spec.vec g)).prod
    (∃ c, c ≠ 0 ∧ x * CliffordAlgebra.reverse (Q := Spec.Q g) x = algebraMap K _ c) ∧
    ∀ v, ∃ u, CliffordAlgebra.involute x * Spec.vec g v * CliffordAlgebra.reverse (Q := Spec.Q g) x =
      Spec.vec g u := by
  induction vs with
  | nil => exact ⟨⟨1, one_ne_zero, by simp⟩, fun v => ⟨v, by simp⟩⟩
  | cons w vs ih =>
    obtain ⟨⟨c, hc, h1⟩, h2⟩ := ih fun v hv => hq v (List.mem_cons_of_mem _ hv)
    simp only [List.map_cons, List.prod_cons]
    set x := (vs.map (Spec.vec g)).prod
    have hr : CliffordAlgebra.reverse (Q := Spec.Q g) (Spec.vec g w * x) =
        CliffordAlgebra.reverse (Q := Spec.Q g) x * Spec.vec g w := by
      rw [CliffordAlgebra.reverse.map_mul, Spec.vec, CliffordAlgebra.reverse_ι]
    have hw : Spec.vec g w * Spec.vec g w = algebraMap K _ (Spec.Q g w) :=
      CliffordAlgebra.ι_sq_scalar _ _
    refine ⟨⟨c * Spec.Q g w, mul_ne_zero hc (hq w (by simp)), ?_⟩, fun v => ?_⟩
    · rw [hr]
      calc Spec.vec g w * x * (CliffordAlgebra.reverse (Q := Spec.Q g) x * Spec.vec g w)
          = Spec.vec g w * (x * CliffordAlgebra.reverse (Q := Spec.Q g) x) * Spec.vec g w := by
            simp only [mul_assoc]
        _ = _ := by rw [h1, ← Algebra.commutes, mul_assoc, hw, map_mul]
    · obtain ⟨u, hu⟩ := h2 v
      rw [hr, map_mul]
      have hi : CliffordAlgebra.involute (Spec.vec g w) = -Spec.vec g w :=
        CliffordAlgebra.involute_ι _
      refine ⟨Spec.Q g w • u - (2 * Spec.ip g w u) • w, ?_⟩
      have hsw : Spec.vec g w * Spec.vec g u =
          algebraMap K _ (2 * Spec.ip g w u) - Spec.vec g u * Spec.vec g w := by
        rw [eq_sub_iff_add_eq, Spec.ip, Spec.two_smul_associated]
        exact CliffordAlgebra.ι_mul_ι_add_swap _ _
      calc CliffordAlgebra.involute (Spec.vec g w) * CliffordAlgebra.involute x * Spec.vec g v *
            (CliffordAlgebra.reverse (Q := Spec.Q g) x * Spec.vec g w)
          = CliffordAlgebra.involute (Spec.vec g w) * (CliffordAlgebra.involute x * Spec.vec g v *
            CliffordAlgebra.reverse (Q := Spec.Q g) x) * Spec.vec g w := by simp only [mul_assoc]
        _ = -(Spec.vec g w * Spec.vec g u * Spec.vec g w) := by rw [hu, hi, neg_mul, neg_mul]
        _ = Spec.vec g u * (Spec.vec g w * Spec.vec g w) -
              algebraMap K _ (2 * Spec.ip g w u) * Spec.vec g w := by
            rw [hsw, sub_mul, neg_sub, mul_assoc]
        _ = _ := by
          rw [hw, ← Algebra.commutes, ← Algebra.smul_def, ← Algebra.smul_def, ← Spec.vec_smul,
            ← Spec.vec_smul]
          exact (map_sub _ _ _).symm

/-- C58: `Lt(V)` returns for every product `V` of vectors with non-zero square. -/
theorem C58_versor_returns (hs : g.IsSymm) (vs : List (Fin n → K)) (hq : ∀ v ∈ vs, Spec.Q g v ≠ 0) :
    (Lt.ofVersor g ((vs.map Mv.vector).foldl (Mv.mul g) (Mv.scalarMv 1))).isSome = true := by
  have hV : Rep g ((vs.map Mv.vector).foldl (Mv.mul g) (Mv.scalarMv 1))
      (vs.map (Spec.vec g)).prod := by
    have key : ∀ (vs : List (Fin n → K)) (A : Mv K n) (x : Spec.Cl g), Rep g A x →
        Rep g ((vs.map Mv.vector).foldl (Mv.mul g) A) (x * (vs.map (Spec.vec g)).prod) := by
      intro vs
      induction vs with
      | nil => intro A x h; simpa using h
      | cons v vs ih =>
        intro A x h
        have := ih _ _ (Rep.mul hs h (Rep.vector v))
        simpa [mul_assoc] using this
    have := key vs _ _ (Rep.scalarMv 1)
    rwa [map_one, one_mul] at this
  obtain ⟨⟨c, hc, h1⟩, h2⟩ := prod_sandwich vs hq
  generalize (vs.map Mv.vector).foldl (Mv.mul g) (Mv.scalarMv 1) = V at *
  obtain ⟨W, hW⟩ := C23_inverse_exists hs hV.wf hc
    ((Rep.eq_iff hs (Rep.mul hs hV (Rep.rev hs hV)) (Rep.scalarMv c)).mpr h1)
  obtain ⟨w1, w2, w3⟩ := Rep.inv hs hV hW
  have hy : W.val g = c⁻¹ • CliffordAlgebra.reverse (Q := Spec.Q g) (vs.map (Spec.vec g)).prod := by
    have h4 : (vs.map (Spec.vec g)).prod *
        (c⁻¹ • CliffordAlgebra.reverse (Q := Spec.Q g) (vs.map (Spec.vec g)).prod) = 1 := by
      rw [mul_smul_comm, h1, Algebra.smul_def, ← map_mul, inv_mul_cancel₀ hc, map_one]
    exact left_inv_eq_right_inv w3 h4
  choose u hu using fun i : Fin n => h2 (Pi.single i 1)
  obtain ⟨L, hL, -⟩ := ofFunction_of_basis hs (fun x => ((V.gInvol g).mul g x).mul g W)
    (Matrix.of fun j i => c⁻¹ * u i j) (fun i => by
      have hb : Rep g (Mv.ofExpr [(1, .blade [i])]) (Spec.vec g (Pi.single i (1 : K))) := by
        refine (Rep.ofExpr (valid_bladeE (List.pairwise_singleton _ i))).congr ?_
        rw [den_eq_lin, bladeE, lin_cons, lin_nil, one_smul, add_zero, symDen,
          Spec.blade_singleton, Spec.e]
      refine (Rep.mul hs (Rep.mul hs (Rep.gInvol hs hV) hb) w1).congr ?_
      rw [hy, mul_smul_comm, hu, ← Spec.vec_smul]
      rfl)
  rw [Lt.ofVersor, hW, Option.bind_some, hL]
  rfl

example : (Lt.ofVersor Ex.gN (Mv.ofExpr (bladeE [0]))).isSome = true := by decide +kernel

end GA
