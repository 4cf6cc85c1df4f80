import Verif.Proofs.LtFrame
import Verif.Props.C90

/-!
# C101: linear transformations do not depend on the basis

`f 0, …, f (n-1)` is another basis of the vectors of the algebra with the metric `g`, `h` the metric of the
algebra with this basis (`gram`, `Spec/Frame`), and `A.rewriteIn g F` writes a multivector `A` of the new algebra
in the old one.  `SameLt` (`Spec/LtFrame`) says that a transformation of the new algebra and one of the old
algebra have the same values on vectors.  `none`: an exception.
-/

set_option linter.unusedSectionVars false
set_option maxRecDepth 10000

namespace GA
variable {n : ℕ} {K : Type*} [Field K] [DecidableEq K] [Invertible (2 : K)]
  {g h : Matrix (Fin n) (Fin n) K} {f : Fin n → Fin n → K} {L L' N N' : Lt K n}

/-- C101: two transformations that agree on the basis vectors agree on all vectors, and also on every
multivector. -/
theorem C101_apply (hs : g.IsSymm) (hh : h = gram g fun i => Mv.vector (f i)) (hL : L.WF) (hL' : L'.WF)
    (H : SameOnBasis h g (fun i => Mv.vector (f i)) L L') :
    SameLt h g (fun i => Mv.vector (f i)) L L' ∧
    ∀ A : Mv K n, A.WF h → A.isBladeRep = true →
      ((L.call h A).rewriteIn g fun i => Mv.vector (f i)).eq g
        (L'.call g (A.rewriteIn g fun i => Mv.vector (f i))) = true := by
  obtain rfl : h = Spec.gramOf g f := hh.trans (gram_vectors hs f)
  have e := (sameOnBasis_iff hs hL hL').mp H
  refine ⟨(sameLt_iff hs hL hL').mpr e, fun A hA hb => ?_⟩
  have r := Rep.of_wf hA hb
  rw [Rep.eq_iff hs (rewrite_rep hs f (Rep.call (gramOf_symm hs f) hL r))
    (Rep.call hs hL' (rewrite_rep hs f r))]
  exact emb_outer e _

/-- C101: every transformation of the old algebra is the same as one of the new algebra, and its matrix is
unique. -/
theorem C101_exists (hs : g.IsSymm) (hh : h = gram g fun i => Mv.vector (f i))
    (hd : (Matrix.of f).det ≠ 0) (hL' : L'.WF) :
    (∃ L : Lt K n, L.WF ∧ SameLt h g (fun i => Mv.vector (f i)) L L') ∧
    ∀ L N : Lt K n, L.WF → N.WF → SameLt h g (fun i => Mv.vector (f i)) L L' →
      SameLt h g (fun i => Mv.vector (f i)) N L' → L.matrix = N.matrix := by
  obtain rfl : h = Spec.gramOf g f := hh.trans (gram_vectors hs f)
  have hU : IsUnit (Matrix.of f).transpose.det := by rw [Matrix.det_transpose]; exact hd.isUnit
  constructor
  · obtain ⟨h1, h2⟩ := Lt.ofMatrix_spec
      ((Matrix.of f).transpose⁻¹ * L'.mat * (Matrix.of f).transpose)
    refine ⟨_, h1, (sameLt_iff hs h1 hL').mpr ?_⟩
    rw [h2, ← Matrix.mul_assoc, ← Matrix.mul_assoc, Matrix.mul_nonsing_inv _ hU, Matrix.one_mul]
  · intro L N hL hN H1 H2
    rw [hL.matrix, hN.matrix]
    congr 1
    have e := ((sameLt_iff hs hL hL').mp H1).trans ((sameLt_iff hs hN hL').mp H2).symm
    have := congrArg ((Matrix.of f).transpose⁻¹ * ·) e
    simpa only [← Matrix.mul_assoc, Matrix.nonsing_inv_mul _ hU, Matrix.one_mul] using this

/-- C101: sums, differences, multiples and compositions of the same transformations are the same. -/
theorem C101_operations (hs : g.IsSymm) (hh : h = gram g fun i => Mv.vector (f i))
    (hL : L.WF) (hL' : L'.WF) (hN : N.WF) (hN' : N'.WF)
    (H : SameLt h g (fun i => Mv.vector (f i)) L L') (H' : SameLt h g (fun i => Mv.vector (f i)) N N')
    (c : K) :
    SameLt h g (fun i => Mv.vector (f i)) (L.add N) (L'.add N') ∧
    SameLt h g (fun i => Mv.vector (f i)) (L.sub N) (L'.sub N') ∧
    SameLt h g (fun i => Mv.vector (f i)) (L.smul c) (L'.smul c) ∧
    SameLt h g (fun i => Mv.vector (f i)) (L.mul N) (L'.mul N') := by
  obtain rfl : h = Spec.gramOf g f := hh.trans (gram_vectors hs f)
  rw [sameLt_iff hs hL hL'] at H
  rw [sameLt_iff hs hN hN'] at H'
  refine ⟨(sameLt_iff hs (hL.add hN).1 (hL'.add hN').1).mpr ?_,
    (sameLt_iff hs (hL.sub hN).1 (hL'.sub hN').1).mpr ?_,
    (sameLt_iff hs (hL.smul c).1 (hL'.smul c).1).mpr ?_,
    (sameLt_iff hs (hL.mul hN).1 (hL'.mul hN').1).mpr ?_⟩
  · rw [(hL.add hN).2, (hL'.add hN').2, Matrix.mul_add, Matrix.add_mul, H, H']
  · rw [(hL.sub hN).2, (hL'.sub hN').2, Matrix.mul_sub, Matrix.sub_mul, H, H']
  · rw [(hL.smul c).2, (hL'.smul c).2, Matrix.mul_smul, Matrix.smul_mul, H]
  · rw [(hL.mul hN).2, (hL'.mul hN').2, ← Matrix.mul_assoc, H, Matrix.mul_assoc, H', Matrix.mul_assoc]

theorem same_det (hd : (Matrix.of f).det ≠ 0)
    (H : (Matrix.of f).transpose * L.mat = L'.mat * (Matrix.of f).transpose) : L.mat.det = L'.mat.det := by
  have := congrArg Matrix.det H
  rw [Matrix.det_mul, Matrix.det_mul, Matrix.det_transpose, mul_comm] at this
  exact mul_right_cancel₀ hd this

/-- C101: `L.det()` and `L.is_singular()` are the same in both algebras, also where they raise. -/
theorem C101_det (hs : g.IsSymm) (hh : h = gram g fun i => Mv.vector (f i))
    (hd : (Matrix.of f).det ≠ 0) (hL : L.WF) (hL' : L'.WF)
    (H : SameLt h g (fun i => Mv.vector (f i)) L L') :
    L.det h = L'.det g ∧ L.isSingular h = L'.isSingular g := by
  obtain rfl : h = Spec.gramOf g f := hh.trans (gram_vectors hs f)
  have e := same_det hd ((sameLt_iff hs hL hL').mp H)
  have hs' := gramOf_symm hs f
  by_cases hg : g.det = 0
  · have hg' : (Spec.gramOf g f).det = 0 := by rw [gram_det, hg, mul_zero]
    have k : ∀ (g : Matrix (Fin n) (Fin n) K) (L : Lt K n), (pseudoE : Mv K n).inv g = none →
        L.det g = none ∧ L.isSingular g = none := fun g L h => by
      rw [Lt.det, Lt.isSingular, h]; exact ⟨rfl, rfl⟩
    have k1 := k _ L (pseudoE_inv_none hs' hg')
    have k2 := k _ L' (pseudoE_inv_none hs hg)
    exact ⟨k1.1.trans k2.1.symm, k1.2.trans k2.2.symm⟩
  · have hg' : (Spec.gramOf g f).det ≠ 0 := by rw [gram_det]; exact mul_ne_zero (pow_ne_zero _ hd) hg
    rw [C36_det hs' hg' hL hL.matrix, C36_det hs hg hL' hL'.matrix, isSingular_spec hs' hg' hL,
      isSingular_spec hs hg hL', e]
    exact ⟨rfl, rfl⟩

/-- C101: `L.inv()` raises in both algebras or in none, and the inverses are the same. -/
theorem C101_inverse (hs : g.IsSymm) (hh : h = gram g fun i => Mv.vector (f i))
    (hd : (Matrix.of f).det ≠ 0) (hL : L.WF) (hL' : L'.WF)
    (H : SameLt h g (fun i => Mv.vector (f i)) L L') :
    Option.Rel (SameLt h g fun i => Mv.vector (f i)) (L.inv h) (L'.inv g) := by
  have hsing := (C101_det hs hh hd hL hL' H).2
  obtain rfl : h = Spec.gramOf g f := hh.trans (gram_vectors hs f)
  rw [sameLt_iff hs hL hL'] at H
  have e := same_det hd H
  rw [Lt.inv, Lt.inv, hsing, hL.matrix, hL'.matrix]
  cases hsg : L'.isSingular g with
  | none => exact .none
  | some s =>
    cases s with
    | true => exact .none
    | false =>
      simp only [Option.bind_some, Bool.false_eq_true, if_false]
      rw [matInv, matInv, e]
      by_cases h0 : L'.mat.det = 0
      · rw [if_pos h0, if_pos h0]; exact .none
      · rw [if_neg h0, if_neg h0]
        obtain ⟨h1, h2⟩ := Lt.ofMatrix_spec ((L'.mat.det)⁻¹ • L.mat.adjugate)
        obtain ⟨h3, h4⟩ := Lt.ofMatrix_spec ((L'.mat.det)⁻¹ • L'.mat.adjugate)
        refine .some ((sameLt_iff hs h1 h3).mpr ?_)
        rw [h2, h4]
        have k1 : L.mat * ((L'.mat.det)⁻¹ • L.mat.adjugate) = 1 := by
          rw [Matrix.mul_smul, Matrix.mul_adjugate, e, smul_smul, inv_mul_cancel₀ h0, one_smul]
        have k2 : ((L'.mat.det)⁻¹ • L'.mat.adjugate) * L'.mat = 1 := by
          rw [Matrix.smul_mul, Matrix.adjugate_mul, smul_smul, inv_mul_cancel₀ h0, one_smul]
        generalize (L'.mat.det)⁻¹ • L.mat.adjugate = X at k1
        generalize (L'.mat.det)⁻¹ • L'.mat.adjugate = Y at k2
        calc (Matrix.of f).transpose * X = Y * (L'.mat * (Matrix.of f).transpose) * X := by
              rw [← Matrix.mul_assoc Y, k2, Matrix.one_mul]
          _ = Y * (Matrix.of f).transpose := by
              rw [← H, Matrix.mul_assoc, Matrix.mul_assoc, k1, Matrix.mul_one]

/-- C101: `L.adj()` raises in both algebras or in none, and the adjoints are the same. -/
theorem C101_adjoint (hs : g.IsSymm) (hh : h = gram g fun i => Mv.vector (f i))
    (hd : (Matrix.of f).det ≠ 0) (hL : L.WF) (hL' : L'.WF)
    (H : SameLt h g (fun i => Mv.vector (f i)) L L') :
    Option.Rel (SameLt h g fun i => Mv.vector (f i)) (L.adj h) (L'.adj g) := by
  obtain rfl : h = Spec.gramOf g f := hh.trans (gram_vectors hs f)
  rw [sameLt_iff hs hL hL'] at H
  have hs' := gramOf_symm hs f
  by_cases hg : g.det = 0
  · have hg' : (Spec.gramOf g f).det = 0 := by rw [gram_det, hg, mul_zero]
    rw [Lt.adj, Lt.adj, gInv_none hs hg, gInv_none hs' hg']
    exact .none
  · have hg' : (Spec.gramOf g f).det ≠ 0 := by rw [gram_det]; exact mul_ne_zero (pow_ne_zero _ hd) hg
    obtain ⟨gi, P, a1, a2, a3, a4, a5⟩ := adj_spec hs' hg' hL
    obtain ⟨gi', P', b1, b2, b3, b4, b5⟩ := adj_spec hs hg hL'
    rw [a3, b3]
    refine .some ((sameLt_iff hs a4 b4).mpr ?_)
    rw [a5, b5]
    have hG : Spec.gramOf g f = Matrix.of f * g * (Matrix.of f).transpose := by
      rw [Spec.gramOf_eq]; rfl
    have HT : L.mat.transpose * Matrix.of f = Matrix.of f * L'.mat.transpose := by
      have := congrArg Matrix.transpose H
      rwa [Matrix.transpose_mul, Matrix.transpose_mul, Matrix.transpose_transpose] at this
    have k : (Matrix.of f).transpose * gi * Matrix.of f = gi' := by
      have hT : IsUnit (Matrix.of f).det := hd.isUnit
      have k1 : (Matrix.of f).transpose * gi * Matrix.of f * g * (Matrix.of f).transpose =
          (Matrix.of f).transpose := by
        calc _ = (Matrix.of f).transpose * (gi * (Matrix.of f * g * (Matrix.of f).transpose)) := by
              simp only [Matrix.mul_assoc]
          _ = _ := by rw [← hG, a1, Matrix.mul_one]
      have hU : IsUnit (Matrix.of f).transpose.det := by rw [Matrix.det_transpose]; exact hT
      have k2 := congrArg (· * ((Matrix.of f).transpose⁻¹ * gi')) k1
      simp only [Matrix.mul_assoc] at k2
      rw [← Matrix.mul_assoc (Matrix.of f).transpose (Matrix.of f).transpose⁻¹,
        Matrix.mul_nonsing_inv _ hU, Matrix.one_mul, b2, Matrix.mul_one] at k2
      rw [Matrix.mul_assoc]
      exact k2
    calc (Matrix.of f).transpose * (gi * L.mat.transpose * Spec.gramOf g f)
        = (Matrix.of f).transpose * gi * (L.mat.transpose * Matrix.of f) * g * (Matrix.of f).transpose := by
          rw [hG]; simp only [Matrix.mul_assoc]
      _ = gi' * L'.mat.transpose * g * (Matrix.of f).transpose := by
          rw [HT, ← Matrix.mul_assoc, k]

/-- C101: `L.tr()` is the same in both algebras, if the coefficients of the transformations do not depend on
the coordinates and the bases are not normalised. -/
theorem C101_trace {D D' : Fin n → Derivation ℤ K K} {x x' : Fin n → K} (hs : g.IsSymm)
    (hh : h = gram g fun i => Mv.vector (f i)) (hd : (Matrix.of f).det ≠ 0) (hg : g.det ≠ 0)
    (hx : ∀ i j, D i (x j) = if i = j then 1 else 0) (hx' : ∀ i j, D' i (x' j) = if i = j then 1 else 0)
    (hL : L.WF) (hL' : L'.WF) (hc : ∀ i j k, D k (L.mat i j) = 0) (hc' : ∀ i j k, D' k (L'.mat i j) = 0)
    (H : SameLt h g (fun i => Mv.vector (f i)) L L') :
    ∃ t, L.tr (fun i => D i) h none x = some t ∧ L'.tr (fun i => D' i) g none x' = some t := by
  obtain rfl : h = Spec.gramOf g f := hh.trans (gram_vectors hs f)
  rw [sameLt_iff hs hL hL'] at H
  have hs' := gramOf_symm hs f
  have hg' : (Spec.gramOf g f).det ≠ 0 := by rw [gram_det]; exact mul_ne_zero (pow_ne_zero _ hd) hg
  obtain ⟨M, m1, m2⟩ := C38_trace_partial hs' hg' hx hL hc
  obtain ⟨M', m1', m2'⟩ := C38_trace_partial hs hg hx' hL' hc'
  rw [hL.matrix] at m1
  rw [hL'.matrix] at m1'
  cases m1; cases m1'
  refine ⟨_, m2, m2'.trans ?_⟩
  congr 1
  have hU : IsUnit (Matrix.of f).transpose.det := by rw [Matrix.det_transpose]; exact hd.isUnit
  have e : L'.mat = (Matrix.of f).transpose * L.mat * (Matrix.of f).transpose⁻¹ := by
    rw [H, Matrix.mul_assoc, Matrix.mul_nonsing_inv _ hU, Matrix.mul_one]
  rw [e, Matrix.trace_mul_comm, ← Matrix.mul_assoc, Matrix.nonsing_inv_mul _ hU, Matrix.one_mul]

/-- C101: `Lt(V)` for a versor `V` raises in both algebras or in none, and the transformations are the same. -/
theorem C101_versor (hs : g.IsSymm) (hh : h = gram g fun i => Mv.vector (f i))
    (hd : (Matrix.of f).det ≠ 0) {V : Mv K n} (hV : V.WF h) (hb : V.isBladeRep = true) :
    Option.Rel (SameLt h g fun i => Mv.vector (f i)) (Lt.ofVersor h V)
      (Lt.ofVersor g (V.rewriteIn g fun i => Mv.vector (f i))) := by
  obtain rfl : h = Spec.gramOf g f := hh.trans (gram_vectors hs f)
  have C := change_of_frame hs hd
  have hs' := gramOf_symm hs f
  have r := Rep.of_wf hV hb
  have r' := rewrite_rep hs f r
  have hU : IsUnit (Matrix.of f).transpose.det := by rw [Matrix.det_transpose]; exact hd.isUnit
  have hinv := Sim.inv C ⟨_, r, r'⟩
  -- the transformation exists if the function maps vectors to vectors
  have ex : ∀ {g : Matrix (Fin n) (Fin n) K} (hs : g.IsSymm) {V W : Mv K n} {x y : Spec.Cl g}
      (hV : Rep g V x) (hW : V.inv g = some W) (hy : Rep g W y) (M : Matrix (Fin n) (Fin n) K),
      (∀ v, CliffordAlgebra.involute x * Spec.vec g v * y = Spec.vec g (M.mulVec v)) →
      ∃ L, Lt.ofVersor g V = some L ∧ L.WF ∧ L.mat = M := by
    intro g hs V W x y hV hW hy M hM
    obtain ⟨L, e, h1, h2⟩ := ofFunction_of_basis hs
      (fun x => ((V.gInvol g).mul g x).mul g W) M fun i => by
        refine (Rep.mul hs (Rep.mul hs (Rep.gInvol hs hV)
          (Rep.ofExpr (valid_bladeE (List.pairwise_singleton _ i)))) hy).congr ?_
        rw [← Matrix.mulVec_single_one, ← hM, den_eq_lin, bladeE, lin_cons, lin_nil, one_smul, add_zero,
          symDen, Spec.blade_singleton]
        rfl
    exact ⟨L, by rw [Lt.ofVersor, hW, Option.bind_some]; exact e, h1, h2⟩
  cases e1 : Lt.ofVersor (Spec.gramOf g f) V with
  | some P =>
    obtain ⟨W, w1, y, w2, -, -, w3, w4, -⟩ := ofVersor_spec hs' r e1
    rw [w1] at hinv
    cases hW' : (V.rewriteIn g fun i => Mv.vector (f i)).inv g with
    | none => rw [hW'] at hinv; cases hinv
    | some W' =>
      rw [hW'] at hinv
      cases hinv with
      | some k =>
        obtain ⟨z, k1, k2⟩ := k
        have hz : z = y := by rw [← k1.val, w2.val]
        subst hz
        obtain ⟨L, l1, l2, l3⟩ := ex hs r' hW' k2
          ((Matrix.of f).transpose * P.mat * (Matrix.of f).transpose⁻¹) fun v => by
            have := congrArg (Spec.emb g f).hom (w4 ((Matrix.of f).transpose⁻¹.mulVec v))
            rw [map_mul, map_mul, (Spec.emb g f).involute, (Spec.emb g f).vec, (Spec.emb g f).vec, emb_lin,
              emb_lin, Matrix.mulVec_mulVec, Matrix.mulVec_mulVec, Matrix.mulVec_mulVec,
              Matrix.mul_nonsing_inv _ hU, Matrix.one_mulVec] at this
            rw [this, Matrix.mul_assoc]
        rw [l1]
        refine .some ((sameLt_iff hs w3 l2).mpr ?_)
        rw [l3, Matrix.mul_assoc _ _ (Matrix.of f).transpose, Matrix.nonsing_inv_mul _ hU, Matrix.mul_one]
  | none =>
    cases e2 : Lt.ofVersor g (V.rewriteIn g fun i => Mv.vector (f i)) with
    | none => exact .none
    | some P =>
      exfalso
      obtain ⟨W', w1, y, w2, -, -, w3, w4, -⟩ := ofVersor_spec hs r' e2
      rw [w1] at hinv
      cases hW : V.inv (Spec.gramOf g f) with
      | none => rw [hW] at hinv; cases hinv
      | some W =>
        rw [hW] at hinv
        cases hinv with
        | some k =>
          obtain ⟨z, k1, k2⟩ := k
          have hz : (Spec.emb g f).hom z = y := by rw [← k2.val, w2.val]
          subst hz
          obtain ⟨L, l1, l2, l3⟩ := ex hs' r hW k1
            ((Matrix.of f).transpose⁻¹ * P.mat * (Matrix.of f).transpose) fun v => C.inj (by
              rw [map_mul, map_mul, (Spec.emb g f).involute, (Spec.emb g f).vec, (Spec.emb g f).vec, w4,
                emb_lin, emb_lin, Matrix.mulVec_mulVec, Matrix.mulVec_mulVec, ← Matrix.mul_assoc,
                ← Matrix.mul_assoc, Matrix.mul_nonsing_inv _ hU, Matrix.one_mul])
          rw [e1] at l1
          cases l1

namespace Ex

/-- A transformation of the Minkowski plane, and the same one in the basis of null vectors. -/
def ltOld : Lt ℚ 2 := Lt.ofMatrix !![2, 1; 0, 3]
def ltNull : Lt ℚ 2 := Lt.ofMatrix !![3, -1; 0, 2]

theorem ltOld_wf : ltOld.WF := (Lt.ofMatrix_spec _).1
theorem ltNull_wf : ltNull.WF := (Lt.ofMatrix_spec _).1

theorem gNull : (!![0, 2; 2, 0] : Matrix (Fin 2) (Fin 2) ℚ) = gram gMink fun i => Mv.vector (fNull i) := by
  decide +kernel

theorem ltNull_basis : SameOnBasis !![0, 2; 2, 0] gMink (fun i => Mv.vector (fNull i)) ltNull ltOld := by
  decide +kernel

theorem ltNull_same : SameLt !![0, 2; 2, 0] gMink (fun i => Mv.vector (fNull i)) ltNull ltOld :=
  (C101_apply gMink_symm gNull ltNull_wf ltOld_wf ltNull_basis).1

theorem fNull_det : (Matrix.of fNull).det ≠ 0 := by decide +kernel

end Ex

example : ((Ex.ltNull.call !![0, 2; 2, 0] (Ex.aNull 1)).rewriteIn Ex.gMink fun i => Mv.vector (Ex.fNull i)).eq
    Ex.gMink (Ex.ltOld.call Ex.gMink ((Ex.aNull 1).rewriteIn Ex.gMink fun i => Mv.vector (Ex.fNull i))) = true :=
  (C101_apply Ex.gMink_symm Ex.gNull Ex.ltNull_wf Ex.ltOld_wf Ex.ltNull_basis).2 _ (Ex.aNull_wf _ 1)
    (Ex.aNull_blade 1)

example : Ex.ltNull.det !![0, 2; 2, 0] = Ex.ltOld.det Ex.gMink ∧ Ex.ltOld.det Ex.gMink = some 6 :=
  ⟨(C101_det Ex.gMink_symm Ex.gNull Ex.fNull_det Ex.ltNull_wf Ex.ltOld_wf Ex.ltNull_same).1,
    by decide +kernel⟩

example : Option.Rel (SameLt !![0, 2; 2, 0] Ex.gMink fun i => Mv.vector (Ex.fNull i))
    (Ex.ltNull.adj !![0, 2; 2, 0]) (Ex.ltOld.adj Ex.gMink) :=
  C101_adjoint Ex.gMink_symm Ex.gNull Ex.fNull_det Ex.ltNull_wf Ex.ltOld_wf Ex.ltNull_same

/-- The adjoints are returned, and are not the transposed matrices. -/
example : (Ex.ltNull.adj !![0, 2; 2, 0]).bind Lt.matrix = some !![2, -1; 0, 3] ∧
    (Ex.ltOld.adj Ex.gMink).bind Lt.matrix = some !![2, 0; -1, 3] := by
  decide +kernel

example : (Ex.ltNull.inv !![0, 2; 2, 0]).bind Lt.matrix = some !![1/3, 1/6; 0, 1/2] ∧
    (Ex.ltOld.inv Ex.gMink).bind Lt.matrix = some !![1/2, -1/6; 0, 1/3] := by
  decide +kernel

/-- A versor: the reflection in the sum of the two null vectors. -/
example : (Lt.ofVersor (!![0, 2; 2, 0] : Matrix (Fin 2) (Fin 2) ℚ) (Mv.vector ![1, 1])).bind Lt.matrix = some !![0, -1; -1, 0] ∧
    (Lt.ofVersor Ex.gMink ((Mv.vector ![1, 1]).rewriteIn Ex.gMink
      fun i => Mv.vector (Ex.fNull i))).bind Lt.matrix = some !![-1, 0; 0, 1] := by
  decide +kernel

/-- `SameLt` can fail: the same dictionary of coefficients is another transformation in the new algebra. -/
example : ¬ SameLt !![0, 2; 2, 0] Ex.gMink (fun i => Mv.vector (Ex.fNull i)) Ex.ltOld Ex.ltOld := by
  intro H
  exact absurd (H ![1, 0]) (by decide +kernel)

end GA
