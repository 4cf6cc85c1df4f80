import Verif.Proofs.Subspace
import Verif.Props.C18
import Verif.Props.C28
import Verif.Props.C33
import Verif.Props.C103
import Verif.Props.C107
import Verif.Proofs.FnForms

/-!
# C110: blades stand for subspaces

A multivector `B` stands for the subspace `W` (`StandsFor`) if it is a blade, not zero, and `v ^ B == 0` exactly for the
vectors `v` of `W`.  Vectors are given by their coefficients, `Mv.vector v` models `Ga.mv(v, 'vector')`.  `outerOf g L` is
the exterior product of the vectors of a list.  `(Matrix.toBilin' g).orthogonal W` is Mathlib's orthogonal complement of `W`
for the metric `g`.
-/

set_option linter.unusedSectionVars false
set_option maxRecDepth 10000

namespace GA
variable {n : ℕ} {K : Type*} [Field K] [DecidableEq K] [Invertible (2 : K)]
  {g : Matrix (Fin n) (Fin n) K}

/-- `B` is a blade of the subspace `W`: a non-zero multiple of an exterior product of vectors for which `v ^ B == 0` holds
exactly for the vectors `v` of `W`. -/
structure StandsFor (g : Matrix (Fin n) (Fin n) K) (B : Mv K n) (W : Submodule K (Fin n → K)) : Prop where
  notZero : B.isZero = false
  blade : ∃ k, BladeOfGrade g k B
  vectors : ∀ v, ((Mv.vector v).wedge g B).isZero = true ↔ v ∈ W

theorem isZero_false {B : Mv K n} {x : Spec.Cl g} (r : Rep g B x) : B.isZero = false ↔ x ≠ 0 := by
  rw [← Bool.not_eq_true, isZero_iff r.wf, r.val]

theorem standsFor_iff (hs : g.IsSymm) {B : Mv K n} {x : Spec.Cl g} (r : Rep g B x) (W : Submodule K (Fin n → K)) :
    StandsFor g B W ↔ Spec.BladeOf g W x := by
  have h : ∀ v, ((Mv.vector v).wedge g B).isZero = true ↔ Spec.wedge g (Spec.vec g v) x = 0 := fun v => by
    have rw' := (Rep.vector (g := g) v).wedge hs r
    rw [isZero_iff rw'.wf, rw'.val]
  rw [Spec.bladeOf_iff]
  constructor
  · rintro ⟨h0, ⟨k, hk⟩, hv⟩
    exact ⟨(isZero_false r).mp h0, ⟨k, (bladeOfGrade_iff hs r k).mp hk⟩, fun v => by rw [← hv, h]⟩
  · rintro ⟨h0, ⟨k, hk⟩, hv⟩
    exact ⟨(isZero_false r).mpr h0, ⟨k, (bladeOfGrade_iff hs r k).mpr hk⟩, fun v => by rw [← hv, h]⟩

variable {B B' : Mv K n} {W W' : Submodule K (Fin n → K)}

/-- C110: `v_1 ^ ... ^ v_k` is zero exactly if the vectors are linearly dependent, and otherwise it stands for the subspace
they span; in every metric. -/
theorem C110_span (hs : g.IsSymm) {k : ℕ} (v : Fin k → Fin n → K) :
    ((outerOf g (List.ofFn v)).isZero = false ↔ LinearIndependent K v) ∧
    (LinearIndependent K v → StandsFor g (outerOf g (List.ofFn v)) (Submodule.span K (Set.range v))) := by
  have r := rep_outerOf hs (List.ofFn v)
  refine ⟨by rw [isZero_false r, Spec.wedgeL_ofFn_ne_zero], fun h => (standsFor_iff hs r _).mpr ?_⟩
  exact ⟨1, _, one_ne_zero, Spec.wedgeL_ofFn_ne_zero v |>.mpr h, (one_smul _ _).symm, Spec.spanL_ofFn v⟩

/-- C110: every subspace has a multivector that stands for it, and every blade that is not zero stands for a subspace;
the grade is the dimension. -/
theorem C110_exists (hs : g.IsSymm) :
    (∀ W : Submodule K (Fin n → K), ∃ B : Mv K n, B.WF g ∧ B.isBladeRep = true ∧ StandsFor g B W) ∧
    ∀ B : Mv K n, B.WF g → B.isBladeRep = true → B.isZero = false →
      (∀ k, BladeOfGrade g k B → ∃ W, StandsFor g B W) ∧ ∀ W, StandsFor g B W → B.iGrade = some (Module.finrank K W) := by
  refine ⟨fun W => ?_, fun B hB hb h0 => ⟨fun k hk => ?_, fun W h => ?_⟩⟩
  · obtain ⟨L, h1, h2⟩ := Spec.exists_bladeOf (g := g) W
    have r := rep_outerOf hs L
    exact ⟨_, r.wf, r.flag, (standsFor_iff hs r W).mpr ⟨1, L, one_ne_zero, h1, (one_smul _ _).symm, h2⟩⟩
  · have r := Rep.of_wf hB hb
    obtain ⟨W, hW⟩ := ((bladeOfGrade_iff hs r k).mp hk).bladeOf ((isZero_false r).mp h0)
    exact ⟨W, (standsFor_iff hs r W).mpr hW⟩
  · have r := Rep.of_wf hB hb
    have h' := (standsFor_iff hs r W).mp h
    exact iGrade_of r h'.homogeneous h'.ne_zero

/-- C110: two multivectors stand for the same subspace exactly if they are multiples of each other. -/
theorem C110_unique (hs : g.IsSymm) (hB : B.WF g) (hb : B.isBladeRep = true) (hB' : B'.WF g) (hb' : B'.isBladeRep = true)
    (h : StandsFor g B W) (h' : StandsFor g B' W') : W = W' ↔ ∃ c : K, c ≠ 0 ∧ B.eq g (B'.smul c) = true := by
  have r := Rep.of_wf hB hb
  have r' := Rep.of_wf hB' hb'
  rw [((standsFor_iff hs r W).mp h).unique ((standsFor_iff hs r' W').mp h')]
  refine exists_congr fun c => and_congr_right fun _ => ?_
  rw [r.eq_iff hs (r'.smul c)]

/-- C110: a subspace is contained in another one exactly if its multivector is a factor: `B' == B ^ C` for some `C`. -/
theorem C110_subset (hs : g.IsSymm) (hB : B.WF g) (hb : B.isBladeRep = true) (hB' : B'.WF g) (hb' : B'.isBladeRep = true)
    (h : StandsFor g B W) (h' : StandsFor g B' W') :
    W ≤ W' ↔ ∃ C : Mv K n, C.WF g ∧ B'.eq g (B.wedge g C) = true := by
  have r := Rep.of_wf hB hb
  have r' := Rep.of_wf hB' hb'
  rw [((standsFor_iff hs r W).mp h).le_iff ((standsFor_iff hs r' W').mp h')]
  constructor
  · rintro ⟨z, hz⟩
    obtain ⟨E, hE, rfl⟩ := exists_expr g z
    have hC := Rep.ofExpr (g := g) hE
    exact ⟨_, hC.wf, by rw [r'.eq_iff hs (r.wedge hs hC), hz]⟩
  · rintro ⟨C, hC, e⟩
    have w := wedge_spec' hs hB hC
    rw [eq_spec hs hB' w.1, w.2] at e
    exact ⟨_, e⟩

/-- C110: `v < B == 0` exactly for the vectors `v` that are orthogonal to the subspace. -/
theorem C110_orthogonal (hs : g.IsSymm) (hB : B.WF g) (hb : B.isBladeRep = true) (h : StandsFor g B W) (v : Fin n → K) :
    ((Mv.vector v).left g B).isZero = true ↔ v ∈ (Matrix.toBilin' g).orthogonal W := by
  have r := Rep.of_wf hB hb
  have l := (Rep.vector (g := g) v).left hs r
  rw [isZero_iff l.wf, l.val, Spec.lc_vec, ((standsFor_iff hs r W).mp h).con_eq_zero, Spec.mem_perp hs]

/-- C110: `B ^ B'` is zero exactly if the subspaces have a common vector other than zero, and otherwise it stands for their
sum. -/
theorem C110_join (hs : g.IsSymm) (hB : B.WF g) (hb : B.isBladeRep = true) (hB' : B'.WF g) (hb' : B'.isBladeRep = true)
    (h : StandsFor g B W) (h' : StandsFor g B' W') :
    ((B.wedge g B').isZero = false ↔ Disjoint W W') ∧ (Disjoint W W' → StandsFor g (B.wedge g B') (W ⊔ W')) := by
  have r := Rep.of_wf hB hb
  have r' := Rep.of_wf hB' hb'
  have w := r.wedge hs r'
  have k := ((standsFor_iff hs r W).mp h).wedge ((standsFor_iff hs r' W').mp h')
  exact ⟨by rw [isZero_false w, k.1], fun hd => (standsFor_iff hs w _).mpr (k.2 hd)⟩

/-- C110: a linear transformation maps the multivector of a subspace to zero exactly if it maps a vector of the subspace
other than zero to zero, and otherwise to a multivector that stands for the image. -/
theorem C110_image (hs : g.IsSymm) {L : Lt K n} (hL : L.WF) {M : Matrix (Fin n) (Fin n) K} (hM : L.matrix = some M)
    (hB : B.WF g) (hb : B.isBladeRep = true) (h : StandsFor g B W) :
    ((L.call g B).isZero = false ↔ Disjoint W (LinearMap.ker M.mulVecLin)) ∧
    (Disjoint W (LinearMap.ker M.mulVecLin) → StandsFor g (L.call g B) (W.map M.mulVecLin)) := by
  rw [hL.matrix] at hM
  cases hM
  have r := Rep.of_wf hB hb
  have c := Rep.call hs hL r
  have k := ((standsFor_iff hs r W).mp h).outer L.mat
  exact ⟨by rw [isZero_false c, k.1], fun hd => (standsFor_iff hs c _).mpr (k.2 hd)⟩

/-- C110: which multivectors of one grade are blades: those that are annihilated by a subspace of this dimension. -/
theorem C110_blade_iff (hs : g.IsSymm) (hB : B.WF g) (hb : B.isBladeRep = true) {k : ℕ} (hk : B.iGrade = some k)
    (h0 : B.isZero = false) :
    BladeOfGrade g k B ↔ ∃ W : Submodule K (Fin n → K), Module.finrank K W = k ∧
      ∀ v ∈ W, ((Mv.vector v).wedge g B).isZero = true := by
  have r := Rep.of_wf hB hb
  have hx : Spec.Homogeneous g k (B.val g) := ((iGrade_eq_some r k).mp hk).1
  rw [bladeOfGrade_iff hs r]
  constructor
  · intro h
    obtain ⟨W, hW⟩ := h.bladeOf ((isZero_false r).mp h0)
    refine ⟨W, ?_, fun v hv => ((standsFor_iff hs r W).mpr hW).vectors v |>.mpr hv⟩
    by_contra hne
    exact hW.ne_zero (Spec.homogeneous_ne hne hW.homogeneous hx)
  · rintro ⟨W, hW, hv⟩
    obtain ⟨L, h1, h2⟩ := Spec.exists_bladeOf (g := g) W
    have hl : L.length = k := by rw [Spec.length_eq_finrank h1, h2, hW]
    obtain ⟨c, hc⟩ := Spec.eq_smul_of_wedgeL h1 (hl ▸ hx) fun v hm => by
      have w := (Rep.vector (g := g) v).wedge hs r
      have := hv v (h2 ▸ Spec.mem_spanL hm)
      rwa [isZero_iff w.wf, w.val] at this
    exact ⟨c, L, hl, hc⟩

/-- The quadratic form of an exterior product of vectors is the determinant of their inner products. -/
theorem qform_outerOf (hs : g.IsSymm) {k : ℕ} (v : Fin k → Fin n → K) :
    (outerOf g (List.ofFn v)).qform g = (Matrix.of fun i j => Matrix.toBilin' g (v i) (v j)).det := by
  have e : outerOf g (List.ofFn v) = vecWedge g (List.ofFn v) := by
    generalize List.ofFn v = L
    induction L with
    | nil => rfl
    | cons w L ih => rw [vecWedge, ← ih]; rfl
  have r := vecWedge_rep hs (List.ofFn v)
  have rr := r.rev hs
  rw [e, Mv.qform, (C103_scalar hs rr.wf r.wf r.wf rr.flag r.flag r.flag).1, (C103_gram hs v v).2]
  congr 1
  ext i j
  rw [Matrix.of_apply, Matrix.of_apply, Matrix.toBilin'_apply]
  exact Finset.sum_congr rfl fun a _ => Finset.sum_congr rfl fun b _ => by ring

theorem det_gram_ne_zero {k : ℕ} {v : Fin k → Fin n → K} (h : LinearIndependent K v) :
    (Matrix.of fun i j => Matrix.toBilin' g (v i) (v j)).det ≠ 0 ↔
      Disjoint (Submodule.span K (Set.range v)) ((Matrix.toBilin' g).orthogonal (Submodule.span K (Set.range v))) := by
  have key : ∀ c : Fin k → K, (Matrix.of fun i j => Matrix.toBilin' g (v i) (v j)).mulVec c = 0 ↔
      (∑ j, c j • v j) ∈ (Matrix.toBilin' g).orthogonal (Submodule.span K (Set.range v)) := fun c => by
    have e : ∀ i, (Matrix.of fun i j => Matrix.toBilin' g (v i) (v j)).mulVec c i =
        Matrix.toBilin' g (v i) (∑ j, c j • v j) := fun i => by
      rw [map_sum, Matrix.mulVec, dotProduct]
      exact Finset.sum_congr rfl fun j _ => by rw [Matrix.of_apply, map_smul, smul_eq_mul, mul_comm]
    rw [LinearMap.BilinForm.mem_orthogonal_iff]
    constructor
    · intro h0 w hw
      refine Submodule.span_induction (p := fun w _ => Matrix.toBilin' g w (∑ j, c j • v j) = 0) ?_ ?_ ?_ ?_ hw
      · rintro w ⟨i, rfl⟩
        rw [← e, h0, Pi.zero_apply]
      · rw [map_zero, LinearMap.zero_apply]
      · intro a b _ _ ha hb
        rw [map_add, LinearMap.add_apply, ha, hb, add_zero]
      · intro t a _ ha
        rw [map_smul, LinearMap.smul_apply, ha, smul_zero]
    · intro h0
      funext i
      rw [e, Pi.zero_apply]
      exact h0 (v i) (Submodule.subset_span ⟨i, rfl⟩)
  rw [Ne, ← Matrix.exists_mulVec_eq_zero_iff, Submodule.disjoint_def]
  push Not
  constructor
  · intro h0 u hu hu'
    obtain ⟨c, rfl⟩ := (Submodule.mem_span_range_iff_exists_fun K).mp hu
    by_contra hne
    exact h0 c (fun hc => hne (by simp [hc])) ((key c).mpr hu')
  · intro h0 c hc hm
    refine hc (funext fun i => ?_)
    exact Fintype.linearIndependent_iff.mp h c (h0 _ (Submodule.sum_mem _ fun j _ =>
      Submodule.smul_mem _ _ (Submodule.subset_span ⟨j, rfl⟩)) ((key c).mp hm)) i

/-- C110: `B.qform()` is not zero, so that projection and reflection are defined, exactly if no vector of the subspace
other than zero is orthogonal to the subspace. -/
theorem C110_qform (hs : g.IsSymm) (hB : B.WF g) (hb : B.isBladeRep = true) (h : StandsFor g B W) :
    B.qform g ≠ 0 ↔ Disjoint W ((Matrix.toBilin' g).orthogonal W) := by
  have r := Rep.of_wf hB hb
  obtain ⟨c, L, hc, hL, hx, rfl⟩ := (standsFor_iff hs r W).mp h
  have h1 : L = List.ofFn fun i : Fin L.length => L[i] := by simp
  have hL' := hL
  rw [h1, Spec.wedgeL_ofFn_ne_zero] at hL'
  have h3 : Spec.spanL L = Submodule.span K (Set.range fun i : Fin L.length => L[i]) := by rw [← Spec.spanL_ofFn, ← h1]
  have h2 : B.qform g = c * c * (outerOf g L).qform g := by
    refine algebraMap_inj g ?_
    rw [qform_val hs r, map_mul (algebraMap K _), qform_val hs (rep_outerOf hs L), hx, map_smul, smul_mul_smul_comm,
      map_smul, Algebra.smul_def]
  have h4 := qform_outerOf hs fun i : Fin L.length => L[i]
  rw [← h1] at h4
  rw [h2, h4, h3, ← det_gram_ne_zero hL', mul_ne_zero_iff]
  exact and_iff_right (mul_ne_zero hc hc)

/-- C110: the projection of a vector is the vector of the subspace whose difference to it is orthogonal to the subspace. -/
theorem C110_projection (hs : g.IsSymm) (hB : B.WF g) (hb : B.isBladeRep = true) (h : StandsFor g B W) (hW : W ≠ ⊥)
    (hd : Disjoint W ((Matrix.toBilin' g).orthogonal W)) (v : Fin n → K) :
    ∃ u ∈ W, v - u ∈ (Matrix.toBilin' g).orthogonal W ∧
      ∃ P, (Mv.vector v).projectInBlade g B = some P ∧ P.eq g (Mv.vector u) = true := by
  have r := Rep.of_wf hB hb
  have hq := (C110_qform hs hB hb h).mpr hd
  obtain ⟨c, L, hc, hL, hx, hW'⟩ := (standsFor_iff hs r W).mp h
  have hne : L ≠ [] := by
    rintro rfl
    exact hW (by rw [← hW', Spec.spanL]; simp)
  obtain ⟨L', -, hL'⟩ := Spec.smul_wedgeL (g := g) hne c
  obtain ⟨u, P, h1, h2, h3, h4⟩ := C28_vector hs v ⟨hB, hb, L', by rw [hx, hL']; rfl⟩ hq
  have ru := Rep.vector (g := g) u
  have hP : P.WF g := by
    obtain ⟨P', e1, e2⟩ := C28_defined hs (Rep.vector (g := g) v).wf ⟨hB, hb, L', by rw [hx, hL']; rfl⟩ hq
    rw [h1] at e1
    exact Option.some.inj e1 ▸ e2
  rw [eq_spec hs hP ru.wf, ru.val] at h2
  refine ⟨u, ?_, ?_, P, h1, by rw [eq_spec hs hP ru.wf, ru.val, h2]⟩
  · have w := wedge_spec' hs hP hB
    rw [isZero_iff w.1, w.2, h2] at h3
    rw [← h.vectors u, isZero_iff (ru.wedge hs r).wf, (ru.wedge hs r).val, h3]
  · rw [← C110_orthogonal hs hB hb h]
    have rv := Rep.vector (g := g) v
    have rvu := Rep.vector (g := g) (v - u)
    have s := sub_spec hs rv.wf hP
    have l := left_spec hs s.1 hB
    rw [isZero_iff l.1, l.2, s.2, h2, rv.val, ← map_sub_vec] at h4
    rw [isZero_iff (rvu.left hs r).wf, (rvu.left hs r).val, h4]

section dual
variable {sqrt : K → K} {plus : Bool} {i iInv : Mv K n}

/-- What `dual` and `undual` do to blades of a subspace. -/
theorem dual_bladeOf (hs : g.IsSymm) (hI : normI g sqrt plus = some (i, iInv))
    (hsq : sqrt (if plus then eSq g else -eSq g) * sqrt (if plus then eSq g else -eSq g) =
      if plus then eSq g else -eSq g)
    {mode : String} (hm : mode ∈ dualModeLst) : g.det ≠ 0 ∧
    (∀ A x, Rep g A x → Spec.BladeOf g W x → ∃ y, Rep g (A.dual g i iInv mode) y ∧ Spec.BladeOf g (Spec.perp g W) y) ∧
    (∀ A x, Rep g A x → Spec.BladeOf g W x → ∃ y, Rep g (A.undual g i iInv mode) y ∧ Spec.BladeOf g (Spec.perp g W) y) ∧
    ∀ A, Rep g A 0 → Rep g (A.undual g i iInv mode) 0 := by
  obtain ⟨c, h1, h2, h3⟩ := normI_spec hs hI hsq
  have hcc : c * c * eSq g ≠ 0 := by rw [h3]; cases plus <;> simp
  have hc : c ≠ 0 := fun h => hcc (by rw [h]; ring)
  have hd : g.det ≠ 0 := fun h => hcc (by rw [eSq_eq hs, h]; ring)
  have hp : ∀ {A : Mv K n} {y : Spec.Cl g}, Rep g A y → Rep g ((i.pow g 2).mul g A) ((c * c * eSq g) • y) := fun hA =>
    (Rep.mul hs (Rep.pow hs h1 2) hA).congr (by rw [pow_two, smul_pseudo_sq hs, ← Algebra.smul_def])
  obtain ⟨k, hk, hd'⟩ := dual_spec hs h1 h2 hm
  have hk0 : k ≠ 0 := by
    have : (if plus then c else -c) ≠ 0 := by cases plus <;> simp [hc]
    rcases hk with rfl | rfl | rfl | rfl
    exacts [hc, neg_ne_zero.mpr hc, this, neg_ne_zero.mpr this]
  have key : ∀ A x, Rep g A x → Spec.BladeOf g W x →
      ∃ y, Rep g (A.dual g i iInv mode) y ∧ Spec.BladeOf g (Spec.perp g W) y := fun A x hA hx => by
    rcases hd' with h | h
    · exact ⟨_, h A x hA, (hx.pseudo_mul hs hd).smul hk0⟩
    · exact ⟨_, h A x hA, (hx.mul_pseudo hs hd).smul hk0⟩
  refine ⟨hd, key, fun A x hA hx => ?_, fun A hA => ?_⟩
  · obtain ⟨y, h4, h5⟩ := key A x hA hx
    exact ⟨_, hp h4, h5.smul hcc⟩
  · have h0 : Rep g (A.dual g i iInv mode) 0 := by
      rcases hd' with h | h
      · exact (h A 0 hA).congr (by rw [mul_zero, smul_zero])
      · exact (h A 0 hA).congr (by rw [zero_mul, smul_zero])
    exact (hp h0).congr (smul_zero _)

/-- C110: in every dual mode the dual of a multivector that stands for a subspace stands for the orthogonal complement, and
so does `undual`. -/
theorem C110_dual (hs : g.IsSymm) (hI : normI g sqrt plus = some (i, iInv))
    (hsq : sqrt (if plus then eSq g else -eSq g) * sqrt (if plus then eSq g else -eSq g) =
      if plus then eSq g else -eSq g)
    {mode : String} (hm : mode ∈ dualModeLst) (hB : B.WF g) (hb : B.isBladeRep = true) (h : StandsFor g B W) :
    StandsFor g (B.dual g i iInv mode) ((Matrix.toBilin' g).orthogonal W) ∧
    StandsFor g (B.undual g i iInv mode) ((Matrix.toBilin' g).orthogonal W) := by
  have r := Rep.of_wf hB hb
  obtain ⟨-, h1, h2, -⟩ := dual_bladeOf (W := W) hs hI hsq hm
  obtain ⟨y, hy, hy'⟩ := h1 B _ r ((standsFor_iff hs r W).mp h)
  obtain ⟨z, hz, hz'⟩ := h2 B _ r ((standsFor_iff hs r W).mp h)
  exact ⟨(standsFor_iff hs hy _).mpr hy', (standsFor_iff hs hz _).mpr hz'⟩

/-- C110: `(B.dual() ^ B'.dual()).undual()` is zero exactly if the subspaces do not span the whole space, and otherwise it
stands for their intersection. -/
theorem C110_meet (hs : g.IsSymm) (hI : normI g sqrt plus = some (i, iInv))
    (hsq : sqrt (if plus then eSq g else -eSq g) * sqrt (if plus then eSq g else -eSq g) =
      if plus then eSq g else -eSq g)
    {mode : String} (hm : mode ∈ dualModeLst) (hB : B.WF g) (hb : B.isBladeRep = true) (hB' : B'.WF g)
    (hb' : B'.isBladeRep = true) (h : StandsFor g B W) (h' : StandsFor g B' W') :
    ((((B.dual g i iInv mode).wedge g (B'.dual g i iInv mode)).undual g i iInv mode).isZero = false ↔ W ⊔ W' = ⊤) ∧
    (W ⊔ W' = ⊤ →
      StandsFor g (((B.dual g i iInv mode).wedge g (B'.dual g i iInv mode)).undual g i iInv mode) (W ⊓ W')) := by
  have r := Rep.of_wf hB hb
  have r' := Rep.of_wf hB' hb'
  obtain ⟨hd, h1, -, hz⟩ := dual_bladeOf (W := W) hs hI hsq hm
  obtain ⟨-, h1', -, -⟩ := dual_bladeOf (W := W') hs hI hsq hm
  obtain ⟨-, -, h2, -⟩ := dual_bladeOf (W := Spec.perp g W ⊔ Spec.perp g W') hs hI hsq hm
  obtain ⟨y, hy, hyW⟩ := h1 B _ r ((standsFor_iff hs r W).mp h)
  obtain ⟨y', hy', hyW'⟩ := h1' B' _ r' ((standsFor_iff hs r' W').mp h')
  have w := hy.wedge hs hy'
  obtain ⟨k1, k2⟩ := hyW.wedge hyW'
  rw [Spec.disjoint_perp hs hd] at k1 k2
  have key : W ⊔ W' = ⊤ →
      StandsFor g (((B.dual g i iInv mode).wedge g (B'.dual g i iInv mode)).undual g i iInv mode) (W ⊓ W') := fun ht => by
    obtain ⟨z, hz, hz'⟩ := h2 _ _ w (k2 ht)
    rw [← Spec.perp_inf hs hd, Spec.perp_perp hs hd] at hz'
    exact (standsFor_iff hs hz _).mpr hz'
  refine ⟨⟨fun h0 => ?_, fun ht => (key ht).notZero⟩, key⟩
  by_contra hne
  have h3 : Spec.wedge g y y' = 0 := by
    by_contra h4
    exact hne (k1.mp h4)
  have h5 := hz _ (w.congr h3)
  exact (isZero_false h5).mp h0 rfl

end dual

namespace Ex

/-- Two planes of the algebra with the metric `gN`. -/
def plane1 : Mv ℚ 3 := outerOf gN (List.ofFn ![![1, 2, 0], ![0, 1, 1]])
def plane2 : Mv ℚ 3 := outerOf gN (List.ofFn ![![1, 0, 0], ![0, 1, -1]])

/-- The subspaces of the two planes. -/
def sub1 : Submodule ℚ (Fin 3 → ℚ) := Submodule.span ℚ (Set.range ![![1, 2, 0], ![0, 1, 1]])
def sub2 : Submodule ℚ (Fin 3 → ℚ) := Submodule.span ℚ (Set.range ![![1, 0, 0], ![0, 1, -1]])

theorem plane1_ok : plane1.WF gN ∧ plane1.isBladeRep = true ∧ StandsFor gN plane1 sub1 :=
  ⟨(rep_outerOf gN_symm _).wf, (rep_outerOf gN_symm _).flag,
    (C110_span gN_symm _).2 ((C110_span gN_symm _).1.mp (by decide +kernel))⟩

theorem plane2_ok : plane2.WF gN ∧ plane2.isBladeRep = true ∧ StandsFor gN plane2 sub2 :=
  ⟨(rep_outerOf gN_symm _).wf, (rep_outerOf gN_symm _).flag,
    (C110_span gN_symm _).2 ((C110_span gN_symm _).1.mp (by decide +kernel))⟩

/-- Three vectors of a plane are linearly dependent, which `^` shows. -/
example : ¬ LinearIndependent ℚ (![![1, 2, 0], ![0, 1, 1], ![1, 3, 1]] : Fin 3 → Fin 3 → ℚ) := by
  rw [← (C110_span gN_symm _).1]
  decide +kernel

/-- A vector of the first plane and one that is not in it. -/
example : ![2, 5, 1] ∈ sub1 ∧ ![2, 5, 2] ∉ sub1 := by
  rw [← plane1_ok.2.2.vectors, ← plane1_ok.2.2.vectors]
  decide +kernel

/-- The planes are different, none contains the other one. -/
example : sub1 ≠ sub2 := by
  intro h
  have h1 := plane1_ok.2.2.vectors ![1, 0, 0]
  have h2 := plane2_ok.2.2.vectors ![1, 0, 0]
  rw [h, ← h2] at h1
  revert h1
  decide +kernel

/-- The planes meet in a line, which stands for the intersection. -/
example : StandsFor gN ((((plane1.dual gN (Mv.ofExpr [(1/3, .blade [0, 1, 2])]) (Mv.ofExpr [(1/3, .blade [0, 1, 2])]) "I+").wedge gN
      (plane2.dual gN (Mv.ofExpr [(1/3, .blade [0, 1, 2])]) (Mv.ofExpr [(1/3, .blade [0, 1, 2])]) "I+")).undual gN
      (Mv.ofExpr [(1/3, .blade [0, 1, 2])]) (Mv.ofExpr [(1/3, .blade [0, 1, 2])]) "I+")) (sub1 ⊓ sub2) := by
  have h := C110_meet gN_symm normI_gN sqrt9_ok (mode := "I+") (by decide) plane1_ok.1 plane1_ok.2.1 plane2_ok.1
    plane2_ok.2.1 plane1_ok.2.2 plane2_ok.2.2
  exact h.2 (h.1.mp (by decide +kernel))

/-- The dual of a plane stands for the vectors orthogonal to it. -/
example : StandsFor gN (plane1.dual gN (Mv.ofExpr [(1/3, .blade [0, 1, 2])]) (Mv.ofExpr [(1/3, .blade [0, 1, 2])]) "-Iinv")
    ((Matrix.toBilin' gN).orthogonal sub1) :=
  (C110_dual gN_symm normI_gN sqrt9_ok (by decide) plane1_ok.1 plane1_ok.2.1 plane1_ok.2.2).1

/-- The quadratic form of the first plane is not zero, and vectors are projected into it. -/
example : ∃ u ∈ sub1, ![1, 0, 0] - u ∈ (Matrix.toBilin' gN).orthogonal sub1 ∧
    ∃ P, (Mv.vector ![1, 0, 0]).projectInBlade gN plane1 = some P ∧ P.eq gN (Mv.vector u) = true :=
  C110_projection gN_symm plane1_ok.1 plane1_ok.2.1 plane1_ok.2.2
    (fun h => by
      have h1 := (plane1_ok.2.2.vectors ![1, 2, 0]).mp (by decide +kernel)
      rw [h, Submodule.mem_bot] at h1
      revert h1
      decide +kernel)
    ((C110_qform gN_symm plane1_ok.1 plane1_ok.2.1 plane1_ok.2.2).mp (by decide +kernel)) _

/-- The image of the plane under a transformation. -/
example : StandsFor gN (L.call gN plane1) (sub1.map L.mat.mulVecLin) := by
  have h := C110_image gN_symm L_wf L_wf.matrix plane1_ok.1 plane1_ok.2.1 plane1_ok.2.2
  exact h.2 (h.1.mp (by decide +kernel))

/-- A plane and a line outside it span the space. -/
example : StandsFor gN (plane1.wedge gN (outerOf gN (List.ofFn ![![1, 0, 0]])))
    (sub1 ⊔ Submodule.span ℚ (Set.range ![![1, 0, 0]])) := by
  have r := rep_outerOf gN_symm (List.ofFn ![![(1 : ℚ), 0, 0]])
  have h := C110_join gN_symm plane1_ok.1 plane1_ok.2.1 r.wf r.flag plane1_ok.2.2
    ((C110_span gN_symm ![![(1 : ℚ), 0, 0]]).2 ((C110_span gN_symm _).1.mp (by decide +kernel)))
  exact h.2 (h.1.mp (by decide +kernel))

end Ex

end GA
