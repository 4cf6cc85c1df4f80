import Verif.Model.Norm
import Verif.Proofs.OrthoBasis
import Verif.Proofs.Flags
import Verif.Proofs.Examples
import Verif.Proofs.Blade

/-!
# C31: quadratic form, norm squared and magnitude squared

`coeff A.obj l` is the coefficient of the basis blade with the increasing indices `l`.
-/

set_option linter.unusedSectionVars false
set_option maxRecDepth 10000

namespace GA

section ring
variable {n : ℕ} {R : Type*} [CommRing R] [DecidableEq R] [Invertible (2 : R)] [Nontrivial R]
  {g : Matrix (Fin n) (Fin n) R}

theorem ip_single (hs : g.IsSymm) (i j : Fin n) :
    Spec.ip g (Pi.single i 1) (Pi.single j 1) = g i j := by
  rw [Spec.ip, Spec.associated_vec hs]
  simp [Pi.single_apply]

theorem qform_grade (hs : g.IsSymm) {A : Mv R n} {x : Spec.Cl g} (hA : Rep g A x) :
    algebraMap R _ (A.qform g) = Spec.grade g 0 (CliffordAlgebra.reverse x * x) :=
  ((hA.rev hs).mul hs hA).scalar

/-- C31: in an orthogonal basis the quadratic form is the sum over all basis blades of the squared
coefficient times the product of the squares of the basis vectors of the blade. -/
theorem C31_qform (hd : ∀ i j, i ≠ j → g i j = 0) {A : Mv R n} (hA : A.WF g)
    (hb : A.isBladeRep = true) :
    A.qform g = ∑ s : Finset (Fin n), coeff A.obj (s.sort (· ≤ ·)) ^ 2 * ∏ i ∈ s, g i i := by
  have hs : g.IsSymm := by
    ext i j
    by_cases h : i = j
    · rw [h]; rfl
    · rw [Matrix.transpose_apply, hd i j h, hd j i (Ne.symm h)]
  have hr := Rep.of_wf hA hb
  have h1 := qform_grade hs hr
  have ho : ∀ i j, i ≠ j → Spec.ip g (Pi.basisFun R (Fin n) i) (Pi.basisFun R (Fin n) j) = 0 := by
    intro i j hij
    simp only [Pi.basisFun_apply]
    rw [ip_single hs, hd i j hij]
  rw [Spec.qform_sum ho] at h1
  rw [algebraMap_inj g h1]
  refine Finset.sum_congr rfl fun s _ => ?_
  rw [Mv.val, toExt_den g hr.valid]
  congr 1
  exact Finset.prod_congr rfl fun i _ => by simp only [Pi.basisFun_apply]; exact ip_single hs i i

end ring

section field
variable {n : ℕ} {K : Type*} [Field K] [LinearOrder K] [IsStrictOrderedRing K] [Invertible (2 : K)]
  {g : Matrix (Fin n) (Fin n) K}

/-- C31: with non-negative squares the quadratic form is not negative. -/
theorem C31_nonneg (hd : ∀ i j, i ≠ j → g i j = 0) (hp : ∀ i, 0 ≤ g i i) {A : Mv K n}
    (hA : A.WF g) (hb : A.isBladeRep = true) : 0 ≤ A.qform g := by
  rw [C31_qform hd hA hb]
  exact Finset.sum_nonneg fun s _ => mul_nonneg (sq_nonneg _) (Finset.prod_nonneg fun i _ => hp i)

theorem ip_self (hs : g.IsSymm) (v : Fin n → K) :
    Spec.ip g v v = ∑ i, ∑ j, v i * g i j * v j := by
  rw [Spec.ip, Spec.associated_vec hs]
  exact Finset.sum_congr rfl fun i _ => Finset.sum_congr rfl fun j _ => by ring

theorem qform_posdef (hs : g.IsSymm)
    (hp : ∀ v : Fin n → K, v ≠ 0 → 0 < ∑ i, ∑ j, v i * g i j * v j) {A : Mv K n} {x : Spec.Cl g}
    (hA : Rep g A x) : 0 ≤ A.qform g ∧ (A.qform g = 0 → x = 0) := by
  obtain ⟨b, ho⟩ := Spec.exists_ortho g
  have h1 := qform_grade hs hA
  rw [Spec.qform_sum ho] at h1
  have h2 := algebraMap_inj g h1
  have hb : ∀ i, 0 < Spec.ip g (b i) (b i) := fun i => by
    rw [ip_self hs]; exact hp _ (b.ne_zero i)
  have hpos : ∀ s : Finset (Fin n), 0 < ∏ i ∈ s, Spec.ip g (b i) (b i) := fun s =>
    Finset.prod_pos fun i _ => hb i
  have hnn : ∀ s ∈ Finset.univ, 0 ≤ (b.ExteriorAlgebra.repr (Spec.toExt g x) s) ^ 2 *
      ∏ i ∈ s, Spec.ip g (b i) (b i) := fun s _ => mul_nonneg (sq_nonneg _) (hpos s).le
  refine ⟨by rw [h2]; exact Finset.sum_nonneg hnn, fun h0 => ?_⟩
  rw [h2, Finset.sum_eq_zero_iff_of_nonneg hnn] at h0
  apply (Spec.toExt g).injective
  apply b.ExteriorAlgebra.repr.injective
  ext s
  have := h0 s (Finset.mem_univ s)
  rcases mul_eq_zero.mp this with h | h
  · rw [map_zero, map_zero, Finsupp.coe_zero, Pi.zero_apply]
    exact pow_eq_zero_iff two_ne_zero |>.mp h
  · exact absurd h (hpos s).ne'

/-- C31: for a positive definite metric (orthogonal basis or not) the quadratic form is not
negative, and it is zero only for `A = 0`. -/
theorem C31_positive_definite (hs : g.IsSymm)
    (hp : ∀ v : Fin n → K, v ≠ 0 → 0 < ∑ i, ∑ j, v i * g i j * v j) {A : Mv K n}
    (hA : A.WF g) (hb : A.isBladeRep = true) :
    0 ≤ A.qform g ∧ (A.qform g = 0 ↔ A.isZero = true) := by
  have hr := Rep.of_wf hA hb
  obtain ⟨h1, h2⟩ := qform_posdef hs hp hr
  refine ⟨h1, fun h => (isZero_iff hA).mpr (h2 h), fun h => ?_⟩
  have h0 := (isZero_iff hA).mp h
  have := qform_grade hs hr
  rw [h0, mul_zero, map_zero] at this
  exact algebraMap_inj g (by rw [this, map_zero])

/-- The tests are right about the sign when they answer `True`. -/
structure SignTests.Sound (T : SignTests K) : Prop where
  ge0 : ∀ x, T.ge0 x = true → 0 ≤ x
  le0 : ∀ x, T.le0 x = true → x ≤ 0

theorem absWithHint_spec {T : SignTests K} (hT : T.Sound) {hint : String} {x y : K}
    (hplus : hint = "+" → 0 ≤ x) (hminus : hint = "-" → x ≤ 0)
    (h : absWithHint T hint x = some y) : y = |x| := by
  rw [absWithHint] at h
  split_ifs at h with h1 h2 h3 h4 h5 h6
  · exact (Option.some.inj h).symm
  · rw [← Option.some.inj h, abs_of_nonneg (hT.ge0 x h2)]
  · rw [← Option.some.inj h, abs_of_nonpos (hT.le0 x h3)]
  · exact (Option.some.inj h).symm
  · rw [← Option.some.inj h, abs_of_nonneg (hplus h5)]
  · rw [← Option.some.inj h, abs_of_nonpos (hminus h6)]

/-- C31: when the hint is truthful and the metric is only declared positive definite if it is, then
`norm2` is the absolute value of the quadratic form. -/
theorem C31_norm2 (hs : g.IsSymm) {T : SignTests K} (hT : T.Sound) {posDef : Bool}
    (hp : posDef = true → ∀ v : Fin n → K, v ≠ 0 → 0 < ∑ i, ∑ j, v i * g i j * v j)
    {hint : String} {A : Mv K n} (hA : A.WF g) (hb : A.isBladeRep = true)
    (hplus : hint = "+" → 0 ≤ A.qform g) (hminus : hint = "-" → A.qform g ≤ 0) {y : K}
    (h : A.norm2 g T posDef hint = some y) : y = |A.qform g| := by
  rw [Mv.norm2] at h
  split_ifs at h with h1
  · rw [← Option.some.inj h, abs_of_nonneg (qform_posdef hs (hp h1) (Rep.of_wf hA hb)).1]
  · exact absWithHint_spec hT hplus hminus h

/-- C31: `norm2` raises at most for a hint other than `'0'`, `'+'`, `'-'`. -/
theorem C31_norm2_defined (T : SignTests K) (posDef : Bool) {hint : String} (A : Mv K n)
    (h : hint = "0" ∨ hint = "+" ∨ hint = "-") : (A.norm2 g T posDef hint).isSome = true := by
  rw [Mv.norm2, absWithHint]
  split_ifs <;> simp_all

/-- C31: the quadratic form is the sum of those of the grade parts. -/
theorem C31_qform_grades (hs : g.IsSymm) {A : Mv K n} (hA : A.WF g) (hb : A.isBladeRep = true) :
    A.qform g = ∑ k ∈ Finset.range (n + 1), (A.getGrade k).qform g := by
  have hr := Rep.of_wf hA hb
  apply algebraMap_inj g
  rw [qform_grade hs hr, map_sum]
  simp only [fun k => qform_grade hs (hr.getGrade k)]
  conv_lhs => rw [← sum_grade g (A.val g)]
  rw [map_sum, Finset.sum_mul, map_sum]
  refine Finset.sum_congr rfl fun k hk => ?_
  rw [Finset.mul_sum, map_sum, Finset.sum_eq_single k]
  · intro j _ hj
    rw [(Spec.homogeneous_reverse (Spec.homogeneous_grade k _)).2, smul_mul_assoc, map_smul,
      Spec.grade_zero_mul_of_ne (Spec.homogeneous_grade k _) (Spec.homogeneous_grade j _) hj.symm,
      smul_zero]
  · intro h; exact absurd hk h

/-- C31: `mag2` is the sum of the absolute values of the quadratic forms of the grade parts. -/
theorem C31_mag2 (hs : g.IsSymm) {T : SignTests K} (hT : T.Sound) {posDef : Bool}
    (hp : posDef = true → ∀ v : Fin n → K, v ≠ 0 → 0 < ∑ i, ∑ j, v i * g i j * v j)
    {A : Mv K n} (hA : A.WF g) (hb : A.isBladeRep = true) :
    A.mag2 g T posDef = some (∑ k ∈ Finset.range (n + 1), |(A.getGrade k).qform g|) := by
  have hr := Rep.of_wf hA hb
  have step : ∀ k, (A.getGrade k).norm2 g T posDef "0" = some |(A.getGrade k).qform g| := by
    intro k
    have hk := hr.getGrade k
    obtain ⟨y, hy⟩ := Option.isSome_iff_exists.mp
      (C31_norm2_defined (g := g) T posDef (hint := "0") (A.getGrade k) (Or.inl rfl))
    rw [hy, C31_norm2 hs hT hp hk.wf hk.flag (fun h => absurd h (by decide))
      (fun h => absurd h (by decide)) hy]
  have key : ∀ (l : List ℕ) (acc : K), l.foldlM (fun total k =>
      ((A.getGrade k).norm2 g T posDef "0").map fun y => total + |y|) acc =
      some (acc + (l.map fun k => |(A.getGrade k).qform g|).sum) := by
    intro l
    induction l with
    | nil => intro acc; simp
    | cons k l ih =>
      intro acc
      rw [List.foldlM_cons, step, Option.map_some]
      change List.foldlM _ _ l = _
      rw [ih, abs_abs, List.map_cons, List.sum_cons, add_assoc]
  rw [Mv.mag2, key, zero_add, Finset.sum_range, ← List.sum_ofFn, List.ofFn_eq_map]
  congr 2
  rw [← List.map_coe_finRange_eq_range, List.map_map]
  rfl

/-- C31: the magnitude is at least the norm; they agree for a positive definite metric. -/
theorem C31_norm2_le_mag2 (hs : g.IsSymm) {T : SignTests K} (hT : T.Sound) {posDef : Bool}
    (hp : posDef = true → ∀ v : Fin n → K, v ≠ 0 → 0 < ∑ i, ∑ j, v i * g i j * v j)
    {A : Mv K n} (hA : A.WF g) (hb : A.isBladeRep = true) {m : K}
    (hm : A.mag2 g T posDef = some m) :
    |A.qform g| ≤ m ∧
      ((∀ v : Fin n → K, v ≠ 0 → 0 < ∑ i, ∑ j, v i * g i j * v j) → m = A.qform g) := by
  rw [C31_mag2 hs hT hp hA hb] at hm
  rw [← Option.some.inj hm, C31_qform_grades hs hA hb]
  refine ⟨Finset.abs_sum_le_sum_abs _ _, fun hp' => Finset.sum_congr rfl fun k _ => ?_⟩
  have hr := (Rep.of_wf hA hb).getGrade k
  exact abs_of_nonneg (qform_posdef hs hp' hr).1

end field

/-- The hypotheses are met. -/
example : (∀ i j, i ≠ j → Ex.gO i j = 0) ∧ Ex.A.WF Ex.gO ∧ Ex.A.isBladeRep = true ∧
    Ex.A.qform Ex.gO = -4 :=
  ⟨Ex.gO_diag, Ex.A_wf _, Ex.A_blade, by decide +kernel⟩

/-- A positive definite non-orthogonal metric, and sound tests. -/
example : let g : Matrix (Fin 2) (Fin 2) ℚ := !![2, 1; 1, 1]
    (g.IsSymm ∧ ∀ v : Fin 2 → ℚ, v ≠ 0 → 0 < ∑ i, ∑ j, v i * g i j * v j) ∧
    (SignTests.mk (fun _ : ℚ => false) (fun x => decide (0 ≤ x)) (fun _ => false)).Sound := by
  intro g
  refine ⟨⟨?_, fun v hv => ?_⟩, ⟨fun x h => by simpa using h, fun x h => by simp at h⟩⟩
  · ext i j; fin_cases i <;> fin_cases j <;> rfl
  · have e : ∑ i, ∑ j, v i * g i j * v j = v 0 ^ 2 + (v 0 + v 1) ^ 2 := by
      simp only [Fin.sum_univ_two, g, Matrix.of_apply, Matrix.cons_val', Matrix.cons_val_zero,
        Matrix.cons_val_one, Matrix.cons_val_fin_one]
      ring
    rw [e]
    by_contra h
    have h0 : v 0 = 0 := by nlinarith [sq_nonneg (v 0), sq_nonneg (v 0 + v 1)]
    have h1 : v 1 = 0 := by rw [h0] at h; nlinarith [sq_nonneg (v 1)]
    exact hv (by ext i; fin_cases i <;> simp [h0, h1])

end GA
