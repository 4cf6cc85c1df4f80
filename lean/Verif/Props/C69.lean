import Verif.Spec.Root
import Verif.Props.C31
import Verif.Proofs.Signature

/-!
# C69: normalised bases; the norm and the magnitude (C31)

`F` are SymPy's `sqrt` and `sqf_list`, `T` the tests of signs.
-/

set_option linter.unusedSectionVars false
set_option maxRecDepth 10000

namespace GA

variable {n : ℕ} {K : Type*} [Field K] [LinearOrder K] [IsStrictOrderedRing K] [Invertible (2 : K)]
  {g : Matrix (Fin n) (Fin n) K}

theorem prod_nonneg_of_even {l : List (K × ℕ)} (h : ∀ p ∈ l, p.2 % 2 = 0) :
    0 ≤ (l.map fun p => p.1 ^ p.2).prod := by
  refine List.prod_nonneg fun x hx => ?_
  obtain ⟨p, hp, rfl⟩ := List.mem_map.mp hx
  exact (Nat.even_iff.mpr (h p hp)).pow_nonneg _

theorem sqrtLoop_spec {T : SignTests K} {F : RootFuns K} {hint : String} {x : K} :
    ∀ {l : List (K × ℕ)} {c y : K}, sqrtLoop T F hint x c l = some y →
      (∃ z, absWithHint T hint x = some z ∧ y = F.sqrt z) ∨
      ((∀ p ∈ l, p.2 % 2 = 0) ∧ y * y = c * c * (l.map fun p => p.1 ^ p.2).prod)
  | [], c, y, h => Or.inr ⟨by simp, by rw [sqrtLoop] at h; rw [← Option.some.inj h]; simp⟩
  | (f, m) :: l, c, y, h => by
    rw [sqrtLoop] at h
    split_ifs at h with hm
    · obtain ⟨z, hz, e⟩ := Option.map_eq_some_iff.mp h
      exact Or.inl ⟨z, hz, e.symm⟩
    · rcases sqrtLoop_spec h with h | ⟨h1, h2⟩
      · exact Or.inl h
      · have hm' : m % 2 = 0 := by simpa using hm
        refine Or.inr ⟨fun p hp => ?_, ?_⟩
        · rcases List.mem_cons.mp hp with rfl | hp
          · exact hm'
          · exact h1 p hp
        · have e : m = m / 2 + m / 2 := by omega
          rw [h2, List.map_cons, List.prod_cons]
          conv_rhs => rw [show (f, m).1 ^ (f, m).2 = f ^ (m / 2) * f ^ (m / 2) by
            rw [← pow_add, ← e]]
          ring

/-- What `square_root_of_expr` returns squares to the absolute value of its argument, if the hint is
truthful. -/
theorem squareRoot_spec {T : SignTests K} (hT : T.Sound) {F : RootFuns K} (hF : F.Laws) {hint : String}
    {x y : K} (hplus : hint = "+" → 0 ≤ x) (hminus : hint = "-" → x ≤ 0)
    (h : squareRootOfExpr T F hint x = some y) : y * y = |x| := by
  have habs : ∀ z, absWithHint T hint x = some z → F.sqrt z * F.sqrt z = |x| := by
    intro z hz
    have := absWithHint_spec hT hplus hminus hz
    rw [this, hF.sqrt_sq _ (abs_nonneg x)]
  rw [squareRootOfExpr] at h
  split_ifs at h with h1
  · obtain ⟨z, hz, e⟩ := Option.map_eq_some_iff.mp h
    rw [← e]; exact habs z hz
  · rcases sqrtLoop_spec h with ⟨z, hz, e⟩ | ⟨h2, h3⟩
    · rw [e]; exact habs z hz
    · rw [h3]
      conv_rhs => rw [hF.sqf x, abs_mul, abs_of_nonneg (prod_nonneg_of_even h2)]
      congr 1
      split_ifs with hc
      · exact hF.sqrt_sq _ (abs_nonneg _)
      · rw [not_not.mp hc]; simp

theorem sqrtLoop_isSome {T : SignTests K} {F : RootFuns K} {hint : String} {x : K}
    (h : (absWithHint T hint x).isSome = true) :
    ∀ (l : List (K × ℕ)) (c : K), (sqrtLoop T F hint x c l).isSome = true
  | [], c => rfl
  | (f, m) :: l, c => by
    rw [sqrtLoop]
    split_ifs
    · simpa using h
    · exact sqrtLoop_isSome h l _

theorem squareRoot_isSome (T : SignTests K) (F : RootFuns K) {hint : String} (x : K)
    (h : hint = "0" ∨ hint = "+" ∨ hint = "-") : (squareRootOfExpr T F hint x).isSome = true := by
  have ha : (absWithHint T hint x).isSome = true := by
    rw [absWithHint]; split_ifs <;> simp_all
  rw [squareRootOfExpr]
  split_ifs
  · simpa using ha
  · exact sqrtLoop_isSome ha _ _

/-- C69: `Ga(…, norm=True)` raises exactly for metrics that are not orthogonal.  Otherwise the lengths
satisfy `e_norm[i]^2 = |g_ii|`. -/
theorem C69_lengths {T : SignTests K} (hT : T.Sound) {F : RootFuns K} (hF : F.Laws) :
    (isOrtho g = false → eNorm T F true g = none) ∧
    (isOrtho g = true → ∃ N, eNorm T F true g = some (some N) ∧ ∀ i, N i * N i = |g i i|) := by
  refine ⟨fun h => by simp [eNorm, h], fun h => ?_⟩
  have hm : ∀ l : List (Fin n), l.mapM (fun i => squareRootOfExpr T F "0" (g i i)) =
      some (l.map fun i => (squareRootOfExpr T F "0" (g i i)).getD 0) := by
    intro l
    induction l with
    | nil => rfl
    | cons i l ih =>
      obtain ⟨y, hy⟩ := Option.isSome_iff_exists.mp (squareRoot_isSome T F (g i i) (Or.inl rfl))
      rw [List.mapM_cons, hy, ih, List.map_cons, hy]; rfl
  refine ⟨_, by rw [eNorm, if_pos rfl, if_pos h, hm]; rfl, fun i => ?_⟩
  obtain ⟨y, hy⟩ := Option.isSome_iff_exists.mp (squareRoot_isSome T F (g i i) (Or.inl rfl))
  have : ((List.finRange n).map fun i => (squareRootOfExpr T F "0" (g i i)).getD 0).getD i 0 = y := by
    simp [hy]
  rw [this]
  exact squareRoot_spec hT hF (fun h => absurd h (by decide)) (fun h => absurd h (by decide)) hy

/-- C69: without `norm=True` nothing is normalised. -/
theorem C69_unnormalised (T : SignTests K) (F : RootFuns K) : eNorm T F false g = some none := rfl

/-- C69: after normalisation the basis vectors are orthogonal and square to `+1` or `-1`, with the signs
of the given squares (which must not be zero). -/
theorem C69_normalised {T : SignTests K} (hT : T.Sound) {F : RootFuns K} (hF : F.Laws) (hs : g.IsSymm)
    (h0 : ∀ i, g i i ≠ 0) {N : Option (Fin n → K)} (h : eNorm T F true g = some N) (i j : Fin n) :
    currentMetric N g i j = if i = j then (if 0 < g i i then 1 else -1) else 0 := by
  cases ho : isOrtho g with
  | false => rw [(C69_lengths hT hF).1 ho] at h; cases h
  | true =>
    obtain ⟨N', h1, h2⟩ := (C69_lengths hT hF).2 ho
    rw [h1] at h
    rw [← Option.some.inj h]
    change g i j / (N' i * N' j) = _
    split_ifs with hij hp
    · subst hij; rw [h2, abs_of_pos hp, div_self (h0 i)]
    · subst hij
      rw [h2, abs_of_nonpos (not_lt.mp hp), div_neg, div_self (h0 i)]
    · rw [isOrtho_symm hs ho i j hij, zero_div]

/-- C69: the normalised algebra is that of the basis vectors `e_i / e_norm[i]`: the square of the vector
with the components `v` is the square in the given metric of `∑ v_i e_i / e_norm[i]`. -/
theorem C69_same_space (N : Fin n → K) (v : Fin n → K) :
    Spec.Q (currentMetric (some N) g) v = Spec.Q g (fun i => v i / N i) := by
  rw [Spec.Q_apply, Spec.Q_apply]
  refine Finset.sum_congr rfl fun i _ => Finset.sum_congr rfl fun j _ => ?_
  change g i j / (N i * N j) * v i * v j = _
  rw [div_eq_mul_inv, mul_inv]
  ring

/-- C31: `norm` returns the non-negative square root of the absolute value of the quadratic form. -/
theorem C31_norm (hs : g.IsSymm) {T : SignTests K} (hT : T.Sound) {F : RootFuns K} (hF : F.Laws)
    {isNonneg : K → Bool} (hN : ∀ x, isNonneg x = true → 0 ≤ x) {posDef : Bool}
    (hp : posDef = true → ∀ v : Fin n → K, v ≠ 0 → 0 < ∑ i, ∑ j, v i * g i j * v j)
    {hint : String} (hh : hint = "0" ∨ hint = "+" ∨ hint = "-") {A : Mv K n} (hA : A.WF g)
    (hb : A.isBladeRep = true)
    (hplus : hint = "+" → 0 ≤ A.qform g) (hminus : hint = "-" → A.qform g ≤ 0) :
    ∃ y, A.norm g T F isNonneg posDef hint = some y ∧ 0 ≤ y ∧ y ^ 2 = |A.qform g| := by
  obtain ⟨x, hx⟩ := Option.isSome_iff_exists.mp (C31_norm2_defined (g := g) T posDef A hh)
  have hx' := C31_norm2 hs hT hp hA hb hplus hminus hx
  obtain ⟨y, hy⟩ := Option.isSome_iff_exists.mp
    (squareRoot_isSome T F x (hint := "+") (Or.inr (Or.inl rfl)))
  have h2 := squareRoot_spec hT hF (fun _ => by rw [hx']; exact abs_nonneg _)
    (fun h => absurd h (by decide)) hy
  refine ⟨_, by rw [Mv.norm, hx, Option.bind_some, hy, Option.map_some], ?_, ?_⟩
  · split_ifs with h
    · exact hN _ h
    · exact abs_nonneg _
  · rw [hx', abs_abs] at h2
    split_ifs with h
    · rw [sq, h2]
    · rw [sq_abs, sq, h2]

/-- C31: `mag` is the non-negative square root of `mag2`; it is at least the norm, and equal to it if the
metric is positive definite. -/
theorem C31_mag (hs : g.IsSymm) {T : SignTests K} (hT : T.Sound) {F : RootFuns K} (hF : F.Laws)
    {isNonneg : K → Bool} (hN : ∀ x, isNonneg x = true → 0 ≤ x) {posDef : Bool}
    (hp : posDef = true → ∀ v : Fin n → K, v ≠ 0 → 0 < ∑ i, ∑ j, v i * g i j * v j)
    {A : Mv K n} (hA : A.WF g) (hb : A.isBladeRep = true) :
    ∃ m y, A.mag g T F posDef = some m ∧ A.norm g T F isNonneg posDef "0" = some y ∧
      m ^ 2 = ∑ k ∈ Finset.range (n + 1), |(A.getGrade k).qform g| ∧ y ≤ m ∧
      ((∀ v : Fin n → K, v ≠ 0 → 0 < ∑ i, ∑ j, v i * g i j * v j) → y = m) := by
  have h1 := C31_mag2 hs hT hp hA hb
  obtain ⟨h3, h4⟩ := C31_norm2_le_mag2 hs hT hp hA hb h1
  obtain ⟨y, hy, hy0, hy2⟩ := C31_norm hs hT hF hN hp (Or.inl rfl) hA hb
    (fun h => absurd h (by decide)) (fun h => absurd h (by decide))
  have h0 : 0 ≤ ∑ k ∈ Finset.range (n + 1), |(A.getGrade k).qform g| :=
    Finset.sum_nonneg fun _ _ => abs_nonneg _
  have e := hF.sqrt_sq _ h0
  refine ⟨_, y, by rw [Mv.mag, h1, Option.map_some], hy, by rw [sq, e], ?_, fun hp' => ?_⟩
  · refine abs_le_of_sq_le_sq' ?_ (hF.sqrt_nonneg _ h0) |>.2
    rw [hy2, sq, e]; exact h3
  · rw [← pow_left_inj₀ hy0 (hF.sqrt_nonneg _ h0) two_ne_zero, hy2, sq, e, h4 hp', abs_of_nonneg]
    exact (qform_posdef hs hp' (Rep.of_wf hA hb)).1

/-- C31: the norm is multiplicative for versors: if `A.rev()*A` is a scalar, then
`|A*B|^2 = |A|^2 |B|^2` for every `B`. -/
theorem C31_versor {R : Type*} [CommRing R] [DecidableEq R] [Invertible (2 : R)] [Nontrivial R]
    {g : Matrix (Fin n) (Fin n) R} (hs : g.IsSymm) {A B : Mv R n} (hA : A.WF g)
    (hb : A.isBladeRep = true) (hB : B.WF g) (hb' : B.isBladeRep = true)
    (hv : ((A.rev g).mul g A).eq g (Mv.scalarMv (A.qform g)) = true) :
    (A.mul g B).qform g = A.qform g * B.qform g := by
  have rA := Rep.of_wf hA hb
  have rB := Rep.of_wf hB hb'
  rw [((rA.rev hs).mul hs rA).eq_iff hs (Rep.scalarMv _)] at hv
  apply algebraMap_inj g
  rw [qform_grade hs (rA.mul hs rB), CliffordAlgebra.reverse.map_mul, mul_assoc,
    ← mul_assoc (CliffordAlgebra.reverse (A.val g)), hv]
  rw [← Algebra.smul_def, mul_smul_comm, map_smul, ← qform_grade hs rB, map_mul, Algebra.smul_def]

/-- The hypotheses of `C31_versor` are met by a product of vectors that are not orthogonal. -/
example : let A := (Mv.vector ![1, 2, 0]).mul Ex.gN (Mv.vector ![0, 1, 3])
    ((A.rev Ex.gN).mul Ex.gN A).eq Ex.gN (Mv.scalarMv (A.qform Ex.gN)) = true ∧
      A.qform Ex.gN ≠ 0 := by
  decide +kernel

section Ex

/-- Sound tests of signs. -/
noncomputable def Ex.signs : SignTests ℝ := ⟨fun _ => false, fun _ => false, fun _ => false⟩

theorem Ex.signs_sound : Ex.signs.Sound :=
  ⟨fun x h => by simp [Ex.signs] at h, fun x h => by simp [Ex.signs] at h⟩

/-- The hypotheses are met by a metric of mixed signs with a square, a square times a constant and a cube
on the diagonal. -/
example : Ex.signs.Sound ∧ RootFuns.real.Laws ∧
    (Matrix.diagonal ![9, 12, 8, -5] : Matrix (Fin 4) (Fin 4) ℝ).IsSymm ∧
    ∀ i, (Matrix.diagonal ![9, 12, 8, -5] : Matrix (Fin 4) (Fin 4) ℝ) i i ≠ 0 := by
  refine ⟨Ex.signs_sound, RootFuns.real_laws, Matrix.isSymm_diagonal _, fun i => ?_⟩
  fin_cases i <;> simp

/-- The docstring of `square_root_of_expr` promises a positive root, "the absolute value of product is
returned", but the root of the square of a function with value `-3` is `-3`, and that is the length that
the normalisation uses. -/
theorem C69_length_sign_counterexample :
    squareRootOfExpr Ex.signs RootFuns.real "0" 9 = some (-3) := by
  simp [squareRootOfExpr, sqrtLoop, Ex.signs, RootFuns.real]

end Ex

end GA
