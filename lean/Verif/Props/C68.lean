import Verif.Proofs.Signature
import Verif.Proofs.Flags
import Verif.Proofs.Pseudo
import Verif.Proofs.Examples

/-!
# C68: the signature of a metric and the sign of the square of the pseudoscalar

`sigPos` and `sigNeg` are Mathlib's positive and negative index of inertia: the largest dimensions of
subspaces on which the quadratic form is positive or negative definite.
-/

set_option linter.unusedSectionVars false
set_option maxRecDepth 10000

namespace GA

variable {n : ℕ} {K : Type*} [Field K] [LinearOrder K] [IsStrictOrderedRing K] [Invertible (2 : K)]
  {g : Matrix (Fin n) (Fin n) K}

theorem countSigns_numeric {isNumber : K → Bool} : ∀ (l : List K) (p q : ℕ),
    (∀ x ∈ l, isNumber x = true) →
    countSigns isNumber l (p, q) = (p + l.countP (0 < ·), q + l.countP (· ≤ 0))
  | [], p, q, _ => by simp [countSigns]
  | x :: l, p, q, h => by
    rw [countSigns, if_pos (h x (by simp))]
    by_cases hx : 0 < x
    · rw [if_pos hx, countSigns_numeric l _ _ fun y hy => h y (by simp [hy])]
      simp [hx, not_le.mpr hx]; omega
    · rw [if_neg hx, countSigns_numeric l _ _ fun y hy => h y (by simp [hy])]
      simp [hx, not_lt.mp hx]; omega

theorem countSigns_stops {isNumber : K → Bool} : ∀ (l : List K) (p q : ℕ),
    (∃ x ∈ l, isNumber x = false) →
    (countSigns isNumber l (p, q)).1 + (countSigns isNumber l (p, q)).2 < p + q + l.length
  | [], p, q, h => by simp at h
  | x :: l, p, q, h => by
    rw [countSigns]
    split_ifs with h1 h2
    · have := countSigns_stops l (p + 1) q (by simpa [h1] using h)
      simp only [List.length_cons]; omega
    · have := countSigns_stops l p (q + 1) (by simpa [h1] using h)
      simp only [List.length_cons]; omega
    · simp

theorem countP_finRange (P : Fin n → Bool) :
    (List.finRange n).countP P = (Finset.univ.filter fun i => P i = true).card := by
  rw [List.countP_eq_length_filter, Finset.card_def, Finset.filter_val]
  rw [show (Finset.univ : Finset (Fin n)).val = ↑(List.finRange n) from rfl, Multiset.filter_coe,
    Multiset.coe_card]
  congr 1
  simp

theorem basisFun_ortho (hs : g.IsSymm) (ho : isOrtho g = true) : ∀ i j, i ≠ j →
    Spec.ip g (Pi.basisFun K (Fin n) i) (Pi.basisFun K (Fin n) j) = 0 := by
  intro i j hij
  rw [Spec.ip, Spec.associated_vec hs]
  simp [Pi.single_apply, isOrtho_symm hs ho i j hij]

theorem Q_basisFun (i : Fin n) : Spec.Q g (Pi.basisFun K (Fin n) i) = g i i := by
  rw [Spec.Q_apply]; simp [Pi.single_apply]

theorem sig_ortho (hs : g.IsSymm) (ho : isOrtho g = true) :
    sigPos (Spec.Q g) = (Finset.univ.filter fun i => 0 < g i i).card ∧
    sigNeg (Spec.Q g) = (Finset.univ.filter fun i => g i i < 0).card := by
  have e := Spec.equiv_weighted _ (basisFun_ortho hs ho)
  simp only [Q_basisFun] at e
  rw [QuadraticForm.sigPos_of_equiv_weightedSumSquares e,
    QuadraticForm.sigNeg_of_equiv_weightedSumSquares e, ← Set.ncard_coe_finset, ← Set.ncard_coe_finset]
  constructor <;> (congr 1; ext; simp)

/-- C68: `signature()` of an orthogonal metric with numeric squares is `(p, n - p)`, `p` the positive
index, whatever the hint is. -/
theorem C68_orthogonal (hs : g.IsSymm) (ho : isOrtho g = true) {isNumber : K → Bool}
    (hn : ∀ i, isNumber (g i i) = true) (hint : Sig) :
    signature isNumber g hint =
      some (.pair (sigPos (Spec.Q g)) (n - sigPos (Spec.Q g))) := by
  have h := countSigns_numeric (isNumber := isNumber) ((List.finRange n).map fun i => g i i) 0 0
    (by intro x hx; obtain ⟨i, -, rfl⟩ := List.mem_map.mp hx; exact hn i)
  simp only [List.countP_map, zero_add] at h
  have hpq : (Finset.univ.filter fun i => 0 < g i i).card +
      (Finset.univ.filter fun i => g i i ≤ 0).card = n := by
    have := Finset.card_filter_add_card_filter_not (s := (Finset.univ : Finset (Fin n)))
      (fun i => 0 < g i i)
    simpa using this
  rw [countP_finRange, countP_finRange] at h
  simp only [Function.comp_apply, decide_eq_true_eq] at h
  rw [signature, h, (sig_ortho hs ho).1]
  simp only [ho, hpq, decide_true, Bool.and_self, if_true]
  congr 2
  omega

/-- C68: for a non-degenerate orthogonal metric with numeric squares `signature()` is the pair of the
indices of inertia. -/
theorem C68_nondegenerate (hs : g.IsSymm) (ho : isOrtho g = true) {isNumber : K → Bool}
    (hn : ∀ i, isNumber (g i i) = true) (hd : g.det ≠ 0) (hint : Sig) :
    signature isNumber g hint = some (.pair (sigPos (Spec.Q g)) (sigNeg (Spec.Q g))) := by
  have hz : ∀ i, g i i ≠ 0 := by
    have e : g = Matrix.diagonal fun i => g i i := by
      ext i j
      rw [Matrix.diagonal_apply]
      split_ifs with h
      · rw [h]
      · exact isOrtho_symm hs ho i j h
    intro i h0
    rw [e, Matrix.det_diagonal] at hd
    exact hd (Finset.prod_eq_zero (Finset.mem_univ i) h0)
  rw [C68_orthogonal hs ho hn, (sig_ortho hs ho).1, (sig_ortho hs ho).2]
  have := Finset.card_filter_add_card_filter_not (s := (Finset.univ : Finset (Fin n)))
    (fun i => 0 < g i i)
  have e2 : (Finset.univ.filter fun i => ¬ 0 < g i i) = Finset.univ.filter fun i => g i i < 0 := by
    ext i
    simp only [Finset.mem_filter, Finset.mem_univ, true_and, not_lt]
    exact ⟨fun h => lt_of_le_of_ne h (hz i), le_of_lt⟩
  rw [e2, Finset.card_univ, Fintype.card_fin] at this
  congr 2
  omega

/-- C68: in every other case `signature()` is read off the hint: `k` means `(k, n-k)`, `'e'` is `(n, 0)`,
`'m+'` is `(n-1, 1)`, `'m-'` is `(1, n-1)`; other strings, integers greater than `n` and pairs raise. -/
theorem C68_hint {isNumber : K → Bool} (h : isOrtho g = false ∨ ∃ i, isNumber (g i i) = false)
    (hint : Sig) :
    signature isNumber g hint = match hint with
      | .int k => if k ≤ n then some (.pair k (n - k)) else none
      | .str "e" => some (.pair n 0)
      | .str "m+" => some (.pair (n - 1) 1)
      | .str "m-" => some (.pair 1 (n - 1))
      | _ => none := by
  have h1 : signature isNumber g hint = hintSig n hint := by
    rw [signature]
    rcases h with h | ⟨i, h⟩
    · simp [h]
    · have := countSigns_stops (isNumber := isNumber) ((List.finRange n).map fun i => g i i) 0 0
        ⟨g i i, List.mem_map.mpr ⟨i, by simp, rfl⟩, h⟩
      simp only [List.length_map, List.length_finRange, zero_add] at this
      rw [if_neg]
      simp only [Bool.and_eq_true, decide_eq_true_eq, not_and]
      omega
  rw [h1]
  match hint with
  | .int k => rfl
  | .pair _ _ => rfl
  | .str s =>
    by_cases e1 : s = "e"
    · subst e1; rfl
    by_cases e2 : s = "m+"
    · subst e2; rfl
    by_cases e3 : s = "m-"
    · subst e3; rfl
    rw [hintSig, if_neg e1, if_neg e2, if_neg e3]
    split <;> simp_all

/-- C68: if the signature that was found or given is right about the negative index of a non-degenerate
metric, then `e_sq_sgn` is the sign of the square of the pseudoscalar. -/
theorem C68_sign (hs : g.IsSymm) (hd : g.det ≠ 0) {isNumber : K → Bool} {hint : Sig} {p q : ℤ}
    {plus : Bool} (h : initSig isNumber g hint = some (.pair p q, some plus))
    (hq : q = sigNeg (Spec.Q g)) : plus = true ↔ 0 < eSq g := by
  have hb : plus = !decide (((n * (n - 1) / 2 : ℕ) + q) % 2 = 1) := by
    rw [initSig] at h
    split_ifs at h
    · simp at h
    · obtain ⟨s, -, e⟩ := Option.map_eq_some_iff.mp h
      have e1 := congrArg Prod.fst e
      have e2 := congrArg Prod.snd e
      simp only at e1 e2
      rw [e1, eSqSgn] at e2
      exact (Option.some.inj e2).symm
  have h1 := Spec.sign_det hs hd
  rw [eSq_eq hs, hb, hq]
  set m := n * (n - 1) / 2
  set k := sigNeg (Spec.Q g)
  have key : (-1 : K) ^ m * g.det = (-1) ^ (m + k) * ((-1) ^ k * g.det) := by
    rw [pow_add, mul_assoc, ← mul_assoc ((-1) ^ k), ← mul_pow]; simp
  rw [key]
  rcases Nat.even_or_odd (m + k) with he | ho
  · rw [he.neg_one_pow, one_mul]
    have : ((m : ℤ) + (k : ℤ)) % 2 = 0 := by have := Nat.even_iff.mp he; omega
    simp [this, h1]
  · rw [ho.neg_one_pow]
    have : ((m : ℤ) + (k : ℤ)) % 2 = 1 := by have := Nat.odd_iff.mp ho; omega
    simp only [this, decide_true, Bool.not_true, Bool.false_eq_true, false_iff, not_lt]
    linarith

/-- C68 is false for orthogonal metrics: `sig` is never computed when the algebra is constructed, it stays
the hint (by default `'e'`, also for a Minkowski metric), and `e_sq_sgn` is not set: the test whether the
metric is numeric looks only above the diagonal. -/
theorem C68_orthogonal_not_computed (ho : isOrtho g = true) {isNumber : K → Bool}
    (h0 : isNumber 0 = true) (hint : Sig) : initSig isNumber g hint = some (hint, none) := by
  rw [initSig, if_pos]
  simp only [gIsNumeric, List.all_eq_true, List.mem_finRange, forall_const, Bool.or_eq_true,
    Bool.not_eq_true', decide_eq_false_iff_not]
  intro i j
  by_cases hij : i < j
  · exact Or.inr (by rw [(isOrtho_iff g).mp ho i j hij, h0])
  · exact Or.inl hij

section Ex

/-- C68: degenerate directions are counted as negative: the metric `diag(1, 0)` gets the signature
`(1, 1)`, but its negative index is 0. -/
theorem C68_degenerate_counterexample :
    let g : Matrix (Fin 2) (Fin 2) ℚ := Matrix.diagonal ![1, 0]
    signature (fun _ => true) g (.str "e") = some (.pair 1 1) ∧ sigNeg (Spec.Q g) = 0 := by
  intro g
  have ho : isOrtho g = true := by decide +kernel
  refine ⟨by decide +kernel, ?_⟩
  rw [(sig_ortho (Matrix.isSymm_diagonal _) ho).2]
  simp [Fin.forall_fin_two]

/-- C68: a hint is not checked against the metric.  The metric with squares 1 and product 2, the latter
given as a symbol, gets the signature `(2, 0)` by default and the sign `'-'`, but `E**2 = 3`. -/
theorem C68_hint_counterexample :
    let g : Matrix (Fin 2) (Fin 2) ℚ := !![1, 2; 2, 1]
    initSig (fun x => decide (x ≠ 2)) g (.str "e") = some (.pair 2 0, some false) ∧ eSq g = 3 := by
  decide +kernel

/-- C68: a negative integer is accepted as a hint. -/
theorem C68_negative_hint_counterexample :
    initSig (fun x => decide (x ≠ 2)) (!![1, 2; 2, 1] : Matrix (Fin 2) (Fin 2) ℚ) (.int (-3)) =
      some (.pair (-3) 5, some true) := by
  decide +kernel

/-- The hypotheses of `C68_sign` are met: with the right hint the sign is right. -/
example : let g : Matrix (Fin 2) (Fin 2) ℚ := !![1, 2; 2, 1]
    initSig (fun x => decide (x ≠ 2)) g (.str "m+") = some (.pair 1 1, some true) ∧ g.det ≠ 0 ∧
      g.IsSymm ∧ sigNeg (Spec.Q g) = 1 := by
  intro g
  have hs : g.IsSymm := by ext i j; fin_cases i <;> fin_cases j <;> rfl
  have hdet : g.det = -3 := by simp [g, Matrix.det_fin_two]; norm_num
  have hd : g.det ≠ 0 := by rw [hdet]; norm_num
  refine ⟨by decide +kernel, hd, hs, ?_⟩
  have h1 := Spec.sign_det hs hd
  have h2 : sigNeg (Spec.Q g) ≤ 2 := by simpa using sigPos_le_finrank (-Spec.Q g)
  rw [hdet] at h1
  interval_cases sigNeg (Spec.Q g)
  · norm_num at h1
  · rfl
  · norm_num at h1

/-- The hypotheses of `C68_nondegenerate` are met by the spacetime algebra. -/
example : let g : Matrix (Fin 4) (Fin 4) ℚ := Matrix.diagonal ![1, -1, -1, -1]
    isOrtho g = true ∧ g.det ≠ 0 ∧ signature (fun _ => true) g (.str "e") = some (.pair 1 3) := by
  refine ⟨by decide +kernel, ?_, by decide +kernel⟩
  simp [Matrix.det_diagonal, Fin.prod_univ_four]

end Ex

end GA
