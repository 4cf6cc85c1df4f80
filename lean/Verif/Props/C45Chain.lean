import Verif.Props.C45

/-!
# C45, continued: submanifolds of submanifolds

For polynomial maps, the metric of a submanifold of a submanifold is the metric of the submanifold of the first algebra that
the composed map describes.  `V` are the symbols that occur in the program; `pderiv` and `polySub` model SymPy's `diff` and `subs`.
-/

set_option linter.unusedSectionVars false
set_option maxRecDepth 10000

namespace GA
open MvPolynomial
variable {n m p : ℕ} {V R : Type*} [CommRing R] [DecidableEq V]

theorem mapSubst_apply {c : Fin n → V} (hc : Function.Injective c) (u : Fin n → MvPolynomial V R) (k : Fin n) :
    mapSubst c u (c k) = u k := by
  have h : ∃ j, c j = c k := ⟨k, rfl⟩
  rw [mapSubst, dif_pos h]
  congr 1
  exact hc h.choose_spec

theorem mapSubst_of_notMem {c : Fin n → V} (u : Fin n → MvPolynomial V R) {x : V} (h : ∀ k, c k ≠ x) :
    mapSubst c u x = X x := by
  rw [mapSubst, dif_neg]
  rintro ⟨k, hk⟩
  exact h k hk

/-- The chain rule. -/
theorem pderiv_bind₁ [Fintype V] (x : V) (f : V → MvPolynomial V R) (e : MvPolynomial V R) :
    pderiv x (bind₁ f e) = ∑ y, bind₁ f (pderiv y e) * pderiv x (f y) := by
  induction e using MvPolynomial.induction_on with
  | C a => simp
  | add a b ha hb => simp only [map_add, ha, hb, add_mul, Finset.sum_add_distrib]
  | mul_X a z ha =>
    have h1 : ∀ y, bind₁ f (pderiv y (a * X z)) * pderiv x (f y) =
        f z * (bind₁ f (pderiv y a) * pderiv x (f y)) + bind₁ f a * (if y = z then pderiv x (f z) else 0) := fun y => by
      rw [Derivation.leibniz, pderiv_X, smul_eq_mul, smul_eq_mul, map_add, map_mul, map_mul, bind₁_X_right]
      by_cases h : y = z
      · subst h
        rw [Pi.single_eq_same, map_one, if_pos rfl]
        ring
      · rw [Pi.single_eq_of_ne (Ne.symm h), map_zero, if_neg h]
        ring
    simp only [h1, Finset.sum_add_distrib, ← Finset.mul_sum, Finset.sum_ite_eq', Finset.mem_univ, if_true]
    rw [map_mul, bind₁_X_right, Derivation.leibniz, ha, smul_eq_mul, smul_eq_mul]
    ring

theorem pderiv_mapSubst [Fintype V] {s : Fin m → V} (hs : Function.Injective s) (v : Fin m → MvPolynomial V R) {x : V}
    {e : MvPolynomial V R} (hx : x ∉ e.vars) :
    pderiv x (bind₁ (mapSubst s v) e) = ∑ a, pderiv x (v a) * bind₁ (mapSubst s v) (pderiv (s a) e) := by
  rw [pderiv_bind₁, ← Finset.sum_subset (Finset.subset_univ (Finset.univ.image s)), Finset.sum_image fun a _ b _ h => hs h]
  · exact Finset.sum_congr rfl fun a _ => by rw [mapSubst_apply hs, mul_comm]
  · intro y _ hy
    have hy' : ∀ k, s k ≠ y := fun k h => hy (Finset.mem_image.mpr ⟨k, Finset.mem_univ _, h⟩)
    rw [mapSubst_of_notMem v hy', pderiv_X]
    by_cases h : x = y
    · subst h
      rw [pderiv_eq_zero_of_notMem_vars hx, map_zero, zero_mul]
    · rw [Pi.single_eq_of_ne (Ne.symm h), mul_zero]

theorem sum_pullback {A : Type*} [CommRing A] (P Q : Fin m → A) (B C : Fin m → Fin n → A) (G : Fin n → Fin n → A) :
    ∑ a, ∑ b, P a * Q b * ∑ k, ∑ l, B a k * C b l * G k l =
      ∑ k, ∑ l, (∑ a, P a * B a k) * (∑ b, Q b * C b l) * G k l := by
  have h : ∀ a, ∑ b, P a * Q b * ∑ k, ∑ l, B a k * C b l * G k l =
      ∑ k, ∑ l, ∑ b, P a * B a k * (Q b * C b l) * G k l := fun a => by
    simp only [Finset.mul_sum]
    rw [Finset.sum_comm]
    refine Finset.sum_congr rfl fun k _ => ?_
    rw [Finset.sum_comm]
    exact Finset.sum_congr rfl fun l _ => Finset.sum_congr rfl fun b _ => by ring
  simp only [h]
  rw [Finset.sum_comm]
  refine Finset.sum_congr rfl fun k _ => ?_
  rw [Finset.sum_comm]
  refine Finset.sum_congr rfl fun l _ => ?_
  rw [Finset.sum_mul_sum, Finset.sum_mul]
  exact Finset.sum_congr rfl fun a _ => (Finset.sum_mul _ _ _).symm

/-- C45: let `Sm(u, s)` be a submanifold of an algebra with the coordinates `c`, and `Sm(v, t)` a submanifold of the
former.  If no function contains coordinates that it replaces, the functions `u` do not contain `t`, `v` not `c`, and the
metric tensor not `s`, then the latter has the metric of the submanifold of the first algebra for the composed map, that
is, `u` with `v` in place of `s`. -/
theorem C45_chain [Fintype V] {g : Matrix (Fin n) (Fin n) (MvPolynomial V R)} {c : Fin n → V} {s : Fin m → V} {t : Fin p → V}
    {u : Fin n → MvPolynomial V R} {v : Fin m → MvPolynomial V R} (hc : Function.Injective c) (hs : Function.Injective s)
    (huc : ∀ k l, c l ∉ (u k).vars) (hvs : ∀ a b, s b ∉ (v a).vars) (hut : ∀ k i, t i ∉ (u k).vars)
    (hvc : ∀ a l, c l ∉ (v a).vars) (hg : ∀ k l a, s a ∉ (g k l).vars)
    {gs : Matrix (Fin m) (Fin m) (MvPolynomial V R)}
    (h : smMetric (fun x => pderiv x) polySub g (some (List.ofFn c)) (.functions (List.ofFn u)) s = .ok gs) :
    smMetric (fun x => pderiv x) polySub gs (some (List.ofFn s)) (.functions (List.ofFn v)) t =
      smMetric (fun x => pderiv x) polySub g (some (List.ofFn c))
        (.functions (List.ofFn fun k => bind₁ (mapSubst s v) (u k))) t := by
  have hget : ∀ {q : ℕ} (w : Fin q → MvPolynomial V R) (k : Fin q), (List.ofFn w).getD k 0 = w k := fun w k => by
    simp [List.getD_eq_getElem?_getD]
  have huc' : ∀ k l, c l ∉ (bind₁ (mapSubst s v) (u k)).vars := fun k l hm => by
    obtain ⟨y, hy, hm⟩ := mem_vars_bind₁ _ _ hm
    by_cases h : ∃ a, s a = y
    · obtain ⟨a, rfl⟩ := h
      rw [mapSubst_apply hs] at hm
      exact hvc a l hm
    · push Not at h
      rw [mapSubst_of_notMem v h] at hm
      rcases subsingleton_or_nontrivial R with h0 | h0
      · rw [Subsingleton.elim (X y) (0 : MvPolynomial V R), vars_0] at hm
        exact absurd hm (Finset.notMem_empty _)
      · rw [vars_X, Finset.mem_singleton] at hm
        exact huc k l (hm ▸ hy)
  rw [smMetric_some, if_neg (by simp)] at h
  have h := Except.ok.inj h
  rw [smMetric_some, smMetric_some, if_neg (by simp), if_neg (by simp)]
  congr 1
  ext1 i j
  rw [Matrix.of_apply, Matrix.of_apply, smEntry_eq, smEntry_eq]
  have hgs : ∀ a b, gs a b = ∑ k, ∑ l, pderiv (s a) (u k) * pderiv (s b) (u l) * bind₁ (mapSubst c u) (g k l) := fun a b => by
    rw [← h, Matrix.of_apply, smEntry_eq]
    simp only [dxdu, hget, C45_point_partial hc huc]
  simp only [dxdu, hget, C45_point_partial hs hvs, C45_point_partial hc huc', pderiv_mapSubst hs v (hut _ _), hgs]
  have hgg : ∀ k l, bind₁ (mapSubst s v) (bind₁ (mapSubst c u) (g k l)) =
      bind₁ (mapSubst c fun k => bind₁ (mapSubst s v) (u k)) (g k l) := fun k l => by
    rw [bind₁_bind₁]
    refine eval₂Hom_congr' rfl (fun y hy _ => ?_) rfl
    by_cases hy' : ∃ k, c k = y
    · obtain ⟨k, rfl⟩ := hy'
      rw [mapSubst_apply hc, mapSubst_apply hc]
    · push Not at hy'
      rw [mapSubst_of_notMem _ hy', mapSubst_of_notMem _ hy', bind₁_X_right, mapSubst_of_notMem]
      rintro a rfl
      exact hg k l a hy
  simp only [map_sum, map_mul, hgg]
  exact sum_pullback (fun a => pderiv (t i) (v a)) (fun b => pderiv (t j) (v b))
    (fun a k => bind₁ (mapSubst s v) (pderiv (s a) (u k))) (fun a k => bind₁ (mapSubst s v) (pderiv (s a) (u k))) _

namespace Ex

/-- A surface in a space with the coordinates `X 0, X 1, X 2` and the metric `diag(1, (X 0)², 1)`, with the coordinates
`X 3, X 4`, and a curve on it with the coordinate `X 5`. -/
noncomputable def chG : Matrix (Fin 3) (Fin 3) (MvPolynomial (Fin 6) ℚ) := !![1, 0, 0; 0, X 0 ^ 2, 0; 0, 0, 1]

noncomputable def chU : Fin 3 → MvPolynomial (Fin 6) ℚ := ![X 3, X 4, X 3]

noncomputable def chV : Fin 2 → MvPolynomial (Fin 6) ℚ := ![X 5, X 5 ^ 2]

theorem ch_vars : (∀ k, (chU k).vars ⊆ {3, 4}) ∧ (∀ k, (chV k).vars ⊆ {5}) ∧ ∀ k l, (chG k l).vars ⊆ {0} := by
  have h5 : ((X 5 : MvPolynomial (Fin 6) ℚ) ^ 2).vars ⊆ {5} := (vars_pow _ _).trans (by simp [vars_X])
  have h0 : ((X 0 : MvPolynomial (Fin 6) ℚ) ^ 2).vars ⊆ {0} := (vars_pow _ _).trans (by simp [vars_X])
  have e1 : (1 : MvPolynomial (Fin 6) ℚ).vars ⊆ {0} := by simp
  have e0 : (0 : MvPolynomial (Fin 6) ℚ).vars ⊆ {0} := by simp
  refine ⟨fun k => ?_, fun k => ?_, fun k l => ?_⟩
  · fin_cases k <;> simp [chU, vars_X]
  · fin_cases k
    · simp [chV, vars_X]
    · exact h5
  · fin_cases k <;> fin_cases l <;> first | exact e1 | exact e0 | exact h0

/-- The hypotheses are met, and the metric of the curve is `2 + 4 x⁴` for its coordinate `x`. -/
example : ∃ gs, smMetric (fun x => pderiv x) polySub chG (some (List.ofFn ![0, 1, 2])) (.functions (List.ofFn chU)) ![3, 4] =
      .ok gs ∧
    smMetric (fun x => pderiv x) polySub gs (some (List.ofFn ![3, 4])) (.functions (List.ofFn chV)) ![5] =
      .ok !![2 + 4 * X 5 ^ 4] := by
  obtain ⟨h1, h2, h3⟩ := ch_vars
  refine ⟨_, by rw [smMetric_some, if_neg (by simp)], ?_⟩
  have key := C45_chain (R := ℚ) (V := Fin 6) (g := chG) (c := ![0, 1, 2]) (s := ![3, 4]) (t := ![5]) (u := chU) (v := chV)
    (by decide) (by decide)
    (fun k l h => by have := h1 k h; clear h; revert this; revert l; decide)
    (fun k l h => by have := h2 k h; clear h; revert this; revert l; decide)
    (fun k l h => by have := h1 k h; clear h; revert this; revert l; decide)
    (fun k l h => by have := h2 k h; clear h; revert this; revert l; decide)
    (fun k l a h => by have := h3 k l h; clear h; revert this; revert a; decide)
    (gs := Matrix.of (smEntry (fun x => pderiv x) polySub chG (List.ofFn ![0, 1, 2]) (List.ofFn chU) ![3, 4]))
    (by rw [smMetric_some, if_neg (by simp)])
  rw [key, smMetric_some, if_neg (by simp)]
  congr 1
  ext1 i j
  fin_cases i; fin_cases j
  have hc : Function.Injective (![0, 1, 2] : Fin 3 → Fin 6) := by decide
  have hs : Function.Injective (![3, 4] : Fin 2 → Fin 6) := by decide
  have m3 : mapSubst ![3, 4] chV 3 = X 5 := mapSubst_apply hs chV 0
  have m4 : mapSubst ![3, 4] chV 4 = X 5 ^ 2 := mapSubst_apply hs chV 1
  simp [smEntry_eq, dxdu, Fin.sum_univ_succ, chU, chG, m3, m4, subsList, polySub, Function.update, pderiv_X,
    Derivation.leibniz_pow]
  ring

end Ex

end GA
