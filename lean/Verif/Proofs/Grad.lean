import Verif.Spec.Grad
import Verif.Proofs.Dop
import Verif.Proofs.Lt
import Verif.Props.C21

/-! Values of the gradient operators, and the torsion of the connection. -/

set_option linter.unusedSectionVars false

namespace GA
variable {n : ℕ} {K : Type*} [Field K] [DecidableEq K] [Invertible (2 : K)]

/-! ### The vectors of the gradient -/

theorem gradVecs_rep {g0 : Matrix (Fin n) (Fin n) K} (hs : g0.IsSymm) {N : Option (Fin n → K)}
    (hN' : N.isSome → isOrtho g0 = true)
    {l : List (Mv K n)} (h : gradVecs g0 N = some l) :
    l.length = n ∧ (∀ i, scaleOf N i ≠ 0) ∧ ∃ u : Fin n → Fin n → K, ∀ j : Fin n,
      Rep (currentMetric N g0) (l.getD j Mv.zero) (Spec.vec (currentMetric N g0) (u j)) ∧
      ∀ i, Spec.ip (currentMetric N g0) (Pi.single i 1) (u j) =
        if i = j then (scaleOf N j)⁻¹ else 0 := by
  have hsc := currentMetric_symm hs N
  rw [gradVecs, Option.bind_eq_some_iff] at h
  obtain ⟨l', h', h⟩ := h
  obtain ⟨h1, h2⟩ := rBasisMv_rep hsc h'
  cases N with
  | none =>
    have hcm : currentMetric none g0 = g0 := rfl
    change rBasisMv g0 = some l' at h'
    change (if isOrtho g0 = true then some l' else l'.mapM fun x => x.divScalar (eSq g0)) = some l at h
    rw [hcm] at h2 ⊢
    by_cases ho : isOrtho g0 = true
    · rw [if_pos ho] at h
      have e := Option.some.inj h
      subst e
      refine ⟨h1, fun i => one_ne_zero, ?_⟩
      choose u h3 h4 using h2
      refine ⟨u, fun j => ⟨h3 j, fun i => ?_⟩⟩
      rw [h4, recipFactor, if_pos ho]
      simp [scaleOf]
    · rw [if_neg ho] at h
      obtain ⟨h3, h4⟩ := mapM_option_getD (d := Mv.zero) h
      refine ⟨h3.trans h1, fun i => one_ne_zero, ?_⟩
      choose u h5 h6 using h2
      refine ⟨fun j => (eSq g0)⁻¹ • u j, fun j => ?_⟩
      have hj : (j : ℕ) < l'.length := by rw [h1]; exact j.2
      have h7 := h4 j hj
      rw [show l'[(j : ℕ)] = l'.getD j Mv.zero by simp [List.getD_eq_getElem?_getD, hj]] at h7
      obtain ⟨h8, h9⟩ := divScalar_rep (h5 j) h7
      rw [← Spec.vec_smul] at h9
      refine ⟨h9, fun i => ?_⟩
      have h10 := h6 j i
      rw [Spec.ip] at h10 ⊢
      rw [map_smul, h10, recipFactor, if_neg ho]
      split_ifs with hij
      · rw [smul_eq_mul, inv_mul_cancel₀ h8]; simp [scaleOf]
      · rw [smul_zero]
  | some M =>
    have ho := hN' rfl
    have hoc : isOrtho (currentMetric (some M) g0) = true := by
      rw [isOrtho_iff] at ho ⊢
      intro i j hij
      simp [currentMetric, normMetric, ho i j hij]
    simp only at h
    obtain ⟨h3, h4⟩ := mapM_option_getD (d := Mv.zero) h
    have hlen : (l'.zip (List.ofFn M)).length = n := by simp [h1]
    have key : ∀ j : Fin n, (l'.getD j Mv.zero).divScalar (M j) = some (l.getD j Mv.zero) := by
      intro j
      have hj : (j : ℕ) < (l'.zip (List.ofFn M)).length := by rw [hlen]; exact j.2
      have h7 := h4 j hj
      have hj' : (j : ℕ) < l'.length := by rw [h1]; exact j.2
      rw [List.getElem_zip] at h7
      simpa [List.getD_eq_getElem?_getD, hj'] using h7
    choose u h5 h6 using h2
    have hM : ∀ j, M j ≠ 0 := fun j => (divScalar_rep (h5 j) (key j)).1
    refine ⟨h3.trans hlen, hM, fun j => (M j)⁻¹ • u j, fun j => ?_⟩
    obtain ⟨h8, h9⟩ := divScalar_rep (h5 j) (key j)
    rw [← Spec.vec_smul] at h9
    refine ⟨h9, fun i => ?_⟩
    have h10 := h6 j i
    rw [Spec.ip] at h10 ⊢
    rw [map_smul, h10, recipFactor, if_pos hoc]
    split_ifs with hij
    · simp [scaleOf]
    · rw [smul_zero]

/-- Every vector is the combination of the gradient vectors with its inner products with the tangent
vectors as coefficients. -/
theorem vec_eq_sum {g : Matrix (Fin n) (Fin n) K} (hs : g.IsSymm) {s : Fin n → K} (hs0 : ∀ i, s i ≠ 0)
    {u : Fin n → Fin n → K}
    (hu : ∀ i j, Spec.ip g (Pi.single i 1) (u j) = if i = j then (s j)⁻¹ else 0) (v : Fin n → K) :
    v = ∑ k, (s k * Spec.ip g (Pi.single k 1) v) • u k := by
  -- the Gram matrix times the matrix of the `u j` is diagonal
  have h1 : g * (Matrix.of fun k j => s j * u j k) = 1 := by
    ext i j
    rw [Matrix.mul_apply]
    have := hu i j
    rw [Spec.ip_single hs] at this
    rw [Matrix.one_apply]
    calc ∑ k, g i k * (Matrix.of fun k j => s j * u j k) k j = s j * ∑ k, g i k * u j k := by
          rw [Finset.mul_sum]; exact Finset.sum_congr rfl fun k _ => by simp only [Matrix.of_apply]; ring
      _ = _ := by
          rw [this]
          split_ifs
          · rw [mul_inv_cancel₀ (hs0 j)]
          · rw [mul_zero]
  have h2 := mul_eq_one_comm.mp h1
  funext m
  have h3 : ((Matrix.of fun k j => s j * u j k) * g).mulVec v m = v m := by rw [h2, Matrix.one_mulVec]
  rw [← h3, ← Matrix.mulVec_mulVec]
  simp only [Matrix.mulVec, dotProduct, Finset.sum_apply, Pi.smul_apply, smul_eq_mul, Matrix.of_apply]
  refine Finset.sum_congr rfl fun k _ => ?_
  rw [Spec.ip_single hs]
  ring

/-! ### Torsion -/

theorem gamma1_symm (D : Fin n → K → K) {g : Matrix (Fin n) (Fin n) K} (hs : g.IsSymm) (i j k : Fin n) :
    gamma1 D g i j k = gamma1 D g j i k := by
  simp only [gamma1, dg, hs.apply j i]
  ring

/-- The connection has no torsion: the derivative by coordinate `i` of the tangent vector of coordinate
`j` is symmetric in `i` and `j`. -/
theorem connOf_torsion {g : Matrix (Fin n) (Fin n) K} (hs : g.IsSymm) (D : Fin n → Derivation ℤ K K)
    {N : Option (Fin n → K)}
    (hN : ∀ N', N = some N' → ∀ i, N' i ^ 2 = g i i ∨ N' i ^ 2 = - g i i)
    {l : List (Mv K n)} (hl : gradVecs g N = some l) (hN' : N.isSome → isOrtho g = true)
    {conn : Option (Fin n → Fin n → Expr K n)} (h : connOf (fun i => D i) g N = some conn) :
    ∃ Γ : Fin n → Matrix (Fin n) (Fin n) K, IsConnection (currentMetric N g) conn Γ ∧
      (∀ i, Spec.Compatible (currentMetric N g) (D i) (Γ i)) ∧
      ∀ i j, Spec.dvec (D i) (Γ i) (Pi.single j (scaleOf N j)) =
        Spec.dvec (D j) (Γ j) (Pi.single i (scaleOf N i)) := by
  have hsc := currentMetric_symm hs N
  obtain ⟨-, hs0, u, hu⟩ := gradVecs_rep hs hN' hl
  rw [connOf] at h
  split_ifs at h with hf
  · rw [Option.map_eq_some_iff] at h
    obtain ⟨de', h1, rfl⟩ := h
    obtain ⟨Γ, h2, h3, h4, h5⟩ := de_spec hs D h1
    refine ⟨Γ, h2, h3, ?_⟩
    have key : ∀ i j l, Spec.ip (currentMetric N g) (Pi.single l 1)
        (Spec.dvec (D i) (Γ i) (Pi.single j (scaleOf N j))) =
        gamma1 (fun i => D i) g i j l / scaleOf N l := by
      intro i j l
      have e1 : Spec.dvec (D i) (Γ i) (Pi.single j (scaleOf N j)) =
          D i (scaleOf N j) • Pi.single j 1 + scaleOf N j • fun k => Γ i k j := by
        funext k
        rw [Spec.dvec]
        simp only [Pi.add_apply, Pi.smul_apply, smul_eq_mul]
        congr 1
        · by_cases hkj : k = j
          · subst hkj; simp
          · rw [Pi.single_eq_of_ne hkj, Pi.single_eq_of_ne hkj, map_zero, mul_zero]
        · rw [Finset.sum_eq_single j]
          · rw [Pi.single_eq_same, mul_comm]
          · intro m _ hm; rw [Pi.single_eq_of_ne hm, mul_zero]
          · simp
      rw [e1, Spec.ip, map_add, map_smul, map_smul, ← Spec.ip, ← Spec.ip, Spec.ip_comm (Pi.single l 1),
        Spec.ip_comm (Pi.single l 1), ip_col hsc, Spec.ip_single hsc]
      simp only [smul_eq_mul]
      have e2 : ∑ k, currentMetric N g j k * (Pi.single l (1 : K) : Fin n → K) k = currentMetric N g j l := by
        rw [Finset.sum_eq_single l]
        · simp
        · intro m _ hm; rw [Pi.single_eq_of_ne hm, mul_zero]
        · simp
      rw [e2]
      cases N with
      | none =>
        have := h4 rfl i j l
        simp only [currentMetric, scaleOf, Option.getD_none, Pi.one_apply, div_one] at *
        rw [this, Derivation.map_one_eq_zero]
        ring
      | some M =>
        obtain ⟨hM, h6⟩ := h5 M rfl
        rw [h6]
        simp only [scaleOf, Option.getD_some]
        field_simp [hM j]
        ring
    intro i j
    rw [vec_eq_sum hsc hs0 (fun i j => (hu j).2 i) (Spec.dvec (D i) (Γ i) (Pi.single j (scaleOf N j))),
      vec_eq_sum hsc hs0 (fun i j => (hu j).2 i) (Spec.dvec (D j) (Γ j) (Pi.single i (scaleOf N i)))]
    refine Finset.sum_congr rfl fun k _ => ?_
    rw [key, key, gamma1_symm _ hs]
  · have hc := h
    have e := Option.some.inj h
    subst e
    have hc' : connOf (fun i => D i) g N = some none := by rw [connOf, if_neg hf]
    obtain ⟨Γ, h1, h2⟩ := connOf_spec hs D hN hc'
    have h1' : Γ = 0 := h1
    subst h1'
    refine ⟨0, rfl, h2, fun i j => ?_⟩
    have hD : ∀ i j, D i (scaleOf N j) = 0 := by
      intro i j
      cases N with
      | none => simp [scaleOf]
      | some M =>
        rw [Bool.not_eq_true, connectFlg_false] at hf
        have h2 : (2 : K) ≠ 0 := (isUnit_of_invertible (2 : K)).ne_zero
        have h1 : D i (M j ^ 2) = 0 := by
          rcases hN M rfl j with h | h
          · rw [h]; exact hf j j i
          · rw [h, map_neg, neg_eq_zero]; exact hf j j i
        rw [sq, Derivation.leibniz, smul_eq_mul, ← two_mul] at h1
        rcases mul_eq_zero.mp h1 with h | h
        · exact absurd h h2
        · rcases mul_eq_zero.mp h with h | h
          · exact absurd h (hs0 j)
          · exact h
    have : ∀ i j, Spec.dvec (D i) (0 : Matrix (Fin n) (Fin n) K) (Pi.single j (scaleOf N j)) = 0 := by
      intro i j
      funext k
      rw [Spec.dvec]
      by_cases hkj : k = j
      · subst hkj; simp [hD]
      · simp [Pi.single_eq_of_ne hkj]
    simp only [Pi.zero_apply]
    rw [this, this]

/-! ### Action of the gradient -/

section act
variable {X : Fields (Fin n) K n} {D : Fin n → Derivation ℤ K K}
  {Γ : Fin n → Matrix (Fin n) (Fin n) K}

theorem zip_finRange_map {α β γ : Type*} (l : List α) (hl : l.length = n) (d : α) (p : Fin n → β)
    (f : α × β → γ) : (l.zip ((List.finRange n).map p)).map f =
      (List.finRange n).map fun i : Fin n => f (l.getD (i : ℕ) d, p i) := by
  apply List.ext_getElem
  · simp [hl]
  · intro i h1 h2
    simp at h1
    have : i < l.length := h1.1
    simp [List.getD_eq_getElem?_getD, this]

/-- `grad op F` is the sum of the products of the gradient vectors and the derivatives. -/
theorem gradDop_mulMv (hs : X.g.IsSymm) (hD : ∀ i, X.D i = D i) (hi : ∀ i, X.idx i = some i)
    (hc : IsConnection X.g X.conn Γ) (op : ProdOp) {l : List (Mv K n)} (hl : l.length = n)
    {u : Fin n → Spec.Cl X.g} (hu : ∀ j : Fin n, Rep X.g (l.getD j Mv.zero) (u j))
    {F : Mv K n} {x : Spec.Cl X.g} (hF : Rep X.g F x) :
    ∃ G, (gradDop l false).mulMv X op F = .inl G ∧
      Rep X.g G (∑ i, opS X.g op (u i) (grd X D Γ i x)) := by
  refine ⟨_, by rw [Dop.mulMv, if_pos (by rfl)], ?_⟩
  simp only [gradDop]
  rw [zip_finRange_map l hl Mv.zero]
  have := foldl_add_rep hs (List.finRange n)
    (fun i => Mv.mulOp X.g op (l.getD i Mv.zero) ((Pdop.single i).call (Mv.diffN X) F))
    (fun i => opS X.g op (u i) (grd X D Γ i x))
    (fun i _ => mulOp_rep hs op (hu i) (by
      have := callMv_rep hs hD hi hc (Pdop.single i) hF
      exact this)) (Rep.scalarMv (g := X.g) 0)
  refine this.congr ?_
  rw [map_zero, zero_add, ← List.sum_toFinset _ (List.nodup_finRange n)]
  simp

/-- `F op rgrad`. -/
theorem gradDop_mvMul (hs : X.g.IsSymm) (hD : ∀ i, X.D i = D i) (hi : ∀ i, X.idx i = some i)
    (hc : IsConnection X.g X.conn Γ) (op : ProdOp) {l : List (Mv K n)} (hl : l.length = n)
    {u : Fin n → Spec.Cl X.g} (hu : ∀ j : Fin n, Rep X.g (l.getD j Mv.zero) (u j))
    {F : Mv K n} {x : Spec.Cl X.g} (hF : Rep X.g F x) :
    ∃ G, Dop.mvMul X op F (gradDop l true) = .inl G ∧
      Rep X.g G (∑ i, opS X.g op (grd X D Γ i x) (u i)) := by
  refine ⟨_, by rw [Dop.mvMul, if_neg (by simp [gradDop])], ?_⟩
  simp only [gradDop]
  rw [zip_finRange_map l hl Mv.zero]
  have := foldl_add_rep hs (List.finRange n)
    (fun i => Mv.mulOp X.g op ((Pdop.single i).call (Mv.diffN X) F) (l.getD i Mv.zero))
    (fun i => opS X.g op (grd X D Γ i x) (u i))
    (fun i _ => mulOp_rep hs op (by
      have := callMv_rep hs hD hi hc (Pdop.single i) hF
      exact this) (hu i)) (Rep.scalarMv (g := X.g) 0)
  refine this.congr ?_
  rw [map_zero, zero_add, ← List.sum_toFinset _ (List.nodup_finRange n)]
  simp

end act

end GA
