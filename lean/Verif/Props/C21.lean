import Verif.Proofs.Recip
import Verif.Proofs.GradeMul
import Verif.Proofs.Examples
import Mathlib.LinearAlgebra.Matrix.NonsingularInverse

/-!
# C21, C22, C54, C57: reciprocal basis, inverse metric, reciprocal frames, reciprocal blades

`rBasisMv g`, `mvr g norm`, `gInv g`, `reciprocalFrameNorm g`, `recipOfBlade g` model `Ga.r_basis_mv`,
`Ga.mvr`, `Ga.g_inv`, `Ga.ReciprocalFrame` and `Ga._reciprocal_of_basis_blade`; `none` is a division
by zero.
-/

set_option linter.unusedSectionVars false
set_option maxRecDepth 10000

namespace GA
variable {n : ℕ} {K : Type*} [Field K] [DecidableEq K] [Invertible (2 : K)]
  {g : Matrix (Fin n) (Fin n) K}

theorem basis_rep (i : Fin n) : Rep g (Mv.ofExpr (bladeE [i]) : Mv K n)
    (Spec.vec g (Pi.single i 1)) := by
  have := Rep.ofExpr (g := g) (valid_bladeE (R := K) (l := [i]) (by simp))
  rwa [den_bladeE, Spec.blade_singleton] at this

theorem rBasisMv_rep (hs : g.IsSymm) {l : List (Mv K n)} (h : rBasisMv g = some l) :
    l.length = n ∧ ∀ j : Fin n, ∃ u : Fin n → K, Rep g (l.getD j Mv.zero) (Spec.vec g u) ∧
      ∀ i, Spec.ip g (Pi.single i 1) u = if i = j then recipFactor g else 0 := by
  rw [rBasisMv, Option.map_eq_some_iff] at h
  obtain ⟨l', h', rfl⟩ := h
  obtain ⟨h1, h2⟩ := rBasis_spec hs h'
  refine ⟨by simpa using h1, fun j => ?_⟩
  obtain ⟨h3, u, h4, h5⟩ := h2 j
  refine ⟨u, ?_, h5⟩
  have : (l'.map Mv.ofExpr).getD j Mv.zero = Mv.ofExpr (l'.getD j errorE) := by
    have hj : (j : ℕ) < l'.length := by rw [h1]; exact j.2
    rw [List.getD_eq_getElem?_getD, List.getD_eq_getElem?_getD, List.getElem?_map,
      List.getElem?_eq_getElem hj]
    rfl
  rw [this, ← h4]
  exact Rep.ofExpr h3

/-- C21: there are `n` reciprocal vectors, all of grade one, and `r_j | e_i` is `1` (orthogonal
basis) or `E²` (otherwise) if `i = j`, and `0` if `i ≠ j`. -/
theorem C21_reciprocal_basis (hs : g.IsSymm) {l : List (Mv K n)} (h : rBasisMv g = some l) :
    l.length = n ∧ ∀ i j : Fin n,
      Spec.Homogeneous g 1 ((l.getD j Mv.zero).val g) ∧
      ((l.getD j Mv.zero).dot g (Mv.ofExpr (bladeE [i]))).eq g
        (Mv.scalarMv (if i = j then (if isOrtho g then 1 else eSq g) else 0)) = true := by
  obtain ⟨h1, h2⟩ := rBasisMv_rep hs h
  refine ⟨h1, fun i j => ?_⟩
  obtain ⟨u, h3, h4⟩ := h2 j
  refine ⟨by rw [h3.val]; exact Spec.homogeneous_vec u, ?_⟩
  rw [(Rep.dot hs h3 (basis_rep i)).eq_iff hs (Rep.scalarMv _), Spec.hestenesDot_vec_ip,
    Spec.ip_comm, h4]
  rfl

theorem divScalar_rep {A B : Mv K n} {x : Spec.Cl g} {c : K} (hA : Rep g A x)
    (h : A.divScalar c = some B) : c ≠ 0 ∧ Rep g B (c⁻¹ • x) := by
  rw [Mv.divScalar] at h
  split_ifs at h with h0
  have e := Option.some.inj h
  subst e
  exact ⟨h0, hA.smul _⟩

/-- C21: the vectors returned by `mvr()` satisfy `r_j | e_i = δ_ij` for every basis. -/
theorem C21_mvr_norm (hs : g.IsSymm) {l : List (Mv K n)} (h : mvr g true = some l) :
    l.length = n ∧ ∀ i j : Fin n, ((l.getD j Mv.zero).dot g (Mv.ofExpr (bladeE [i]))).eq g
        (Mv.scalarMv (if i = j then 1 else 0)) = true := by
  rw [mvr] at h
  by_cases ho : isOrtho g = true
  · rw [if_neg (by simp [ho])] at h
    have := C21_reciprocal_basis hs h
    rw [if_pos ho] at this
    exact ⟨this.1, fun i j => (this.2 i j).2⟩
  · rw [if_pos (by simpa using ho), Option.bind_eq_some_iff] at h
    obtain ⟨l', h', h⟩ := h
    obtain ⟨h1, h2⟩ := rBasisMv_rep hs h'
    obtain ⟨h3, h4⟩ := mapM_option_getD (d := Mv.zero) h
    refine ⟨h3.trans h1, fun i j => ?_⟩
    obtain ⟨u, h5, h6⟩ := h2 j
    have hj : (j : ℕ) < l'.length := by rw [h1]; exact j.2
    have h7 := h4 j hj
    rw [show l'[(j : ℕ)] = l'.getD j Mv.zero by simp [List.getD_eq_getElem?_getD, hj]] at h7
    obtain ⟨h8, h9⟩ := divScalar_rep h5 h7
    rw [← Spec.vec_smul] at h9
    rw [(Rep.dot hs h9 (basis_rep i)).eq_iff hs (Rep.scalarMv _), Spec.hestenesDot_vec_ip,
      Spec.ip_comm, Spec.ip, map_smul]
    have h10 := h6 i
    rw [Spec.ip] at h10
    rw [h10, recipFactor, if_neg ho]
    split_ifs with hij
    · rw [smul_eq_mul, inv_mul_cancel₀ h8]
    · rw [smul_zero]

theorem mapM_some {α β : Type*} (f : α → Option β) (l : List α)
    (h : ∀ a ∈ l, (f a).isSome = true) : (l.mapM f).isSome = true := by
  induction l with
  | nil => rfl
  | cons a l ih =>
    obtain ⟨b, hb⟩ := Option.isSome_iff_exists.mp (h a (by simp))
    obtain ⟨bs, hbs⟩ := Option.isSome_iff_exists.mp (ih fun x hx => h x (by simp [hx]))
    rw [List.mapM_cons, hb, hbs]; rfl

/-- C21: the reciprocal basis exists (no division by zero) when the metric is non-degenerate. -/
theorem C21_exists (hs : g.IsSymm) (hd : g.det ≠ 0) : ∀ norm, (mvr g norm).isSome = true := by
  have he : eSq g ≠ 0 := by
    rw [eSq_eq hs]
    exact mul_ne_zero (pow_ne_zero _ (by norm_num)) hd
  have hr : (rBasisMv g).isSome = true := by
    rw [rBasisMv, Option.isSome_map, rBasis]
    split_ifs with ho
    · refine mapM_some _ _ fun i _ => ?_
      rw [if_neg]; · rfl
      intro h0
      apply hd
      refine Matrix.det_eq_zero_of_row_eq_zero i fun j => ?_
      by_cases hij : i = j
      · rw [← hij]; exact h0
      · exact isOrtho_symm hs ho i j hij
    · rfl
  intro norm
  rw [mvr]
  split_ifs
  · obtain ⟨l, hl⟩ := Option.isSome_iff_exists.mp hr
    rw [hl]
    exact mapM_some (fun r : Mv K n => r.divScalar (eSq g)) l fun A _ => by
      rw [Mv.divScalar, if_neg he]; rfl
  · exact hr

/-- C22: `g_inv` is the inverse of the metric tensor. -/
theorem C22_inverse_metric (hs : g.IsSymm) {m : Matrix (Fin n) (Fin n) K} (h : gInv g = some m) :
    m * g = 1 ∧ g * m = 1 := by
  rw [gInv, Option.bind_eq_some_iff] at h
  obtain ⟨rb, hrb, h⟩ := h
  split_ifs at h with h0
  have hm := Option.some.inj h
  subst hm
  obtain ⟨-, h2⟩ := rBasis_spec hs hrb
  choose hv u hu hip using h2
  set c := recipFactor g with hc
  have hc0 : c ≠ 0 := by
    rw [hc, recipFactor]
    split_ifs with ho
    · exact one_ne_zero
    · intro he; exact h0 ⟨by simpa using ho, he⟩
  have hent : ∀ i j, gInvEntry g rb i j = c⁻¹ * u j i := by
    intro i j
    have h1 := hestenesDot_spec g hs (hv i) (hv j)
    have h3 : scalarPart (hestenesDot g (rb.getD i errorE) (rb.getD j errorE)) =
        u j i * c := by
      apply algebraMap_inj g
      rw [algebraMap_scalarPart g h1.1, h1.2, hu, hu, Spec.hestenesDot_vec_ip, grade_zero_algebraMap,
        Spec.ip_comm]
      congr 1
      rw [Spec.ip_dotProduct hs, Finset.sum_eq_single i]
      · rw [hip, if_pos rfl]
      · intro k _ hk; rw [hip, if_neg hk, mul_zero]
      · simp
    simp only [gInvEntry]
    rw [h3]
    split_ifs with ho
    · have : c = 1 := by rw [hc, recipFactor, if_pos ho]
      rw [this]; simp
    · have : c = eSq g := by rw [hc, recipFactor, if_neg ho]
      rw [← this]; field_simp
  have hsym : ∀ i j, u i j = u j i := by
    intro i j
    have h1 := Spec.ip_dotProduct hs (u i) (u j)
    have h2 := Spec.ip_dotProduct hs (u j) (u i)
    rw [Spec.ip_comm] at h2
    rw [h1, Finset.sum_eq_single j, Finset.sum_eq_single i, hip, hip, if_pos rfl, if_pos rfl] at h2
    · exact mul_right_cancel₀ hc0 h2
    · intro k _ hk; rw [hip, if_neg hk, mul_zero]
    · simp
    · intro k _ hk; rw [hip, if_neg hk, mul_zero]
    · simp
  have hM : (Matrix.of fun i j => if i ≤ j then gInvEntry g rb i j else gInvEntry g rb j i) =
      Matrix.of fun i j => c⁻¹ * u j i := by
    ext i j
    simp only [Matrix.of_apply]
    split_ifs
    · exact hent i j
    · rw [hent, hsym]
  rw [hM]
  have hright : g * (Matrix.of fun i j => c⁻¹ * u j i) = 1 := by
    ext i j
    rw [Matrix.mul_apply]
    simp only [Matrix.of_apply]
    have h3 := hip j i
    rw [Spec.ip_single hs] at h3
    have h4 : ∑ k, g i k * (c⁻¹ * u j k) = c⁻¹ * ∑ k, g i k * u j k := by
      rw [Finset.mul_sum]; exact Finset.sum_congr rfl fun k _ => by ring
    rw [h4, h3, Matrix.one_apply]
    split_ifs <;> simp [hc0]
  exact ⟨mul_eq_one_comm.mp hright, hright⟩

/-! ### Frames -/

theorem frame_rep {basis : List (Mv K n)}
    (hb : ∀ A ∈ basis, A.WF g ∧ A.isBladeRep = true ∧ Spec.Homogeneous g 1 (A.val g)) :
    ∃ L, List.Forall₂ (fun A v => Rep g A (Spec.vec g v)) basis L := by
  induction basis with
  | nil => exact ⟨[], .nil⟩
  | cons A basis ih =>
    obtain ⟨L, hL⟩ := ih fun B hB => hb B (by simp [hB])
    obtain ⟨h1, h2, h3⟩ := hb A (by simp)
    obtain ⟨u, hu⟩ := Spec.homogeneous_one h3
    exact ⟨u :: L, .cons ⟨h1, h2, hu⟩ hL⟩

theorem forall₂_eraseIdx {α β : Type*} {P : α → β → Prop} {l : List α} {m : List β}
    (h : List.Forall₂ P l m) (i : ℕ) : List.Forall₂ P (l.eraseIdx i) (m.eraseIdx i) := by
  induction h generalizing i with
  | nil => exact .nil
  | cons h t ih =>
    cases i with
    | zero => exact t
    | succ i => exact .cons h (ih i)

theorem reciprocals_spec (hs : g.IsSymm) {basis : List (Mv K n)} {L : List (Fin n → K)}
    (hL : List.Forall₂ (fun A v => Rep g A (Spec.vec g v)) basis L) :
    (reciprocals g basis).length = basis.length ∧
    Spec.wedgeL g L * Spec.wedgeL g L = algebraMap K _ (frameSq g basis) ∧
    ∀ j, j < basis.length → Rep g ((reciprocals g basis).getD j Mv.zero) (Spec.recip g L j) := by
  have hE := wedgeAll_spec hs hL
  refine ⟨by simp [reciprocals], ?_, fun j hj => ?_⟩
  · have h1 := (Rep.mul hs hE hE).scalar
    obtain ⟨c, hc⟩ := Spec.homogeneous_zero_iff.mp (Spec.wedgeL_sq_homogeneous (g := g) L)
    rw [hc, grade_zero_algebraMap] at h1
    rw [hc, ← h1]; rfl
  · have h1 := wedgeAll_spec hs (forall₂_eraseIdx hL j)
    have h2 := func_id_rep (Rep.mul hs (h1.smul ((-1) ^ j)) hE)
    rw [reciprocals, List.getD_eq_getElem?_getD, List.getElem?_map, List.getElem?_range hj]
    exact h2.congr (by rw [Spec.recip, smul_mul_assoc])

/-- C54, mode `append`: `k` vectors are returned, `r_j | v_i = δ_ij E²`, and the number appended is
`E²`, the square of the outer product of all given vectors. -/
theorem C54_append (hs : g.IsSymm) {basis : List (Mv K n)}
    (hb : ∀ A ∈ basis, A.WF g ∧ A.isBladeRep = true ∧ Spec.Homogeneous g 1 (A.val g)) :
    (reciprocalFrameAppend g basis).1.length = basis.length ∧
    (((basis.foldl (fun X b => X.wedge g b) (Mv.scalarMv 1)).mul g
      (basis.foldl (fun X b => X.wedge g b) (Mv.scalarMv 1))).eq g
      (Mv.scalarMv (reciprocalFrameAppend g basis).2) = true) ∧
    ∀ i j, i < basis.length → j < basis.length →
      (((reciprocalFrameAppend g basis).1.getD j Mv.zero).dot g (basis.getD i Mv.zero)).eq g
        (Mv.scalarMv (if i = j then (reciprocalFrameAppend g basis).2 else 0)) = true := by
  obtain ⟨L, hL⟩ := frame_rep hb
  obtain ⟨h1, h2, h3⟩ := reciprocals_spec hs hL
  refine ⟨h1, ?_, fun i j hi hj => ?_⟩
  · have key : ∀ (X : Mv K n) (x : Spec.Cl g), Rep g X x →
        Rep g (basis.foldl (fun X b => X.wedge g b) X) (Spec.wedge g x (Spec.wedgeL g L)) := by
      clear h1 h2 h3 hb
      induction hL with
      | nil => intro X x hX; rw [Spec.wedgeL_nil, Spec.wedge_one]; exact hX
      | cons hb _ ih =>
        intro X x hX
        rw [Spec.wedgeL_cons, ← Spec.wedge_assoc]
        exact ih _ _ (Rep.wedge hs hX hb)
    have h4 := key _ _ (Rep.scalarMv 1)
    rw [map_one, Spec.one_wedge] at h4
    rw [(Rep.mul hs h4 h4).eq_iff hs (Rep.scalarMv _), h2]
    rfl
  · have hlen := hL.length_eq
    have hi' : i < L.length := hlen ▸ hi
    have hv : Rep g (basis.getD i Mv.zero) (Spec.vec g L[i]) := by
      have := List.forall₂_iff_get.mp hL
      have := this.2 i hi hi'
      simpa [List.getD_eq_getElem?_getD, hi] using this
    rw [reciprocalFrameAppend, (Rep.dot hs (h3 j hj) hv).eq_iff hs (Rep.scalarMv _),
      Spec.hestenesDot_grade_one (Spec.recip_homogeneous (hlen ▸ hj)),
      Spec.con_recip hi' (hlen ▸ hj), h2]
    split_ifs <;> simp

/-- C54, mode `norm`: `r_j | v_i = δ_ij`. -/
theorem C54_norm (hs : g.IsSymm) {basis r : List (Mv K n)}
    (hb : ∀ A ∈ basis, A.WF g ∧ A.isBladeRep = true ∧ Spec.Homogeneous g 1 (A.val g))
    (h : reciprocalFrameNorm g basis = some r) :
    r.length = basis.length ∧ ∀ i j, i < basis.length → j < basis.length →
      ((r.getD j Mv.zero).dot g (basis.getD i Mv.zero)).eq g
        (Mv.scalarMv (if i = j then 1 else 0)) = true := by
  obtain ⟨L, hL⟩ := frame_rep hb
  obtain ⟨h1, h2, h3⟩ := reciprocals_spec hs hL
  rw [reciprocalFrameNorm] at h
  obtain ⟨h4, h5⟩ := mapM_option_getD (d := Mv.zero) h
  refine ⟨h4.trans h1, fun i j hi hj => ?_⟩
  have hlen := hL.length_eq
  have hi' : i < L.length := hlen ▸ hi
  have hv : Rep g (basis.getD i Mv.zero) (Spec.vec g L[i]) := by
    have := List.forall₂_iff_get.mp hL
    have := this.2 i hi hi'
    simpa [List.getD_eq_getElem?_getD, hi] using this
  have hj' : j < (reciprocals g basis).length := h1 ▸ hj
  have h6 := h5 j hj'
  rw [show (reciprocals g basis)[j] = (reciprocals g basis).getD j Mv.zero by
    simp [List.getD_eq_getElem?_getD, hj']] at h6
  obtain ⟨h8, h9⟩ := divScalar_rep (h3 j hj) h6
  rw [(Rep.dot hs h9 hv).eq_iff hs (Rep.scalarMv _),
    Spec.hestenesDot_grade_one ((Spec.recip_homogeneous (hlen ▸ hj)).smul _), map_smul,
    Spec.con_recip hi' (hlen ▸ hj), h2]
  split_ifs with hij
  · rw [Algebra.smul_def, ← map_mul, inv_mul_cancel₀ h8]
  · simp

/-! ### Reciprocal blades -/

theorem wedge_foldl_spec {rb : List (Expr K n)} {u : Fin n → Fin n → K}
    (hv : ∀ j : Fin n, Valid (rb.getD j errorE))
    (hu : ∀ j : Fin n, den g (rb.getD j errorE) = Spec.vec g (u j)) (index : List (Fin n)) :
    ∀ E : Expr K n, Valid E →
      Valid (index.foldl (fun E (i : Fin n) => wedge E (rb.getD i errorE)) E) ∧
      den g (index.foldl (fun E (i : Fin n) => wedge E (rb.getD i errorE)) E) =
        Spec.wedge g (den g E) (Spec.wedgeL g (index.map u)) := by
  induction index with
  | nil => intro E hE; exact ⟨hE, by rw [List.map_nil, Spec.wedgeL_nil, Spec.wedge_one]; rfl⟩
  | cons i l ih =>
    intro E hE
    have h1 := wedge_valid hE (hv i)
    have h2 := den_wedge g hE (hv i)
    obtain ⟨h3, h4⟩ := ih _ h1
    refine ⟨h3, ?_⟩
    rw [List.foldl_cons, h4, h2, hu, List.map_cons, Spec.wedgeL_cons, Spec.wedge_assoc]

theorem conL_reverse (L : List (Fin n → K)) (x : Spec.Cl g) :
    Spec.conL g L.reverse x = (-1 : K) ^ (L.length * (L.length - 1) / 2) • Spec.conL g L x := by
  induction L generalizing x with
  | nil => simp
  | cons v L ih =>
    have h1 := Spec.con_conL (g := g) v L x
    have h2 : Spec.conL g L (Spec.con g v x) = (-1 : K) ^ L.length • Spec.con g v (Spec.conL g L x) := by
      rw [h1, smul_smul, ← mul_pow]; simp
    rw [List.reverse_cons, Spec.conL_append, Spec.conL_cons, Spec.conL_nil, ih, h2, smul_smul, ← pow_add,
      Spec.conL_cons, List.length_cons]
    congr 2
    cases h : L.length with
    | zero => rfl
    | succ k =>
      simp only [Nat.add_sub_cancel]
      have : (k + 1 + 1) * (k + 1) = (k + 1) * k + (k + 1) * 2 := by ring
      rw [this, Nat.add_mul_div_right _ _ (by norm_num)]

/-- C57: the reciprocal blade `e^I` of a basis blade satisfies `⟨e^I e_J⟩_0 = δ_IJ` for all basis
blades `e_J`. -/
theorem C57_reciprocal_blades (hs : g.IsSymm) {rb : List (Expr K n)} (hrb : rBasis g = some rb)
    {I J : List (Fin n)} (hI : I.Pairwise (· < ·)) (hJ : J.Pairwise (· < ·)) {E : Expr K n}
    (h : recipOfBlade g rb I = some E) :
    ((Mv.ofExpr E).mul g (Mv.ofExpr (bladeE J))).scalar = if I = J then 1 else 0 := by
  obtain ⟨-, h2⟩ := rBasis_spec hs hrb
  choose hv u hu hip using h2
  obtain ⟨h3, h4⟩ := wedge_foldl_spec hv hu I.reverse (scalarE 1) (valid_scalarE 1)
  have hone : den g (scalarE 1 : Expr K n) = 1 := by
    rw [den_scalarE, map_one]
  rw [hone, Spec.one_wedge] at h4
  -- the value of the reciprocal blade
  obtain ⟨k, hk, hE, hden⟩ : ∃ k : K, k * recipFactor g ^ I.length = 1 ∧ Valid E ∧
      den g E = k • Spec.wedgeL g (I.reverse.map u) := by
    simp only [recipOfBlade] at h
    split_ifs at h with ho h0
    · have e := Option.some.inj h
      subst e
      exact ⟨1, by rw [recipFactor, if_pos ho]; simp, h3, by rw [one_smul, h4]⟩
    · have e := Option.some.inj h
      subst e
      refine ⟨_, ?_, valid_smulE _ h3, by rw [den_smulE, h4]⟩
      rw [recipFactor, if_neg ho, inv_mul_cancel₀ h0]
  have rE := Rep.ofExpr (g := g) hE
  have rJ := Rep.ofExpr (g := g) (valid_bladeE (R := K) hJ)
  rw [hden] at rE
  rw [den_bladeE, Spec.blade_eq_wedgeL] at rJ
  refine (Rep.mul hs rE rJ).scalar_of ?_
  rw [smul_mul_assoc, map_smul]
  by_cases hlen : I.length = J.length
  · have hy := Spec.homogeneous_wedgeL (g := g) (J.map fun i => Pi.single i (1 : K))
    rw [Spec.grade_zero_wedgeL_mul _ (by simpa [hlen] using hy), List.map_reverse, conL_reverse]
    obtain ⟨m, hm⟩ : ∃ m, I.length = m := ⟨_, rfl⟩
    have hm' : J.length = m := by omega
    have e1 : I.map u = List.ofFn fun i : Fin m => u (I[(i : ℕ)]'(by omega)) := by
      apply List.ext_getElem <;> simp [hm]
    have e2 : (J.map fun i => Pi.single i (1 : K)) =
        List.ofFn fun i : Fin m => (Pi.single (J[(i : ℕ)]'(by omega)) 1 : Fin n → K) := by
      apply List.ext_getElem <;> simp [hm']
    rw [e1, e2, Spec.conL_wedgeL, List.length_ofFn]
    have hmat : (Matrix.of fun i j : Fin m =>
        Spec.ip g (u (I[(i : ℕ)]'(by omega))) (Pi.single (J[(j : ℕ)]'(by omega)) 1)) =
        Matrix.of fun i j : Fin m => if J[(j : ℕ)]'(by omega) = I[(i : ℕ)]'(by omega)
          then recipFactor g else 0 := by
      ext i j; simp only [Matrix.of_apply]; rw [Spec.ip_comm, hip]
    rw [hmat]
    by_cases hIJ : I = J
    · subst hIJ
      have hdiag : (Matrix.of fun i j : Fin m => if I[(j : ℕ)]'(by omega) = I[(i : ℕ)]'(by omega)
          then recipFactor g else 0) = Matrix.diagonal fun _ : Fin m => recipFactor g := by
        ext i j
        rw [Matrix.of_apply, Matrix.diagonal_apply]
        have hnd : I.Nodup := hI.imp fun h => ne_of_lt h
        by_cases hij : i = j
        · subst hij; simp
        · rw [if_neg hij, if_neg]
          rw [hnd.getElem_inj_iff]
          exact fun h => hij (Fin.ext h.symm)
      rw [hdiag, Matrix.det_diagonal, if_pos rfl, Finset.prod_const, Finset.card_univ, Fintype.card_fin,
        Algebra.smul_def, Algebra.smul_def, ← map_mul, ← map_mul]
      congr 1
      rw [← hm]
      have : ((-1 : K) ^ (I.length * (I.length - 1) / 2) * (-1) ^ (I.length * (I.length - 1) / 2)) = 1 := by
        rw [← mul_pow]; simp
      linear_combination (k * recipFactor g ^ I.length) * this + hk
    · obtain ⟨a, ha, ha'⟩ : ∃ a ∈ I, a ∉ J := by
        by_contra hcon
        push Not at hcon
        apply hIJ
        have hsub : I.Sublist J := by
          apply List.sublist_of_subperm_of_pairwise (r := (· < ·)) _ hI hJ
          exact List.subperm_of_subset (hI.imp fun h => ne_of_lt h) hcon
        exact hsub.eq_of_length hlen
      obtain ⟨p, hp, rfl⟩ := List.getElem_of_mem ha
      rw [if_neg hIJ, Matrix.det_eq_zero_of_row_eq_zero ⟨p, by omega⟩]
      · simp
      · intro j
        rw [Matrix.of_apply, if_neg]
        intro hj
        exact ha' (by rw [← hj]; exact List.getElem_mem _)
  · rw [if_neg (fun h => hlen (by rw [h])), map_zero]
    have h5 := Spec.homogeneous_wedgeL (g := g) (I.reverse.map u)
    have h6 := Spec.homogeneous_wedgeL (g := g) (J.map fun i => Pi.single i (1 : K))
    rw [Spec.grade_zero_mul_of_ne h5 h6 (by simpa using hlen), smul_zero]

/-! ### Concrete cases -/

example : (mvr Ex.gN true).isSome = true ∧ (gInv Ex.gN) = some !![1, 0, -1/6; 0, 0, 1/3; -1/6, 1/3, 5/36] := by
  decide +kernel
example : (mvr Ex.gO true).isSome = true ∧ (gInv Ex.gO) = some !![1, 0, 0; 0, -1, 0; 0, 0, 1/2] := by
  decide +kernel

/-- A frame of two vectors in the non-orthogonal example algebra. -/
def Ex.frame : List (Mv ℚ 3) :=
  [Mv.ofExpr [(1, .blade [0]), (2, .blade [1])], Mv.ofExpr [(1, .blade [2]), (-1, .blade [1])]]

theorem Ex.frame_ok : ∀ A ∈ Ex.frame, A.WF Ex.gN ∧ A.isBladeRep = true ∧
    Spec.Homogeneous Ex.gN 1 (A.val Ex.gN) := by
  have key : ∀ i j : Fin 3, ∀ a b : ℚ, Spec.Homogeneous Ex.gN 1
      (den Ex.gN [(a, .blade [i]), (b, .blade [j])]) := by
    intro i j a b
    have h1 := (Spec.homogeneous_blade (g := Ex.gN) [i]).smul a
    have h2 := (Spec.homogeneous_blade (g := Ex.gN) [j]).smul b
    simpa [den, symDen] using h1.add h2
  intro A hA
  simp only [Ex.frame, List.mem_cons, List.not_mem_nil, or_false] at hA
  rcases hA with rfl | rfl
  · refine ⟨Ex.wf_of _ (by decide), by decide +kernel, ?_⟩
    rw [ofExpr_val]; exact key _ _ _ _
  · refine ⟨Ex.wf_of _ (by decide), by decide +kernel, ?_⟩
    rw [ofExpr_val]; exact key _ _ _ _

example : (reciprocalFrameNorm Ex.gN Ex.frame).isSome = true := by decide +kernel

example : ∃ rb E, rBasis Ex.gN = some rb ∧ recipOfBlade Ex.gN rb [0, 2] = some E := by
  have h : ((rBasis Ex.gN).bind fun rb => recipOfBlade Ex.gN rb [0, 2]).isSome = true := by
    decide +kernel
  obtain ⟨E, hE⟩ := Option.isSome_iff_exists.mp h
  obtain ⟨rb, h1, h2⟩ := Option.bind_eq_some_iff.mp hE
  exact ⟨rb, E, h1, h2⟩

end GA
