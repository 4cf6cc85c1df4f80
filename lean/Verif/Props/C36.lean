import Verif.Props.C33
import Verif.Props.C21
import Verif.Props.C23
import Verif.Proofs.Project

/-!
# C36, C37, C38, C39: determinant, adjoint and inverse of transformations; partial dictionaries
-/

set_option linter.unusedSectionVars false
set_option maxRecDepth 10000

namespace GA
variable {n : ℕ} {K : Type*} [Field K] [DecidableEq K] [Invertible (2 : K)]
  {g : Matrix (Fin n) (Fin n) K}

theorem Rep.inv (hs : g.IsSymm) {A B : Mv K n} {x : Spec.Cl g} (hA : Rep g A x)
    (h : A.inv g = some B) : Rep g B (B.val g) ∧ x * B.val g = 1 ∧ B.val g * x = 1 := by
  have h1 := inv_spec hs hA.wf h
  rw [hA.val] at h1
  refine ⟨Rep.of_wf h1.1 ?_, h1.2⟩
  rw [Mv.inv] at h
  dsimp only at h
  split_ifs at h
  · cases h; exact (Rep.scalarMv (g := g) _).flag
  · cases h; exact (hA.smul _).flag
  · cases h; exact ((Rep.rev hs hA).smul _).flag

theorem eSq_ne (hs : g.IsSymm) (hd : g.det ≠ 0) : eSq g ≠ 0 := by
  rw [eSq_eq hs]
  exact mul_ne_zero (pow_ne_zero _ (by norm_num)) hd

/-- The pseudoscalar of a non-degenerate metric is invertible. -/
theorem pseudoE_inv (hs : g.IsSymm) (hd : g.det ≠ 0) :
    ∃ B, (pseudoE : Mv K n).inv g = some B ∧ Rep g B ((eSq g)⁻¹ • Spec.pseudo g) := by
  have hE := pseudoE_rep (g := g)
  have he := eSq_ne hs hd
  have hr := (Spec.homogeneous_reverse (Spec.homogeneous_pseudo (g := g))).2
  have hm := Rep.mul hs hE (Rep.rev hs hE)
  have hval : Spec.pseudo g * CliffordAlgebra.reverse (Q := Spec.Q g) (Spec.pseudo g) =
      algebraMap K _ ((-1) ^ (n * (n - 1) / 2) * eSq g) := by
    rw [hr, mul_smul_comm, eSq_val hs, Algebra.smul_def, ← map_mul]
  rw [hval] at hm
  have hne : (-1 : K) ^ (n * (n - 1) / 2) * eSq g ≠ 0 :=
    mul_ne_zero (pow_ne_zero _ (by norm_num)) he
  obtain ⟨B, hB⟩ := C23_inverse_exists hs hE.wf hne
    ((Rep.eq_iff hs hm (Rep.scalarMv _)).mpr rfl)
  refine ⟨B, hB, ?_⟩
  obtain ⟨h1, h2, h3⟩ := Rep.inv hs hE hB
  refine h1.congr ?_
  have h4 : Spec.pseudo g * ((eSq g)⁻¹ • Spec.pseudo g) = 1 := by
    rw [mul_smul_comm, eSq_val hs, Algebra.smul_def, ← map_mul, inv_mul_cancel₀ he, map_one]
  calc B.val g = B.val g * (Spec.pseudo g * ((eSq g)⁻¹ • Spec.pseudo g)) := by rw [h4, mul_one]
    _ = _ := by rw [← mul_assoc, h3, one_mul]

/-! ### Determinant -/

/-- C36: `L.det()` is the determinant of `L.matrix()`. -/
theorem C36_det (hs : g.IsSymm) (hd : g.det ≠ 0) {L : Lt K n} (hL : L.WF)
    {M : Matrix (Fin n) (Fin n) K} (hM : L.matrix = some M) : L.det g = some M.det := by
  rw [hL.matrix] at hM; cases hM
  obtain ⟨B, hB, hB'⟩ := pseudoE_inv hs hd
  rw [Lt.det, hB, Option.map_some]
  congr 1
  refine (Rep.mul hs (Rep.call hs hL pseudoE_rep) hB').scalar_of ?_
  rw [Spec.outer_pseudo, mul_smul_comm, smul_mul_assoc, eSq_val hs, Algebra.smul_def,
    Algebra.smul_def, ← map_mul, ← map_mul, grade_zero_algebraMap]
  congr 1
  have := eSq_ne hs hd
  field_simp

/-- C36: the determinant is multiplicative. -/
theorem C36_det_mul (hs : g.IsSymm) (hd : g.det ≠ 0) {L L' : Lt K n} (hL : L.WF) (hL' : L'.WF) :
    ∃ d d', L.det g = some d ∧ L'.det g = some d' ∧ (L.mul L').det g = some (d * d') := by
  refine ⟨_, _, C36_det hs hd hL hL.matrix, C36_det hs hd hL' hL'.matrix, ?_⟩
  rw [C36_det hs hd (hL.mul hL').1 (hL.mul hL').1.matrix, (hL.mul hL').2, Matrix.det_mul]

/-- C36: `L(E) = L.det() * E`. -/
theorem C36_pseudoscalar (hs : g.IsSymm) {L : Lt K n} (hL : L.WF) {d : K} (h : L.det g = some d) :
    (L.call g pseudoE).eq g ((pseudoE : Mv K n).smul d) = true := by
  rw [Rep.eq_iff hs (Rep.call hs hL pseudoE_rep) (pseudoE_rep.smul d), Spec.outer_pseudo]
  rw [Lt.det, Option.map_eq_some_iff] at h
  obtain ⟨B, hB, h⟩ := h
  obtain ⟨h1, h2, -⟩ := Rep.inv hs (pseudoE_rep (g := g)) hB
  have h3 := (Rep.mul hs (Rep.call hs hL pseudoE_rep) h1).scalar_of (c := L.mat.det) (by
    rw [Spec.outer_pseudo, smul_mul_assoc, h2, ← Algebra.algebraMap_eq_smul_one,
      grade_zero_algebraMap])
  rw [← h, h3]

example : Ex.L.det Ex.gN = some (-3) := by decide +kernel

/-! ### Adjoint -/

theorem Spec.ip_mulVec (hs : g.IsSymm) (u v : Fin n → K) : Spec.ip g u v = u ⬝ᵥ g.mulVec v := by
  rw [Spec.ip_dotProduct hs]
  simp only [Spec.ip_single hs, dotProduct, Matrix.mulVec]

theorem mulVec_dot (M : Matrix (Fin n) (Fin n) K) (a b : Fin n → K) :
    M.mulVec a ⬝ᵥ b = a ⬝ᵥ M.transpose.mulVec b := by
  rw [← Matrix.vecMul_transpose, Matrix.dotProduct_mulVec]

theorem gInv_exists (hs : g.IsSymm) (hd : g.det ≠ 0) :
    ∃ gi, gInv g = some gi ∧ gi * g = 1 ∧ g * gi = 1 := by
  have h := C21_exists hs hd false
  rw [mvr, if_neg (by simp), rBasisMv, Option.isSome_map] at h
  obtain ⟨rb, hrb⟩ := Option.isSome_iff_exists.mp h
  have h2 : gInv g = some (Matrix.of fun i j => if i ≤ j then gInvEntry g rb i j
      else gInvEntry g rb j i) := by
    rw [gInv, hrb, Option.bind_some, if_neg (fun h => eSq_ne hs hd h.2)]
  exact ⟨_, h2, C22_inverse_metric hs h2⟩

/-- The matrix of the adjoint. -/
theorem adj_spec (hs : g.IsSymm) (hd : g.det ≠ 0) {L : Lt K n} (hL : L.WF) :
    ∃ gi L', gi * g = 1 ∧ g * gi = 1 ∧ L.adj g = some L' ∧ L'.WF ∧
      L'.mat = gi * L.mat.transpose * g := by
  obtain ⟨gi, h1, h2, h3⟩ := gInv_exists hs hd
  refine ⟨gi, _, h2, h3, ?_, (Lt.ofMatrix_spec (gi * L.mat.transpose * g)).1,
    (Lt.ofMatrix_spec (gi * L.mat.transpose * g)).2⟩
  rw [Lt.adj, h1, Option.bind_some, hL.matrix, Option.map_some]

theorem inv_symm (hs : g.IsSymm) {gi : Matrix (Fin n) (Fin n) K} (_ : gi * g = 1)
    (h2 : g * gi = 1) : gi.transpose = gi := by
  have h3 : gi.transpose * g = 1 := by
    have := congrArg Matrix.transpose h2
    rwa [Matrix.transpose_mul, Matrix.transpose_one, hs] at this
  calc gi.transpose = gi.transpose * (g * gi) := by rw [h2, mul_one]
    _ = gi := by rw [← mul_assoc, h3, one_mul]

/-- C37: `a | L(b) = adj(L)(a) | b` for all vectors. -/
theorem C37_adjoint (hs : g.IsSymm) (hd : g.det ≠ 0) {L : Lt K n} (hL : L.WF) :
    ∃ L', L.adj g = some L' ∧ L'.WF ∧ ∀ a b : Fin n → K,
      ((Mv.vector a).dot g (L.call g (Mv.vector b))).eq g
        ((L'.call g (Mv.vector a)).dot g (Mv.vector b)) = true := by
  obtain ⟨gi, L', h1, h2, h3, h4, h5⟩ := adj_spec hs hd hL
  refine ⟨L', h3, h4, fun a b => ?_⟩
  rw [Rep.eq_iff hs (Rep.dot hs (Rep.vector a) (Rep.call hs hL (Rep.vector b)))
    (Rep.dot hs (Rep.call hs h4 (Rep.vector a)) (Rep.vector b)), Spec.outer_vec, Spec.outer_vec,
    Spec.hestenesDot_vec_ip, Spec.hestenesDot_vec_ip, Spec.ip_mulVec hs, Spec.ip_mulVec hs, h5]
  congr 1
  rw [mulVec_dot, Matrix.mulVec_mulVec, Matrix.mulVec_mulVec, Matrix.transpose_mul,
    Matrix.transpose_mul, Matrix.transpose_transpose, hs, inv_symm hs h1 h2]
  congr 2
  rw [mul_assoc, mul_assoc, h1, mul_one]

/-- C37: the property determines the adjoint on vectors. -/
theorem C37_unique (hs : g.IsSymm) (hd : g.det ≠ 0) {L N L' : Lt K n} (hL : L.WF) (hN : N.WF)
    (hL' : L.adj g = some L')
    (h : ∀ a b : Fin n → K, ((Mv.vector a).dot g (L.call g (Mv.vector b))).eq g
        ((N.call g (Mv.vector a)).dot g (Mv.vector b)) = true) : N.matrix = L'.matrix := by
  obtain ⟨gi, L'', h1, -, h3, h4, h5⟩ := adj_spec hs hd hL
  rw [hL'] at h3; cases h3
  rw [hN.matrix, h4.matrix, h5]
  congr 1
  have hm : g * L.mat = N.mat.transpose * g := by
    ext i j
    have := h (Pi.single i 1) (Pi.single j 1)
    rw [Rep.eq_iff hs (Rep.dot hs (Rep.vector _) (Rep.call hs hL (Rep.vector _)))
      (Rep.dot hs (Rep.call hs hN (Rep.vector _)) (Rep.vector _)), Spec.outer_vec, Spec.outer_vec,
      Spec.hestenesDot_vec_ip, Spec.hestenesDot_vec_ip, Spec.ip_mulVec hs, Spec.ip_mulVec hs] at this
    have := algebraMap_inj g this
    simp only [Matrix.mulVec_mulVec] at this
    rw [mulVec_dot, Matrix.mulVec_mulVec] at this
    simpa using this
  have ht := congrArg Matrix.transpose hm
  rw [Matrix.transpose_mul, Matrix.transpose_mul, Matrix.transpose_transpose, hs] at ht
  rw [mul_assoc, ht, ← mul_assoc, h1, one_mul]

/-- C37: `adj(adj(L)) = L`. -/
theorem C37_involution (hs : g.IsSymm) (hd : g.det ≠ 0) {L : Lt K n} (hL : L.WF) :
    ∃ L' L'', L.adj g = some L' ∧ L'.adj g = some L'' ∧ L''.matrix = L.matrix ∧
      ∀ A : Mv K n, A.WF g → A.isBladeRep = true → (L''.call g A).eq g (L.call g A) = true := by
  obtain ⟨gi, L', h1, h2, h3, h4, h5⟩ := adj_spec hs hd hL
  obtain ⟨gi2, L'', k1, k2, k3, k4, k5⟩ := adj_spec hs hd h4
  have hm : L''.mat = L.mat := by
    rw [k5, h5, Matrix.transpose_mul, Matrix.transpose_mul, Matrix.transpose_transpose, hs,
      inv_symm hs h1 h2]
    calc gi2 * (g * (L.mat * gi)) * g = (gi2 * g) * L.mat * (gi * g) := by
          simp only [mul_assoc]
      _ = L.mat := by rw [k1, h1, one_mul, mul_one]
  refine ⟨L', L'', h3, k3, by rw [hL.matrix, k4.matrix, hm], fun A hA ha => ?_⟩
  have a := Rep.of_wf hA ha
  rw [Rep.eq_iff hs (Rep.call hs k4 a) (Rep.call hs hL a), hm]

/-- C37: `adj(L * L') = adj(L') * adj(L)`. -/
theorem C37_product (hs : g.IsSymm) (hd : g.det ≠ 0) {L L' : Lt K n} (hL : L.WF) (hL' : L'.WF) :
    ∃ P P' Q, L.adj g = some P ∧ L'.adj g = some P' ∧ (L.mul L').adj g = some Q ∧
      Q.matrix = (P'.mul P).matrix ∧
      ∀ A : Mv K n, A.WF g → A.isBladeRep = true → (Q.call g A).eq g ((P'.mul P).call g A) = true := by
  obtain ⟨gi, P, h1, h2, h3, h4, h5⟩ := adj_spec hs hd hL
  obtain ⟨gi2, P', k1, k2, k3, k4, k5⟩ := adj_spec hs hd hL'
  obtain ⟨gi3, Q, l1, l2, l3, l4, l5⟩ := adj_spec hs hd (hL.mul hL').1
  have huniq : ∀ x y : Matrix (Fin n) (Fin n) K, x * g = 1 → g * y = 1 → x = y := by
    intro x y hx hy
    calc x = x * (g * y) := by rw [hy, mul_one]
      _ = y := by rw [← mul_assoc, hx, one_mul]
  have e1 : gi2 = gi := huniq _ _ k1 h2
  have e2 : gi3 = gi := huniq _ _ l1 h2
  have hm : Q.mat = (P'.mul P).mat := by
    rw [l5, (k4.mul h4).2, k5, h5, (hL.mul hL').2, Matrix.transpose_mul, e1, e2]
    calc gi * (L'.mat.transpose * L.mat.transpose) * g
        = gi * L'.mat.transpose * (1 * L.mat.transpose) * g := by rw [one_mul]; simp only [mul_assoc]
      _ = _ := by rw [← h2]; simp only [mul_assoc]
  refine ⟨P, P', Q, h3, k3, l3, by rw [l4.matrix, (k4.mul h4).1.matrix, hm], fun A hA ha => ?_⟩
  have a := Rep.of_wf hA ha
  rw [Rep.eq_iff hs (Rep.call hs l4 a) (Rep.call hs (k4.mul h4).1 a), hm]

/-- C37: a transformation built from `g_inv * S` with a symmetric matrix `S` (string constructor with
mode `s`) is self-adjoint, with an antisymmetric matrix (mode `a`) it is skew-adjoint. -/
theorem C37_modes (hs : g.IsSymm) {gi : Matrix (Fin n) (Fin n) K} (hgi : gInv g = some gi)
    (S : Matrix (Fin n) (Fin n) K) (a b : Fin n → K) :
    (S.transpose = S →
      ((Mv.vector a).dot g ((Lt.ofMatrix (gi * S)).call g (Mv.vector b))).eq g
        (((Lt.ofMatrix (gi * S)).call g (Mv.vector a)).dot g (Mv.vector b)) = true) ∧
    (S.transpose = -S →
      ((Mv.vector a).dot g ((Lt.ofMatrix (gi * S)).call g (Mv.vector b))).eq g
        (((Lt.ofMatrix (gi * S)).call g (Mv.vector a)).dot g (Mv.vector b)).neg = true) := by
  obtain ⟨h1, h2⟩ := C22_inverse_metric hs hgi
  have hL := Lt.ofMatrix_spec (gi * S)
  have l := Rep.dot hs (Rep.vector a) (Rep.call hs hL.1 (Rep.vector b))
  have r := Rep.dot hs (Rep.call hs hL.1 (Rep.vector a)) (Rep.vector b)
  rw [Rep.eq_iff hs l r, Rep.eq_iff hs l r.neg, Spec.outer_vec, Spec.outer_vec,
    Spec.hestenesDot_vec_ip, Spec.hestenesDot_vec_ip, Spec.ip_mulVec hs, Spec.ip_mulVec hs, hL.2]
  have e1 : a ⬝ᵥ g.mulVec ((gi * S).mulVec b) = a ⬝ᵥ S.mulVec b := by
    rw [Matrix.mulVec_mulVec, ← mul_assoc, h2, one_mul]
  have e2 : (gi * S).mulVec a ⬝ᵥ g.mulVec b = a ⬝ᵥ S.transpose.mulVec b := by
    rw [mulVec_dot, Matrix.mulVec_mulVec,
      Matrix.transpose_mul, inv_symm hs h1 h2, mul_assoc, h1, mul_one]
  rw [e1, e2]
  refine ⟨fun h => by rw [h], fun h => ?_⟩
  rw [h, Matrix.neg_mulVec, dotProduct_neg, map_neg, neg_neg]

example : (Ex.L.adj Ex.gN).isSome = true := by decide +kernel

/-! ### Inverse -/

theorem left_pseudo (hs : g.IsSymm) (hd : g.det ≠ 0) (d : K) :
    Spec.leftContraction g (d • Spec.pseudo g) ((eSq g)⁻¹ • Spec.pseudo g) = algebraMap K _ d := by
  have hp := Spec.homogeneous_pseudo (g := g)
  have he := eSq_ne hs hd
  rw [Spec.lc_homogeneous (hp.smul _) (hp.smul _), if_pos le_rfl, Nat.sub_self, mul_smul_comm,
    smul_mul_assoc, eSq_val hs, Algebra.smul_def, Algebra.smul_def, ← map_mul, ← map_mul,
    grade_zero_algebraMap]
  congr 1
  field_simp

theorem isSingular_spec (hs : g.IsSymm) (hd : g.det ≠ 0) {L : Lt K n} (hL : L.WF) :
    L.isSingular g = some (decide (L.mat.det = 0)) := by
  obtain ⟨B, hB, hB'⟩ := pseudoE_inv hs hd
  have h := Rep.left hs (Rep.call hs hL pseudoE_rep) hB'
  rw [Spec.outer_pseudo, left_pseudo hs hd] at h
  have hsc : ((L.call g pseudoE).left g B).scalar = L.mat.det :=
    h.scalar_of (grade_zero_algebraMap g _)
  rw [Lt.isSingular, hB, Option.map_some, hsc]

/-- C38: `is_singular()` says whether the determinant is zero. -/
theorem C38_is_singular (hs : g.IsSymm) (hd : g.det ≠ 0) {L : Lt K n} (hL : L.WF) :
    ∃ d, L.det g = some d ∧ L.isSingular g = some (decide (d = 0)) :=
  ⟨_, C36_det hs hd hL hL.matrix, isSingular_spec hs hd hL⟩

/-- C38: `L.inv()` raises exactly when the determinant is zero. -/
theorem C38_inverse_raises (hs : g.IsSymm) (hd : g.det ≠ 0) {L : Lt K n} (hL : L.WF) :
    L.inv g = none ↔ L.det g = some 0 := by
  rw [C36_det hs hd hL hL.matrix, Lt.inv, isSingular_spec hs hd hL, Option.bind_some, hL.matrix,
    Option.bind_some, matInv, Option.some_inj]
  by_cases h : L.mat.det = 0
  · simp [h]
  · simp [h]

/-- C38: `L.inv()` is the inverse of `L` for composition, on every multivector. -/
theorem C38_inverse (hs : g.IsSymm) (hd : g.det ≠ 0) {L L' : Lt K n} (hL : L.WF)
    (h : L.inv g = some L') : L'.WF ∧ ∀ A : Mv K n, A.WF g → A.isBladeRep = true →
      ((L.mul L').call g A).eq g A = true ∧ ((L'.mul L).call g A).eq g A = true ∧
      (L.call g (L'.call g A)).eq g A = true ∧ (L'.call g (L.call g A)).eq g A = true := by
  rw [Lt.inv, isSingular_spec hs hd hL, Option.bind_some, hL.matrix,
    Option.bind_some, matInv] at h
  by_cases h0 : L.mat.det = 0
  · simp [h0] at h
  simp only [h0, decide_false, Bool.false_eq_true, if_false, Option.map_some, Option.some_inj] at h
  subst h
  obtain ⟨w, hm⟩ := Lt.ofMatrix_spec (L.mat.det⁻¹ • L.mat.adjugate)
  have e1 : L.mat * (L.mat.det⁻¹ • L.mat.adjugate) = 1 := by
    rw [Matrix.mul_smul, Matrix.mul_adjugate, smul_smul, inv_mul_cancel₀ h0, one_smul]
  have e2 : (L.mat.det⁻¹ • L.mat.adjugate) * L.mat = 1 := by
    rw [Matrix.smul_mul, Matrix.adjugate_mul, smul_smul, inv_mul_cancel₀ h0, one_smul]
  refine ⟨w, fun A hA ha => ?_⟩
  have a := Rep.of_wf hA ha
  rw [Rep.eq_iff hs (Rep.call hs (hL.mul w).1 a) a, Rep.eq_iff hs (Rep.call hs (w.mul hL).1 a) a,
    Rep.eq_iff hs (Rep.call hs hL (Rep.call hs w a)) a,
    Rep.eq_iff hs (Rep.call hs w (Rep.call hs hL a)) a, (hL.mul w).2, (w.mul hL).2, hm,
    ← Spec.outer_mul, ← Spec.outer_mul, e1, e2, Spec.outer_id]
  exact ⟨rfl, rfl, rfl, rfl⟩

example : (Ex.L.inv Ex.gN).isSome = true := by decide +kernel

end GA
