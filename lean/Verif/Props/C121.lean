import Verif.Props.C42
import Verif.Props.C108Gram
import Mathlib.LinearAlgebra.Matrix.Charpoly.Basic
import Mathlib.LinearAlgebra.Matrix.Charpoly.Coeff
import Mathlib.LinearAlgebra.Matrix.ToLinearEquiv
import Mathlib.Algebra.Polynomial.Roots

/-!
# C121: eigenvalues, determinants and the characteristic polynomial of a transformation

`L.call g A` models `L(A)`, `L.det g` models `L.det()`, `L.adj g` models `L.adj()`, `L.inv g` models `L.inv()`, `L.mul L'`,
`L.add L'`, `L.sub L'`, `L.smul c` model `L*L'`, `L+L'`, `L-L'`, `c*L`; `Lt.ofMatrix 1` is the identity.
-/

set_option linter.unusedSectionVars false
set_option maxRecDepth 10000

namespace GA
variable {n : ℕ} {K : Type*} [Field K] [DecidableEq K] [Invertible (2 : K)] {g : Matrix (Fin n) (Fin n) K}

/-- The identity. -/
def Lt.one (n : ℕ) (K : Type*) [Field K] [DecidableEq K] : Lt K n := Lt.ofMatrix 1

theorem Lt.one_spec : (Lt.one n K).WF ∧ (Lt.one n K).mat = 1 := Lt.ofMatrix_spec 1

/-- `v` is an eigenvector of `L` with the eigenvalue `c`. -/
def IsEigen (g : Matrix (Fin n) (Fin n) K) (L : Lt K n) (c : K) (v : Fin n → K) : Prop :=
  v ≠ 0 ∧ (L.call g (Mv.vector v)).eq g ((Mv.vector v).smul c) = true

theorem eigen_iff (hs : g.IsSymm) {L : Lt K n} (hL : L.WF) {c : K} {v : Fin n → K} :
    (L.call g (Mv.vector v)).eq g ((Mv.vector v).smul c) = true ↔ L.mat.mulVec v = c • v := by
  rw [(Rep.call hs hL (Rep.vector v)).eq_iff hs ((Rep.vector v).smul c), Spec.outer_vec, ← Spec.vec_smul]
  exact ⟨fun h => vec_inj g h, fun h => by rw [h]⟩

/-- C121: `c` is an eigenvalue of `L` exactly if `(L - c*Id).det()` is zero. -/
theorem C121_eigenvalue (hs : g.IsSymm) (hd : g.det ≠ 0) {L : Lt K n} (hL : L.WF) (c : K) :
    (∃ v, IsEigen g L c v) ↔ (L.sub ((Lt.one n K).smul c)).det g = some 0 := by
  obtain ⟨h1, e1⟩ := (Lt.one_spec (n := n) (K := K)).1.smul c
  obtain ⟨h2, e2⟩ := hL.sub h1
  rw [C36_det hs hd h2 h2.matrix, Option.some_inj, ← Matrix.exists_mulVec_eq_zero_iff, e2, e1, Lt.one_spec.2]
  refine exists_congr fun v => ?_
  rw [IsEigen, eigen_iff hs hL, Matrix.sub_mulVec, Matrix.smul_mulVec, Matrix.one_mulVec, sub_eq_zero]

/-- C121: on the outer product of eigenvectors `L` is multiplication by the product of the eigenvalues. -/
theorem C121_blade (hs : g.IsSymm) {L : Lt K n} (hL : L.WF) (E : List (K × (Fin n → K)))
    (hE : ∀ p ∈ E, IsEigen g L p.1 p.2) :
    (L.call g (outerOf g (E.map Prod.snd))).eq g ((outerOf g (E.map Prod.snd)).smul (E.map Prod.fst).prod) = true := by
  have r := rep_outerOf (g := g) hs (E.map Prod.snd)
  rw [(Rep.call hs hL r).eq_iff hs (r.smul _)]
  induction E with
  | nil => simp [Spec.outer_one]
  | cons p E ih =>
    have hp := (eigen_iff hs hL).mp (hE p (by simp)).2
    rw [List.map_cons, List.map_cons, Spec.wedgeL_cons, Spec.outer_wedge, Spec.outer_vec, hp,
      ih (fun q hq => hE q (by simp [hq])) (rep_outerOf hs _), Spec.vec_smul, Spec.smul_wedge, Spec.wedge_smul, smul_smul,
      List.prod_cons]

/-- C121: if there are as many eigenvectors as dimensions and they are independent (`v1 ^ ... ^ vn` is not zero), the determinant
is the product of the eigenvalues. -/
theorem C121_det_eigenvalues (hs : g.IsSymm) {L : Lt K n} (hL : L.WF) {d : K} (h : L.det g = some d)
    (E : List (K × (Fin n → K))) (hn : E.length = n) (hE : ∀ p ∈ E, IsEigen g L p.1 p.2)
    (h0 : (outerOf g (E.map Prod.snd)).isZero = false) : d = (E.map Prod.fst).prod := by
  have r := rep_outerOf (g := g) hs (E.map Prod.snd)
  have h1 := C121_blade hs hL E hE
  rw [(Rep.call hs hL r).eq_iff hs (r.smul _)] at h1
  have hne : Spec.wedgeL g (E.map Prod.snd) ≠ 0 := fun e => by
    have := (isZero_iff r.wf).mpr (by rw [r.val, e])
    rw [h0] at this
    exact absurd this (by simp)
  have h2 : Spec.outer g L.mat (Spec.wedgeL g (E.map Prod.snd)) = d • Spec.wedgeL g (E.map Prod.snd) := by
    have hl : (E.map Prod.snd).length = n := by simpa using hn
    have hv : ∃ v : Fin n → Fin n → K, E.map Prod.snd = List.ofFn v := by
      refine ⟨fun i => (E.map Prod.snd)[i]'(by rw [hl]; exact i.2), ?_⟩
      refine List.ext_getElem (by simpa using hl) fun i h h' => by simp
    obtain ⟨v, hv⟩ := hv
    have := (C108_volume_lt hs hL h v).1
    rw [← hv, (Rep.call hs hL r).eq_iff hs (r.smul _)] at this
    exact this
  rw [h2] at h1
  exact smul_left_injective K hne h1

/-- C121: eigenvectors of `L` and of `L.adj()` with different eigenvalues are orthogonal; for a transformation that is its own
adjoint, eigenvectors with different eigenvalues. -/
theorem C121_orthogonal (hs : g.IsSymm) (hd : g.det ≠ 0) {L L' : Lt K n} (hL : L.WF) (hL' : L.adj g = some L') {c c' : K}
    (hc : c ≠ c') {v w : Fin n → K} (hv : IsEigen g L c v) (hw : IsEigen g L' c' w) : inner g v w = 0 := by
  obtain ⟨P, h1, h2, h3⟩ := C37_adjoint hs hd hL
  rw [hL'] at h1
  obtain rfl := Option.some.inj h1
  have e1 := (eigen_iff hs hL).mp hv.2
  have e2 := (eigen_iff hs h2).mp hw.2
  have h := h3 w v
  rw [Rep.eq_iff hs (Rep.dot hs (Rep.vector w) (Rep.call hs hL (Rep.vector v)))
    (Rep.dot hs (Rep.call hs h2 (Rep.vector w)) (Rep.vector v)), Spec.outer_vec, Spec.outer_vec, e1, e2,
    Spec.hestenesDot_vec_ip, Spec.hestenesDot_vec_ip] at h
  have h := algebraMap_inj g h
  have s1 : Spec.ip g w (c • v) = c * Spec.ip g w v := by rw [Spec.ip, Spec.ip, map_smul, smul_eq_mul]
  have s2 : Spec.ip g (c' • w) v = c' * Spec.ip g w v := by rw [Spec.ip, Spec.ip, map_smul]; rfl
  rw [s1, s2, ← sub_eq_zero, ← sub_mul] at h
  rw [← ip_inner hs, Spec.ip_comm]
  exact (mul_eq_zero.mp h).resolve_left (sub_ne_zero.mpr hc)

/-- C121: `L.adj().det() = L.det()`, `L.inv().det() * L.det() = 1` and `(c*L).det() = c**n * L.det()`. -/
theorem C121_det (hs : g.IsSymm) (hd : g.det ≠ 0) {L : Lt K n} (hL : L.WF) (c : K) : ∃ d, L.det g = some d ∧
    (∃ L', L.adj g = some L' ∧ L'.det g = some d) ∧ (L.smul c).det g = some (c ^ n * d) ∧
    ∀ L', L.inv g = some L' → ∃ e, L'.det g = some e ∧ e * d = 1 := by
  refine ⟨_, C36_det hs hd hL hL.matrix, ?_, ?_, fun L' h => ?_⟩
  · obtain ⟨gi, L', h1, h2, h3, h4, h5⟩ := adj_spec hs hd hL
    refine ⟨L', h3, ?_⟩
    rw [C36_det hs hd h4 h4.matrix, h5, Matrix.det_mul, Matrix.det_mul, Matrix.det_transpose, mul_right_comm, ← Matrix.det_mul, h1,
      Matrix.det_one, one_mul]
  · obtain ⟨h1, h2⟩ := hL.smul c
    rw [C36_det hs hd h1 h1.matrix, h2, Matrix.det_smul, Fintype.card_fin]
  · obtain ⟨w, h1⟩ := C38_inverse hs hd hL h
    refine ⟨_, C36_det hs hd w w.matrix, ?_⟩
    rw [← Matrix.det_mul]
    have : L'.mat * L.mat = 1 := by
      ext i j
      have h2 := (h1 (Mv.vector (Pi.single j 1)) (Rep.vector (g := g) _).wf (Rep.vector (g := g) _).flag).2.1
      rw [Rep.eq_iff hs (Rep.call hs (w.mul hL).1 (Rep.vector _)) (Rep.vector _), Spec.outer_vec, (w.mul hL).2] at h2
      have h2 := congrFun (vec_inj g h2) i
      simpa [Matrix.one_apply, Pi.single_apply] using h2
    rw [this, Matrix.det_one]

/-- `c0*Id + c1*L + c2*L*L + ...`. -/
def polyLt (L : Lt K n) : List K → Lt K n
  | [] => (Lt.one n K).smul 0
  | c :: cs => ((Lt.one n K).smul c).add (L.mul (polyLt L cs))

/-- `c0 + c1*t + c2*t**2 + ...`. -/
def polyVal (t : K) : List K → K
  | [] => 0
  | c :: cs => c + t * polyVal t cs

/-- The polynomial with these coefficients. -/
noncomputable def polyOf : List K → Polynomial K
  | [] => 0
  | c :: cs => Polynomial.C c + Polynomial.X * polyOf cs

theorem eval_polyOf (t : K) (cs : List K) : (polyOf cs).eval t = polyVal t cs := by
  induction cs with
  | nil => simp [polyOf, polyVal]
  | cons c cs ih => simp [polyOf, polyVal, ih]

theorem polyLt_spec {L : Lt K n} (hL : L.WF) (cs : List K) :
    (polyLt L cs).WF ∧ (polyLt L cs).mat = Polynomial.aeval L.mat (polyOf cs) := by
  induction cs with
  | nil =>
    obtain ⟨h1, h2⟩ := (Lt.one_spec (n := n) (K := K)).1.smul 0
    exact ⟨h1, by rw [polyLt, h2, zero_smul, polyOf, map_zero]⟩
  | cons c cs ih =>
    obtain ⟨h1, h2⟩ := (Lt.one_spec (n := n) (K := K)).1.smul c
    obtain ⟨h3, h4⟩ := hL.mul ih.1
    obtain ⟨h5, h6⟩ := h1.add h3
    refine ⟨h5, ?_⟩
    rw [polyLt, h6, h2, h4, ih.2, Lt.one_spec.2, polyOf, map_add, map_mul, Polynomial.aeval_C, Polynomial.aeval_X,
      Algebra.algebraMap_eq_smul_one]

/-- C121, Cayley and Hamilton: if `(t*Id - L).det()` is `c0 + c1*t + c2*t**2 + ...` for all `t`, then
`c0*Id + c1*L + c2*L*L + ...` maps all vectors to zero. -/
theorem C121_cayley_hamilton [Infinite K] (hs : g.IsSymm) (hd : g.det ≠ 0) {L : Lt K n} (hL : L.WF) {cs : List K}
    (h : ∀ t, (((Lt.one n K).smul t).sub L).det g = some (polyVal t cs)) (v : Fin n → K) :
    ((polyLt L cs).call g (Mv.vector v)).isZero = true := by
  have e : polyOf cs = L.mat.charpoly := by
    refine Polynomial.funext fun t => ?_
    obtain ⟨h1, h2⟩ := (Lt.one_spec (n := n) (K := K)).1.smul t
    obtain ⟨h3, h4⟩ := h1.sub hL
    have := h t
    rw [C36_det hs hd h3 h3.matrix, Option.some_inj, h4, h2, Lt.one_spec.2] at this
    rw [eval_polyOf, ← this, Matrix.eval_charpoly]
    congr 2
    ext i j
    simp [Matrix.scalar_apply, Matrix.diagonal_apply, Matrix.one_apply]
  obtain ⟨h1, h2⟩ := polyLt_spec hL cs
  have r := Rep.call hs h1 (Rep.vector (g := g) v)
  rw [isZero_iff r.wf, r.val, Spec.outer_vec, h2, e, Matrix.aeval_self_charpoly, Matrix.zero_mulVec]
  exact map_zero _

/-- C121: there are such coefficients: `n + 1` of them, the last one is 1. -/
theorem C121_characteristic (hs : g.IsSymm) (hd : g.det ≠ 0) {L : Lt K n} (hL : L.WF) :
    ∃ cs : List K, cs.length = n + 1 ∧ cs.getLast? = some 1 ∧
      ∀ t, (((Lt.one n K).smul t).sub L).det g = some (polyVal t cs) := by
  have key : ∀ (m : ℕ) (p : Polynomial K), p.natDegree ≤ m → p.coeff m = 1 → ∃ cs : List K, cs.length = m + 1 ∧
      cs.getLast? = some 1 ∧ ∀ t, p.eval t = polyVal t cs := by
    intro m
    induction m with
    | zero =>
      intro p hp h1
      refine ⟨[1], rfl, rfl, fun t => ?_⟩
      rw [Polynomial.eq_C_of_natDegree_le_zero hp, h1]
      simp [polyVal]
    | succ m ih =>
      intro p hp h1
      obtain ⟨cs, a1, a2, a3⟩ := ih p.divX (by rw [Polynomial.natDegree_divX_eq_natDegree_tsub_one]; omega)
        (by rw [Polynomial.coeff_divX, h1])
      refine ⟨p.coeff 0 :: cs, by simp [a1], ?_, fun t => ?_⟩
      · cases cs with
        | nil => simp at a1
        | cons c cs => rw [List.getLast?_cons_cons, a2]
      · conv_lhs => rw [← Polynomial.divX_mul_X_add p]
        rw [Polynomial.eval_add, Polynomial.eval_mul, Polynomial.eval_X, Polynomial.eval_C, a3, polyVal]
        ring
  obtain ⟨cs, a1, a2, a3⟩ := key n L.mat.charpoly (by rw [Matrix.charpoly_natDegree_eq_dim, Fintype.card_fin])
    (by
      have := L.mat.charpoly_monic
      rw [Polynomial.Monic, Polynomial.leadingCoeff, Matrix.charpoly_natDegree_eq_dim, Fintype.card_fin] at this
      exact this)
  refine ⟨cs, a1, a2, fun t => ?_⟩
  obtain ⟨h1, h2⟩ := (Lt.one_spec (n := n) (K := K)).1.smul t
  obtain ⟨h3, h4⟩ := h1.sub hL
  rw [C36_det hs hd h3 h3.matrix, h4, h2, Lt.one_spec.2, ← a3, Matrix.eval_charpoly]
  congr 3
  ext i j
  simp [Matrix.scalar_apply, Matrix.diagonal_apply, Matrix.one_apply]

section Ex

/-- A transformation of 3-space that is not symmetric, with the eigenvalues 2, 2, 5. -/
def Ex.E : Lt ℚ 3 := Lt.ofMatrix !![2, 0, 3; 0, 2, 0; 0, 0, 5]

/-- Witness: its eigenvectors are independent, and its determinant in a metric that is not orthogonal. -/
example : Ex.E.WF ∧ (∀ p ∈ [((2 : ℚ), (![1, 0, 0] : Fin 3 → ℚ)), (2, ![0, 1, 0]), (5, ![1, 0, 1])], IsEigen (Ex.gE ℚ) Ex.E p.1 p.2) ∧
    (outerOf (Ex.gE ℚ) [![1, 0, 0], ![0, 1, 0], ![1, 0, 1]]).isZero = false ∧ Ex.E.det (Ex.gE ℚ) = some 20 := by
  refine ⟨(Lt.ofMatrix_spec _).1, ?_, by decide +kernel, by decide +kernel⟩
  intro p hp
  simp only [List.mem_cons, List.not_mem_nil, or_false] at hp
  rcases hp with rfl | rfl | rfl <;> exact ⟨by decide +kernel, by decide +kernel⟩

/-- Witness: its characteristic polynomial, and a polynomial that does not give zero. -/
example : ((polyLt Ex.E [-20, 24, -9, 1]).call (Ex.gE ℚ) (Mv.vector ![1, 2, 3])).isZero = true ∧
    ((polyLt Ex.E [10, -7, 1]).call (Ex.gE ℚ) (Mv.vector ![1, 2, 3])).isZero = true ∧
    ((polyLt Ex.E [-5, 1]).call (Ex.gE ℚ) (Mv.vector ![1, 2, 3])).isZero = false ∧
    (((Lt.one 3 ℚ).smul 7).sub Ex.E).det (Ex.gE ℚ) = some (polyVal 7 [-20, 24, -9, 1]) := by
  decide +kernel

/-- Witness: the adjoint exists, and `L - 5*Id` is singular. -/
example : (Ex.E.adj (Ex.gE ℚ)).isSome = true ∧ (Ex.E.inv (Ex.gE ℚ)).isSome = true ∧
    (Ex.E.sub ((Lt.one 3 ℚ).smul 5)).det (Ex.gE ℚ) = some 0 := by
  decide +kernel

end Ex

end GA
