import Verif.Proofs.Versor
import Mathlib.LinearAlgebra.Matrix.SchurComplement

/-! Isometries are products of reflections (Cartan and Dieudonné), and every isometry is the action of a product of non-null
vectors. -/

set_option linter.unusedSectionVars false

namespace Spec
open CliffordAlgebra
variable {n : ℕ} {K : Type*} [Field K] [Invertible (2 : K)] {g : Matrix (Fin n) (Fin n) K}

/-- The matrix of the reflection in the hyperplane orthogonal to `a`. -/
def reflM (g : Matrix (Fin n) (Fin n) K) (a : Fin n → K) (q : K) : Matrix (Fin n) (Fin n) K :=
  1 - Matrix.vecMulVec ((q⁻¹ * 2) • a) (g.mulVec a)

theorem reflM_mulVec (hs : g.IsSymm) (a u : Fin n → K) (q : K) :
    (reflM g a q).mulVec u = u - (q⁻¹ * (2 * ip g a u)) • a := by
  rw [reflM, Matrix.sub_mulVec, Matrix.one_mulVec, Matrix.vecMulVec_mulVec, ip_comm, ip_dot hs]
  funext i
  simp only [Pi.sub_apply, Pi.smul_apply, smul_eq_mul, MulOpposite.smul_eq_mul_unop, MulOpposite.unop_op]
  rw [dotProduct_comm]
  ring

theorem det_reflM (hs : g.IsSymm) {a : Fin n → K} (ha : Q g a ≠ 0) : (reflM g a (Q g a)).det = -1 := by
  have h : g.mulVec a ⬝ᵥ a = Q g a := by rw [dotProduct_comm, ← ip_dot hs, ip_Q]
  rw [reflM, sub_eq_add_neg, ← Matrix.neg_vecMulVec, Matrix.vecMulVec_eq Unit, Matrix.det_one_add_replicateCol_mul_replicateRow,
    dotProduct_neg, dotProduct_smul, h, smul_eq_mul]
  field_simp
  norm_num

/-- The multivector `W` acts on vectors as the matrix `M`. -/
def Tw (g : Matrix (Fin n) (Fin n) K) (W : Cl g) (M : Matrix (Fin n) (Fin n) K) : Prop :=
  ∀ v, involute W * vec g v = vec g (M.mulVec v) * W

theorem Tw.vec_mul (hs : g.IsSymm) {W : Cl g} {M : Matrix (Fin n) (Fin n) K} (h : Tw g W M) {a : Fin n → K}
    (ha : Q g a ≠ 0) : Tw g (vec g a * W) (reflM g a (Q g a) * M) := by
  intro v
  rw [← Matrix.mulVec_mulVec, reflM_mulVec hs]
  set u := M.mulVec v
  rw [map_mul, mul_assoc, h v, show involute (vec g a) = -vec g a from involute_ι a,
    show ∀ k : K, vec g (u - k • a) = vec g u - k • vec g a from fun k => by rw [vec, map_sub, map_smul]; rfl,
    ← mul_assoc, ← mul_assoc]
  congr 1
  rw [neg_mul, vec_swap, sub_mul, smul_mul_assoc, vec_sq, Algebra.smul_def, ← map_mul]
  rw [show (Q g a)⁻¹ * (2 * ip g a u) * Q g a = 2 * ip g a u by field_simp]
  abel

theorem Tw.prodL (hs : g.IsSymm) : ∀ {L : List (Fin n → K)}, (∀ v ∈ L, Q g v ≠ 0) →
    Tw g (prodL g L) ((L.map fun a => reflM g a (Q g a)).prod) ∧
      ((L.map fun a => reflM g a (Q g a)).prod).det = (-1) ^ L.length
  | [], _ => ⟨fun v => by simp [Spec.prodL], by simp⟩
  | a :: L, h => by
    obtain ⟨h1, h2⟩ := Tw.prodL hs (L := L) fun v hv => h v (by simp [hv])
    have ha := h a (by simp)
    rw [prodL_cons, List.map_cons, List.prod_cons]
    refine ⟨h1.vec_mul hs ha, ?_⟩
    rw [Matrix.det_mul, h2, det_reflM hs ha, List.length_cons, pow_succ]
    ring

theorem reflM_isom (hs : g.IsSymm) {a : Fin n → K} (ha : Q g a ≠ 0) (v : Fin n → K) :
    Q g ((reflM g a (Q g a)).mulVec v) = Q g v := by
  rw [reflM_mulVec hs, ← ip_Q]
  have e1 := ip_Q (g := g) a
  have e2 := ip_comm (g := g) a v
  have e3 := ip_Q (g := g) v
  simp only [ip, map_sub, map_smul, LinearMap.sub_apply, LinearMap.smul_apply, smul_eq_mul] at e1 e2 e3 ⊢
  rw [e1, ← e2, e3]
  field_simp
  ring

theorem reflM_fix (hs : g.IsSymm) {a v : Fin n → K} (h : ip g a v = 0) (q : K) : (reflM g a q).mulVec v = v := by
  rw [reflM_mulVec hs, h, mul_zero, mul_zero, zero_smul, sub_zero]

theorem reflM_sq (hs : g.IsSymm) {a : Fin n → K} (ha : Q g a ≠ 0) :
    reflM g a (Q g a) * reflM g a (Q g a) = 1 := by
  refine Matrix.ext_iff_mulVec.mpr fun v => ?_
  rw [← Matrix.mulVec_mulVec, Matrix.one_mulVec, reflM_mulVec hs, reflM_mulVec hs]
  have e1 := ip_Q (g := g) a
  simp only [ip, map_sub, map_smul, smul_eq_mul] at e1 ⊢
  rw [e1]
  funext i
  simp only [Pi.sub_apply, Pi.smul_apply, smul_eq_mul]
  field_simp
  ring

theorem isom_ip {M : Matrix (Fin n) (Fin n) K} (hM : ∀ v, Q g (M.mulVec v) = Q g v) (v w : Fin n → K) :
    ip g (M.mulVec v) (M.mulVec w) = ip g v w := by
  have e : ∀ x y : Fin n → K, Q g (x + y) = Q g x + Q g y + 2 * ip g x y := fun x y => by
    rw [← ip_Q, ← ip_Q, ← ip_Q]
    have := ip_comm (g := g) x y
    simp only [ip, map_add, LinearMap.add_apply] at this ⊢
    rw [← this]; ring
  have h := hM (v + w)
  rw [Matrix.mulVec_add, e, e, hM, hM] at h
  exact mul_left_cancel₀ (isUnit_of_invertible (2 : K)).ne_zero (add_left_cancel h)

/-- Every isometry which fixes the vectors of `S` is a product of reflections, if `S` and an orthogonal family of non-null
vectors orthogonal to `S` span the space. -/
theorem exists_refl (hs : g.IsSymm) : ∀ (B : List (Fin n → K)) (S : Set (Fin n → K)) (M : Matrix (Fin n) (Fin n) K),
    (∀ v, Q g (M.mulVec v) = Q g v) → (∀ s ∈ S, M.mulVec s = s) → (∀ b ∈ B, Q g b ≠ 0) →
    (B.Pairwise fun a b => ip g a b = 0) → (∀ b ∈ B, ∀ s ∈ S, ip g b s = 0) →
    Submodule.span K (S ∪ {b | b ∈ B}) = ⊤ →
    ∃ L : List (Fin n → K), (∀ v ∈ L, Q g v ≠ 0) ∧ M = (L.map fun a => reflM g a (Q g a)).prod := by
  intro B
  induction B with
  | nil =>
    intro S M _ hS _ _ _ hsp
    refine ⟨[], by simp, ?_⟩
    refine Matrix.ext_iff_mulVec.mpr fun v => ?_
    have hv : v ∈ Submodule.span K (S ∪ {b | b ∈ ([] : List (Fin n → K))}) := by rw [hsp]; trivial
    simp only [List.map_nil, List.prod_nil, Matrix.one_mulVec]
    have : Set.EqOn M.mulVecLin (LinearMap.id : (Fin n → K) →ₗ[K] _) (S ∪ {b | b ∈ ([] : List (Fin n → K))}) := by
      intro s h
      rcases h with h | h
      · exact hS s h
      · simp at h
    exact LinearMap.eqOn_span this hv
  | cons b B ih =>
    intro S M hM hS hB ho hor hsp
    rw [List.pairwise_cons] at ho
    have hb : Q g b ≠ 0 := hB b (by simp)
    set u := M.mulVec b with hu
    have hQ : Q g u = Q g b := hM b
    have hub : ip g u u = ip g b b := by rw [ip_Q, ip_Q, hQ]
    have hou : ∀ s ∈ S, ip g u s = 0 := fun s h => by
      have := isom_ip hM b s
      rwa [hS s h, hor b (by simp) s h] at this
    have key : ∃ L : List (Fin n → K), (∀ v ∈ L, Q g v ≠ 0) ∧ ∀ s, s ∈ S ∨ s = b →
        ((L.map fun a => reflM g a (Q g a)).prod).mulVec (M.mulVec s) = s := by
      by_cases ha : Q g (b - u) = 0
      · have ha' : Q g (b + u) ≠ 0 := by
          intro h0
          have e : ip g (b - u) (b - u) + ip g (b + u) (b + u) = 4 * Q g b := by
            rw [← ip_Q]
            simp only [ip, map_add, map_sub, LinearMap.add_apply, LinearMap.sub_apply] at hub ⊢
            rw [hub]; ring
          rw [ip_Q, ip_Q, ha, h0, add_zero] at e
          have h2 : (2 : K) ≠ 0 := (isUnit_of_invertible (2 : K)).ne_zero
          have : (4 : K) ≠ 0 := by rw [show (4 : K) = 2 * 2 by norm_num]; exact mul_ne_zero h2 h2
          exact mul_ne_zero this hb e.symm
        refine ⟨[b, b + u], by simp [hb, ha'], ?_⟩
        rintro s (h | rfl)
        · have e1 : ip g (b + u) s = 0 := by
            have e1 := hor b (by simp) s h
            have e2 := hou s h
            rw [ip] at e1 e2 ⊢
            rw [map_add, LinearMap.add_apply, e1, e2, add_zero]
          simp only [List.map_cons, List.map_nil, List.prod_cons, List.prod_nil, mul_one]
          rw [hS s h, ← Matrix.mulVec_mulVec, reflM_fix hs e1, reflM_fix hs (hor b (by simp) s h)]
        · simp only [List.map_cons, List.map_nil, List.prod_cons, List.prod_nil, mul_one]
          have e1 : (reflM g (s + u) (Q g (s + u))).mulVec u = -s := by
            have e : 2 * ip g (s + u) u = Q g (s + u) := by
              rw [← ip_Q]
              have := ip_comm (g := g) s u
              simp only [ip, map_add, LinearMap.add_apply] at hub this ⊢
              rw [hub, this]; ring
            rw [reflM_mulVec hs, e, inv_mul_cancel₀ ha', one_smul]
            abel
          have e2 : (reflM g s (Q g s)).mulVec s = -s := by
            rw [reflM_mulVec hs, ip_Q, show (Q g s)⁻¹ * (2 * Q g s) = 2 by field_simp, two_smul]
            abel
          rw [← Matrix.mulVec_mulVec, ← hu, e1, Matrix.mulVec_neg, e2, neg_neg]
      · refine ⟨[b - u], by simpa using ha, ?_⟩
        simp only [List.map_cons, List.map_nil, List.prod_cons, List.prod_nil, mul_one]
        rintro s (h | rfl)
        · have e1 : ip g (b - u) s = 0 := by
            have e1 := hor b (by simp) s h
            have e2 := hou s h
            rw [ip] at e1 e2 ⊢
            rw [map_sub, LinearMap.sub_apply, e1, e2, sub_zero]
          rw [hS s h, reflM_fix hs e1]
        · have e : 2 * ip g (s - u) u = -Q g (s - u) := by
            rw [← ip_Q]
            have := ip_comm (g := g) s u
            simp only [ip, map_sub, LinearMap.sub_apply] at hub this ⊢
            rw [hub, this]; ring
          rw [← hu, reflM_mulVec hs, e, mul_neg, inv_mul_cancel₀ ha, neg_smul, one_smul]
          abel
    obtain ⟨L, hL, hfix⟩ := key
    have hisoL : ∀ (L : List (Fin n → K)), (∀ v ∈ L, Q g v ≠ 0) → ∀ v,
        Q g (((L.map fun a => reflM g a (Q g a)).prod).mulVec v) = Q g v := by
      intro L
      induction L with
      | nil => simp
      | cons a L ih =>
        intro h v
        rw [List.map_cons, List.prod_cons, ← Matrix.mulVec_mulVec, reflM_isom hs (h a (by simp)),
          ih fun v hv => h v (by simp [hv])]
    obtain ⟨L', hL', e⟩ := ih (S ∪ {b}) ((L.map fun a => reflM g a (Q g a)).prod * M)
      (fun v => by rw [← Matrix.mulVec_mulVec, hisoL L hL, hM])
      (fun s h => by rw [← Matrix.mulVec_mulVec]; exact hfix s h)
      (fun c hc => hB c (by simp [hc])) ho.2
      (by
        rintro c hc s (h | rfl)
        · exact hor c (by simp [hc]) s h
        · rw [ip_comm]; exact ho.1 c hc)
      (by
        rw [← hsp]
        congr 1
        ext x
        simp only [Set.union_singleton, Set.mem_union, Set.mem_insert_iff, Set.mem_ofPred_eq, List.mem_cons]
        tauto)
    refine ⟨L.reverse ++ L', ?_, ?_⟩
    · intro v hv
      rcases List.mem_append.mp hv with h | h
      · exact hL v (List.mem_reverse.mp h)
      · exact hL' v h
    · have inv : ∀ (L : List (Fin n → K)), (∀ v ∈ L, Q g v ≠ 0) →
          (L.reverse.map fun a => reflM g a (Q g a)).prod * (L.map fun a => reflM g a (Q g a)).prod = 1 := by
        intro L
        induction L with
        | nil => simp
        | cons a L ih =>
          intro h
          rw [List.reverse_cons, List.map_append, List.prod_append, List.map_cons, List.map_cons, List.map_nil, List.prod_cons,
            List.prod_cons, List.prod_nil, mul_one, mul_assoc, ← mul_assoc (reflM g a _), reflM_sq hs (h a (by simp)), one_mul,
            ih fun v hv => h v (by simp [hv])]
      rw [List.map_append, List.prod_append, ← e, ← mul_assoc, inv L hL, one_mul]

/-- Every isometry of a non-degenerate metric is the action of a product of non-null vectors. -/
theorem isom_eq_refl (hs : g.IsSymm) (hd : g.det ≠ 0) {M : Matrix (Fin n) (Fin n) K}
    (hM : ∀ v, Q g (M.mulVec v) = Q g v) :
    ∃ L : List (Fin n → K), (∀ v ∈ L, Q g v ≠ 0) ∧ M = (L.map fun a => reflM g a (Q g a)).prod := by
  obtain ⟨b, hb, ho⟩ := exists_nonnull_basis hs hd
  refine exists_refl hs ((List.finRange n).map b) ∅ M hM (by simp) (by simp [hb]) ?_ (by simp) ?_
  · rw [List.pairwise_map]
    exact (List.nodup_finRange n).imp fun {i j} hij => ho i j hij
  · rw [Set.empty_union, ← b.span_eq]
    congr 1
    ext x
    simp

end Spec
