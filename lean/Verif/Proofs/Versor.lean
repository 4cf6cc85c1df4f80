import Verif.Proofs.Simple
import Verif.Proofs.Invert
import Verif.Proofs.Deriv
import Mathlib.LinearAlgebra.QuadraticForm.Basic

/-! Versors: products of vectors which are not null (Cartan and Dieudonné). -/

set_option linter.unusedSectionVars false

namespace Spec
open CliffordAlgebra
variable {n : ℕ} {K : Type*} [Field K] [Invertible (2 : K)] {g : Matrix (Fin n) (Fin n) K}

theorem ip_Q (v : Fin n → K) : ip g v v = Q g v := by
  rw [ip, QuadraticMap.associated_eq_self_apply]

theorem vec_swap (v w : Fin n → K) :
    vec g v * vec g w = algebraMap K _ (2 * ip g v w) - vec g w * vec g v := by
  rw [vec_mul, vec_mul, con_vec, con_vec, wedge_vec_right, show involute (vec g v) = -vec g v from involute_ι v, wedge_neg,
    show QuadraticMap.associated (R := K) (Q g) w v = ip g v w from ip_comm w v,
    show QuadraticMap.associated (R := K) (Q g) v w = ip g v w from rfl, two_mul, map_add]
  abel

theorem vec_sq (v : Fin n → K) : vec g v * vec g v = algebraMap K _ (Q g v) := ι_sq_scalar _ _

/-- The product of a list of vectors. -/
noncomputable def prodL (g : Matrix (Fin n) (Fin n) K) (L : List (Fin n → K)) : Cl g := (L.map (vec g)).prod

theorem prodL_cons (v : Fin n → K) (L : List (Fin n → K)) : prodL g (v :: L) = vec g v * prodL g L := by
  simp [prodL]

theorem prodL_append (L M : List (Fin n → K)) : prodL g (L ++ M) = prodL g L * prodL g M := by
  simp [prodL]

theorem reverse_prodL (L : List (Fin n → K)) : reverse (prodL g L) = prodL g L.reverse := by
  induction L with
  | nil => simp [prodL]
  | cons v L ih =>
    rw [prodL_cons, reverse.map_mul, ih, List.reverse_cons, prodL_append, prodL_cons]
    simp [prodL, vec]

theorem prodL_mul_reverse {L : List (Fin n → K)} (h : ∀ v ∈ L, Q g v ≠ 0) :
    ∃ q : K, q ≠ 0 ∧ prodL g L * reverse (prodL g L) = algebraMap K _ q := by
  induction L with
  | nil => exact ⟨1, one_ne_zero, by simp [prodL]⟩
  | cons v L ih =>
    obtain ⟨q, hq, e⟩ := ih fun w hw => h w (by simp [hw])
    refine ⟨Q g v * q, mul_ne_zero (h v (by simp)) hq, ?_⟩
    rw [prodL_cons, reverse.map_mul, show reverse (vec g v) = vec g v from reverse_ι v, mul_assoc, ← mul_assoc (prodL g L), e,
      Algebra.commutes, ← mul_assoc, vec_sq, ← map_mul]

/-- The defining property of the action of a versor: `v V' = V̂ v` for a vector `v'`. -/
theorem prodL_twist (L : List (Fin n → K)) (v : Fin n → K) :
    Homogeneous g 1 (involute (prodL g L) * vec g v * reverse (prodL g L)) := by
  induction L with
  | nil => simpa [prodL] using homogeneous_vec v
  | cons w L ih =>
    obtain ⟨u, hu⟩ := homogeneous_one ih
    rw [prodL_cons, reverse.map_mul, map_mul, show reverse (vec g w) = vec g w from reverse_ι w,
      show involute (vec g w) = -vec g w from involute_ι w]
    have : -vec g w * involute (prodL g L) * vec g v * (reverse (prodL g L) * vec g w) =
        -(vec g w * (involute (prodL g L) * vec g v * reverse (prodL g L)) * vec g w) := by noncomm_ring
    rw [this, hu, vec_swap, sub_mul, ← Algebra.smul_def, mul_assoc, vec_sq, ← Algebra.commutes, ← Algebra.smul_def]
    exact (((homogeneous_vec w).smul _).sub ((homogeneous_vec u).smul _)).neg

/-- `W` acts on vectors: it is invertible and `Ŵ v = v' W` for a vector `v'`. -/
structure Acts (g : Matrix (Fin n) (Fin n) K) (W : Cl g) : Prop where
  inv : ∃ Y, W * Y = 1
  move : ∀ v, ∃ u, involute W * vec g v = vec g u * W

theorem Acts.vec_mul {W : Cl g} (h : Acts g W) {a : Fin n → K} (ha : Q g a ≠ 0) : Acts g (vec g a * W) := by
  obtain ⟨Y, hY⟩ := h.inv
  refine ⟨⟨Y * ((Q g a)⁻¹ • vec g a), ?_⟩, fun v => ?_⟩
  · rw [mul_assoc, ← mul_assoc W, hY, one_mul, mul_smul_comm, vec_sq, Algebra.smul_def, ← map_mul, inv_mul_cancel₀ ha,
      map_one]
  · obtain ⟨u, hu⟩ := h.move v
    refine ⟨u - ((Q g a)⁻¹ * (2 * ip g a u)) • a, ?_⟩
    rw [map_mul, mul_assoc, hu, show involute (vec g a) = -vec g a from involute_ι a,
      show ∀ k : K, vec g (u - k • a) = vec g u - k • vec g a from fun k => by rw [vec, map_sub, map_smul]; rfl,
      ← mul_assoc, ← mul_assoc]
    congr 1
    rw [neg_mul, vec_swap, sub_mul, smul_mul_assoc, vec_sq, Algebra.smul_def, ← map_mul]
    rw [show (Q g a)⁻¹ * (2 * ip g a u) * Q g a = 2 * ip g a u by field_simp]
    abel

/-- Versors keep scalar products. -/
theorem Acts.isom {W : Cl g} (h : Acts g W) {v w v' w' : Fin n → K} (hv : involute W * vec g v = vec g v' * W)
    (hw : involute W * vec g w = vec g w' * W) : ip g v' w' = ip g v w := by
  obtain ⟨Y, hY⟩ := h.inv
  have hi : ∀ {a b : Fin n → K}, involute W * vec g a = vec g b * W → W * vec g a = vec g b * involute W := fun {a b} e => by
    have := congrArg (involute (Q := Q g)) e
    rw [map_mul, map_mul, involute_involute, show involute (vec g a) = -vec g a from involute_ι a,
      show involute (vec g b) = -vec g b from involute_ι b, mul_neg, neg_mul, neg_inj] at this
    exact this
  have e1 : involute W * (vec g v * vec g w + vec g w * vec g v) =
      (vec g v' * vec g w' + vec g w' * vec g v') * involute W := by
    rw [mul_add, ← mul_assoc, ← mul_assoc, hv, hw, mul_assoc, mul_assoc, hi hv, hi hw]
    noncomm_ring
  rw [vec_swap v w, vec_swap v' w', sub_add_cancel, sub_add_cancel, ← Algebra.commutes] at e1
  have e2 : involute W * involute Y = 1 := by rw [← map_mul, hY, map_one]
  have e3 := congrArg (· * involute Y) e1
  simp only [mul_assoc, e2, mul_one] at e3
  classical
  have := GA.algebraMap_inj g e3
  have h2 : (2 : K) ≠ 0 := (isUnit_of_invertible (2 : K)).ne_zero
  exact (mul_left_cancel₀ h2 this).symm

/-- One step of the theorem of Cartan and Dieudonné. -/
theorem Acts.step {W : Cl g} (h : Acts g W) {S : Set (Fin n → K)} (hS : ∀ s ∈ S, involute W * vec g s = vec g s * W)
    {b : Fin n → K} (hb : Q g b ≠ 0) (ho : ∀ s ∈ S, ip g b s = 0) :
    ∃ L : List (Fin n → K), (∀ v ∈ L, Q g v ≠ 0) ∧ Acts g (prodL g L * W) ∧
      ∀ s, s ∈ S ∨ s = b → involute (prodL g L * W) * vec g s = vec g s * (prodL g L * W) := by
  obtain ⟨u, hu⟩ := h.move b
  have hQ : Q g u = Q g b := by rw [← ip_Q, h.isom hu hu, ip_Q]
  have hou : ∀ s ∈ S, ip g u s = 0 := fun s hs => by rw [h.isom hu (hS s hs), ho s hs]
  have hiv : ∀ a : Fin n → K, involute (vec g a) = -vec g a := fun a => involute_ι a
  have hsw : ∀ {a s : Fin n → K}, ip g a s = 0 → vec g a * vec g s = -(vec g s * vec g a) := fun {a s} e => by
    rw [vec_swap, e, mul_zero, map_zero, zero_sub]
  by_cases ha : Q g (b - u) = 0
  · have ha' : Q g (b + u) ≠ 0 := by
      intro h0
      have e : ip g (b - u) (b - u) + ip g (b + u) (b + u) = 4 * Q g b := by
        simp only [ip, map_add, map_sub, LinearMap.add_apply, LinearMap.sub_apply]
        have e1 := ip_Q (g := g) b
        have e2 := ip_Q (g := g) u
        simp only [ip] at e1 e2
        rw [e1, e2, hQ]; ring
      rw [ip_Q, ip_Q, ha, h0, add_zero] at e
      have h2 : (2 : K) ≠ 0 := (isUnit_of_invertible (2 : K)).ne_zero
      have : (4 : K) ≠ 0 := by rw [show (4 : K) = 2 * 2 by norm_num]; exact mul_ne_zero h2 h2
      exact mul_ne_zero this hb e.symm
    refine ⟨[b, b + u], ?_, ?_, ?_⟩
    · simp [hb, ha']
    · have := (h.vec_mul ha').vec_mul hb
      simpa [prodL, mul_assoc] using this
    · have hp : prodL g [b, b + u] * W = vec g b * (vec g (b + u) * W) := by simp [prodL, mul_assoc]
      rw [hp]
      rintro s (hs | rfl)
      · have e1 : ip g (b + u) s = 0 := by
          have := ho s hs; have := hou s hs
          simp only [ip, map_add, LinearMap.add_apply] at *
          simp [*]
        rw [map_mul, map_mul, hiv, hiv, mul_assoc, mul_assoc, hS s hs]
        have := hsw e1
        have := hsw (ho s hs)
        calc -vec g b * (-vec g (b + u) * (vec g s * W)) = vec g b * (vec g (b + u) * vec g s) * W := by noncomm_ring
          _ = vec g s * (vec g b * (vec g (b + u) * W)) := by
            rw [hsw e1, mul_neg, ← mul_assoc, hsw (ho s hs)]; noncomm_ring
      · rw [map_mul, map_mul, hiv, hiv, mul_assoc, mul_assoc, hu]
        have e1 : vec g (s + u) * vec g u = vec g s * vec g (s + u) := by
          rw [vec_add, add_mul, mul_add, vec_sq, vec_sq, hQ, add_comm]
        calc -vec g s * (-vec g (s + u) * (vec g u * W)) = vec g s * (vec g (s + u) * vec g u) * W := by noncomm_ring
          _ = _ := by rw [e1]; noncomm_ring
  · refine ⟨[b - u], by simpa using ha, by simpa [prodL] using h.vec_mul ha, ?_⟩
    have hp : prodL g [b - u] * W = vec g (b - u) * W := by simp [prodL]
    rw [hp]
    rintro s (hs | rfl)
    · have e1 : ip g (b - u) s = 0 := by
        have := ho s hs; have := hou s hs
        simp only [ip, map_sub, LinearMap.sub_apply] at *
        simp [*]
      rw [map_mul, hiv, mul_assoc, hS s hs, ← mul_assoc, ← mul_assoc, neg_mul, hsw e1, neg_neg]
    · rw [map_mul, hiv, mul_assoc, hu, ← mul_assoc, ← mul_assoc]
      congr 1
      have e2 : vec g (s - u) = vec g s - vec g u := map_sub _ _ _
      rw [e2, neg_mul, sub_mul, mul_sub, vec_sq, vec_sq, hQ]
      abel

/-- A product of non-null vectors times `W` fixes all vectors of an orthogonal family of non-null vectors. -/
theorem Acts.fix {W : Cl g} (h : Acts g W) (B : List (Fin n → K)) (hb : ∀ b ∈ B, Q g b ≠ 0)
    (ho : B.Pairwise fun a b => ip g a b = 0) :
    ∃ L : List (Fin n → K), (∀ v ∈ L, Q g v ≠ 0) ∧ Acts g (prodL g L * W) ∧
      ∀ s ∈ B, involute (prodL g L * W) * vec g s = vec g s * (prodL g L * W) := by
  induction B with
  | nil => exact ⟨[], by simp, by simpa [prodL] using h, by simp⟩
  | cons b B ih =>
    rw [List.pairwise_cons] at ho
    obtain ⟨L, h1, h2, h3⟩ := ih (fun v hv => hb v (by simp [hv])) ho.2
    obtain ⟨M, h4, h5, h6⟩ := h2.step (S := {s | s ∈ B}) h3 (hb b (by simp)) fun s hs => ho.1 s hs
    refine ⟨M ++ L, ?_, ?_, ?_⟩
    · intro v hv
      rcases List.mem_append.mp hv with h | h
      · exact h4 v h
      · exact h1 v h
    · rw [prodL_append, mul_assoc]; exact h5
    · rw [prodL_append, mul_assoc]
      intro s hs
      rcases List.mem_cons.mp hs with h | h
      · exact h6 s (Or.inr h)
      · exact h6 s (Or.inl h)

theorem exists_dual (hs : g.IsSymm) (hd : g.det ≠ 0) (i : Fin n) : ∃ v, QuadraticMap.associated (R := K) (Q g) v = LinearMap.proj i := by
  refine ⟨fun k => g⁻¹ i k, ?_⟩
  refine LinearMap.ext fun w => ?_
  have h := ip_dot hs (fun k => g⁻¹ i k) w
  rw [ip] at h
  rw [h, LinearMap.proj_apply]
  have : (fun k => g⁻¹ i k) ⬝ᵥ g.mulVec w = (g⁻¹.mulVec (g.mulVec w)) i := rfl
  rw [this, Matrix.mulVec_mulVec, Matrix.nonsing_inv_mul _ (isUnit_iff_ne_zero.mpr hd), Matrix.one_mulVec]

/-- An element which commutes with all vectors, up to the grade involution, is a scalar. -/
theorem scalar_of_fix (hs : g.IsSymm) (hd : g.det ≠ 0) {W : Cl g} (h : ∀ v, involute W * vec g v = vec g v * W) :
    ∃ c, W = algebraMap K _ c := by
  refine homogeneous_zero_iff.mp (homogeneous_zero_of_cof fun i => ?_)
  obtain ⟨v, hv⟩ := exists_dual hs hd i
  have e := mul_vec (g := g) v (involute W)
  rw [involute_involute, h, eq_comm, sub_eq_self] at e
  rw [← hv]
  change con g v W = 0
  rw [← one_smul K (con g v W), ← invOf_mul_self (2 : K), mul_smul, e, smul_zero]

theorem exists_nonnull_basis (hs : g.IsSymm) (hd : g.det ≠ 0) : ∃ b : Module.Basis (Fin n) K (Fin n → K),
    (∀ i, Q g (b i) ≠ 0) ∧ ∀ i j, i ≠ j → ip g (b i) (b j) = 0 := by
  obtain ⟨b, hb⟩ := exists_ortho g
  refine ⟨b, fun i h0 => b.ne_zero i ?_, hb⟩
  have h1 : ∀ w, ip g (b i) w = 0 := fun w => by
    rw [← b.sum_repr w, ip, map_sum]
    refine Finset.sum_eq_zero fun j _ => ?_
    rw [map_smul]
    by_cases hij : i = j
    · subst hij
      have := ip_Q (g := g) (b i)
      rw [ip] at this
      rw [this, h0, smul_zero]
    · have := hb i j hij
      rw [ip] at this
      rw [this, smul_zero]
  funext k
  obtain ⟨v, hv⟩ := exists_dual hs hd k
  have h2 := h1 v
  rw [ip_comm, ip, hv, LinearMap.proj_apply] at h2
  exact h2

/-- The theorem of Cartan and Dieudonné for versors: over a non-degenerate metric, an invertible element which maps
vectors to vectors by `v ↦ V̂ v V⁻¹` is a multiple of a product of non-null vectors. -/
theorem Acts.eq_prod (hs : g.IsSymm) (hd : g.det ≠ 0) {V : Cl g} (h : Acts g V) :
    ∃ (c : K) (L : List (Fin n → K)), (∀ v ∈ L, Q g v ≠ 0) ∧ V = c • prodL g L := by
  obtain ⟨b, hb, ho⟩ := exists_nonnull_basis hs hd
  obtain ⟨L, h1, h2, h3⟩ := h.fix ((List.finRange n).map b) (by simp [hb]) (by
    rw [List.pairwise_map]
    exact (List.nodup_finRange n).imp fun {i j} hij => ho i j hij)
  obtain ⟨c, hc⟩ := scalar_of_fix hs hd (W := prodL g L * V) (by
    intro v
    rw [← b.sum_repr v]
    simp only [vec, map_sum, map_smul, Finset.mul_sum, Finset.sum_mul, mul_smul_comm, smul_mul_assoc]
    refine Finset.sum_congr rfl fun i _ => ?_
    congr 1
    exact h3 (b i) (List.mem_map.mpr ⟨i, List.mem_finRange i, rfl⟩))
  obtain ⟨q, hq, e⟩ := prodL_mul_reverse (g := g) (L := L.reverse) fun v hv => h1 v (List.mem_reverse.mp hv)
  rw [reverse_prodL, List.reverse_reverse] at e
  refine ⟨q⁻¹ * c, L.reverse, fun v hv => h1 v (List.mem_reverse.mp hv), ?_⟩
  have : algebraMap K (Cl g) q * V = c • prodL g L.reverse := by
    rw [← e, mul_assoc, hc, ← Algebra.commutes, Algebra.smul_def]
  rw [mul_smul, ← this, ← Algebra.smul_def, smul_smul, inv_mul_cancel₀ hq, one_smul]

/-- A multiple of a product of non-null vectors is a product of non-null vectors, if there is a non-null vector. -/
theorem smul_prodL {L : List (Fin n → K)} (h : ∀ v ∈ L, Q g v ≠ 0) {c : K} (hc : c ≠ 0) {b : Fin n → K} (hb : Q g b ≠ 0) :
    ∃ L' : List (Fin n → K), (∀ v ∈ L', Q g v ≠ 0) ∧ c • prodL g L = prodL g L' := by
  refine ⟨(c • b) :: ((Q g b)⁻¹ • b) :: L, ?_, ?_⟩
  · intro v hv
    rcases List.mem_cons.mp hv with rfl | hv
    · rw [QuadraticMap.map_smul]; exact smul_ne_zero (mul_ne_zero hc hc) hb
    · rcases List.mem_cons.mp hv with rfl | hv
      · rw [QuadraticMap.map_smul]; exact smul_ne_zero (mul_ne_zero (inv_ne_zero hb) (inv_ne_zero hb)) hb
      · exact h v hv
  · rw [prodL_cons, prodL_cons, vec_smul, vec_smul, smul_mul_assoc, smul_mul_assoc, mul_smul_comm, ← mul_assoc, vec_sq,
      ← Algebra.smul_def, smul_smul (Q g b)⁻¹, inv_mul_cancel₀ hb, one_smul]

end Spec
