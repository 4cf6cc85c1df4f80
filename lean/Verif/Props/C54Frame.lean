import Verif.Props.C21
import Verif.Props.C108Gram
import Verif.Props.C110
import Verif.Proofs.Subspace

/-!
# C54, continued: when `Ga.ReciprocalFrame` has a result, and which vectors it returns

The frame is given by the components `v 0, ..., v (k-1)` of its vectors; `Mv.vector (v i)` models the multivector.
`inner g a b` is the inner product of the vectors with the components `a`, `b`.
-/

set_option linter.unusedSectionVars false
set_option maxRecDepth 10000

namespace Spec
open GA CliffordAlgebra
variable {n : ℕ} {K : Type*} [Field K] [DecidableEq K] [Invertible (2 : K)] {g : Matrix (Fin n) (Fin n) K}

/-- The square of an exterior product of `k` vectors is, up to the sign of the reversal, the determinant of their inner
products. -/
theorem wedgeL_sq_gram {k : ℕ} (v : Fin k → Fin n → K) :
    wedgeL g (List.ofFn v) * wedgeL g (List.ofFn v) =
      algebraMap K _ ((-1) ^ (k * (k - 1) / 2) * (Matrix.of fun i j => ip g (v i) (v j)).det) := by
  have h := (homogeneous_reverse (homogeneous_wedgeL (g := g) (List.ofFn v))).2
  rw [List.length_ofFn] at h
  obtain ⟨c, hc⟩ := homogeneous_zero_iff.mp (wedgeL_sq_homogeneous (g := g) (List.ofFn v))
  have hsp := sp_wedgeL (g := g) v v
  have e : sp (wedgeL g (List.ofFn v)) (wedgeL g (List.ofFn v)) = (-1) ^ (k * (k - 1) / 2) * c := by
    refine sc_unique ?_
    rw [h, smul_mul_assoc, hc, Algebra.smul_def, ← map_mul, grade_zero_algebraMap]
  rw [hc, ← hsp, e, ← mul_assoc, ← mul_pow, neg_one_mul, neg_neg, one_pow, one_mul]

/-- A reciprocal vector lies in the span of the frame. -/
theorem recip_mem {L : List (Fin n → K)} {c : K} (hc : wedgeL g L * wedgeL g L = algebraMap K _ c) (h0 : c ≠ 0) {j : ℕ}
    {w : Fin n → K} (hw : recip g L j = vec g w) : w ∈ spanL L := by
  have hE : wedgeL g L ≠ 0 := fun h => h0 (algebraMap_inj g (by rw [← hc, h, mul_zero, map_zero]))
  have hb : BladeOf g (spanL L) (wedgeL g L) := ⟨1, L, one_ne_zero, hE, (one_smul _ _).symm, rfl⟩
  rw [← hb.mem]
  have e : vec g w * wedgeL g L = ((-1 : K) ^ j * c) • wedgeL g (L.eraseIdx j) := by
    rw [← hw, recip, smul_mul_assoc, mul_assoc, hc, ← Algebra.commutes, ← Algebra.smul_def, smul_smul]
  have e' := congrArg (grade g (L.length + 1)) e
  rw [vec_mul, map_add, grade_wedge_vec, (homogeneous_wedgeL L).grade_eq, grade_con,
    homogeneous_wedgeL L (L.length + 1 + 1) (by omega), map_zero, zero_add, map_smul,
    homogeneous_wedgeL (L.eraseIdx j) (L.length + 1) (by have := List.length_eraseIdx_le (l := L) (i := j); omega), smul_zero] at e'
  exact e'

end Spec

namespace GA
variable {n : ℕ} {K : Type*} [Field K] [DecidableEq K] [Invertible (2 : K)] {g : Matrix (Fin n) (Fin n) K}

theorem frame_vectors {k : ℕ} (v : Fin k → Fin n → K) :
    List.Forall₂ (fun A v => Rep g A (Spec.vec g v)) (List.ofFn fun i => Mv.vector (v i)) (List.ofFn v) := by
  rw [List.forall₂_iff_get]
  refine ⟨by simp, fun i h1 h2 => ?_⟩
  simpa using Rep.vector _

theorem frameSq_gram (hs : g.IsSymm) {k : ℕ} (v : Fin k → Fin n → K) :
    frameSq g (List.ofFn fun i => Mv.vector (v i)) =
      (-1) ^ (k * (k - 1) / 2) * (Matrix.of fun i j => inner g (v i) (v j)).det := by
  refine algebraMap_inj g ?_
  rw [← (reciprocals_spec hs (frame_vectors v)).2.1, Spec.wedgeL_sq_gram]
  simp only [ip_inner hs]

theorem mapM_of_isSome {α β : Type*} {f : α → Option β} : ∀ {l : List α}, (∀ a ∈ l, (f a).isSome) → ∃ r, l.mapM f = some r
  | [], _ => ⟨[], rfl⟩
  | a :: l, h => by
    obtain ⟨b, hb⟩ := Option.isSome_iff_exists.mp (h a (List.mem_cons_self ..))
    obtain ⟨r, hr⟩ := mapM_of_isSome fun x hx => h x (List.mem_cons_of_mem _ hx)
    exact ⟨b :: r, by rw [List.mapM_cons, hb, hr]; rfl⟩

/-- C54: mode `append` appends the determinant of the inner products of the given vectors, up to the sign
`(-1)^(k(k-1)/2)`. -/
theorem C54_square (hs : g.IsSymm) {k : ℕ} (v : Fin k → Fin n → K) :
    (reciprocalFrameAppend g (List.ofFn fun i => Mv.vector (v i))).2 =
      (-1) ^ (k * (k - 1) / 2) * (Matrix.of fun i j => inner g (v i) (v j)).det := frameSq_gram hs v

/-- C54: mode `norm` has a result exactly if the determinant of the inner products of the vectors is not zero. -/
theorem C54_defined (hs : g.IsSymm) {k : ℕ} (v : Fin k → Fin n → K) :
    (∃ r, reciprocalFrameNorm g (List.ofFn fun i => Mv.vector (v i)) = some r) ↔
      (Matrix.of fun i j => inner g (v i) (v j)).det ≠ 0 := by
  have hq := frameSq_gram hs v
  have h1 : ((-1 : K) ^ (k * (k - 1) / 2)) ≠ 0 := pow_ne_zero _ (by norm_num)
  obtain ⟨hl, -, -⟩ := reciprocals_spec hs (frame_vectors (g := g) v)
  constructor
  · rintro ⟨r, hr⟩ hd
    rcases Nat.eq_zero_or_pos k with rfl | hk
    · simp at hd
    obtain ⟨-, h⟩ := mapM_option_getD (d := Mv.zero) hr
    have h := h 0 (by rw [hl]; simpa using hk)
    rw [hq, hd, mul_zero, Mv.divScalar] at h
    simp at h
  · intro hd
    refine mapM_of_isSome fun a _ => ?_
    rw [Mv.divScalar, if_neg (by rw [hq]; exact mul_ne_zero h1 hd)]
    rfl

/-! ### Frames and their reciprocals, from the components -/

/-- `w` is the reciprocal frame of `v`: vectors of the span of `v` with the inner products `w i | v j = δ_ij`. -/
structure IsReciprocal (g : Matrix (Fin n) (Fin n) K) {k : ℕ} (v w : Fin k → Fin n → K) : Prop where
  span : ∀ i, w i ∈ Submodule.span K (Set.range v)
  delta : ∀ i j, inner g (w i) (v j) = if i = j then 1 else 0

theorem inner_comm (hs : g.IsSymm) (a b : Fin n → K) : inner g a b = inner g b a := by
  rw [← ip_inner hs, ← ip_inner hs, Spec.ip_comm]

theorem inner_sum_left {ι : Type*} (s : Finset ι) (c : ι → K) (f : ι → Fin n → K) (b : Fin n → K) :
    inner g (∑ i ∈ s, c i • f i) b = ∑ i ∈ s, c i * inner g (f i) b := by
  have e : ∀ a b : Fin n → K, inner g a b = ∑ x, a x * ∑ y, g x y * b y := fun a b => by
    simp only [inner, Finset.mul_sum, mul_assoc]
  simp only [e, Finset.sum_apply, Pi.smul_apply, smul_eq_mul, Finset.sum_mul]
  rw [Finset.sum_comm]
  refine Finset.sum_congr rfl fun i _ => ?_
  rw [Finset.mul_sum]
  exact Finset.sum_congr rfl fun x _ => mul_assoc _ _ _

theorem IsReciprocal.expand {k : ℕ} {v w : Fin k → Fin n → K} (hs : g.IsSymm) (h : IsReciprocal g v w) {a : Fin n → K}
    (ha : a ∈ Submodule.span K (Set.range v)) : a = ∑ i, inner g a (w i) • v i := by
  obtain ⟨c, rfl⟩ := (Submodule.mem_span_range_iff_exists_fun K).mp ha
  refine Finset.sum_congr rfl fun i _ => ?_
  rw [inner_sum_left, Finset.sum_eq_single i]
  · rw [inner_comm hs, h.delta, if_pos rfl, mul_one]
  · intro j _ hj
    rw [inner_comm hs, h.delta, if_neg (Ne.symm hj), mul_zero]
  · simp

/-- A vector of the span that is orthogonal to the frame is zero. -/
theorem IsReciprocal.zero {k : ℕ} {v w : Fin k → Fin n → K} (hs : g.IsSymm) (h : IsReciprocal g v w) {a : Fin n → K}
    (ha : a ∈ Submodule.span K (Set.range v)) (h0 : ∀ i, inner g a (v i) = 0) : a = 0 := by
  rw [h.expand hs ha]
  refine Finset.sum_eq_zero fun i _ => ?_
  obtain ⟨c, hc⟩ := (Submodule.mem_span_range_iff_exists_fun K).mp (h.span i)
  rw [inner_comm hs, ← hc, inner_sum_left, Finset.sum_eq_zero, zero_smul]
  intro j _
  rw [inner_comm hs, h0, mul_zero]

theorem IsReciprocal.expand' {k : ℕ} {v w : Fin k → Fin n → K} (hs : g.IsSymm) (h : IsReciprocal g v w) {a : Fin n → K}
    (ha : a ∈ Submodule.span K (Set.range v)) : a = ∑ i, inner g a (v i) • w i := by
  refine sub_eq_zero.mp (h.zero hs (Submodule.sub_mem _ ha (Submodule.sum_mem _ fun i _ =>
    Submodule.smul_mem _ _ (h.span i))) fun j => ?_)
  have e : inner g (a - ∑ i, inner g a (v i) • w i) (v j) =
      inner g a (v j) - inner g (∑ i, inner g a (v i) • w i) (v j) := by
    simp only [← ip_inner hs, Spec.ip, map_sub, LinearMap.sub_apply]
  rw [e, inner_sum_left, Finset.sum_eq_single j, h.delta, if_pos rfl, mul_one, sub_self]
  · intro i _ hi
    rw [h.delta, if_neg hi, mul_zero]
  · simp

theorem IsReciprocal.symm {k : ℕ} {v w : Fin k → Fin n → K} (hs : g.IsSymm) (h : IsReciprocal g v w) :
    IsReciprocal g w v := by
  refine ⟨fun i => ?_, fun i j => ?_⟩
  · have := h.expand' hs (a := v i) (Submodule.subset_span ⟨i, rfl⟩)
    rw [this]
    exact Submodule.sum_mem _ fun j _ => Submodule.smul_mem _ _ (Submodule.subset_span ⟨j, rfl⟩)
  · rw [inner_comm hs, h.delta]
    simp only [eq_comm]

theorem IsReciprocal.unique {k : ℕ} {v w w' : Fin k → Fin n → K} (hs : g.IsSymm) (h : IsReciprocal g v w)
    (h' : IsReciprocal g v w') : w = w' := by
  funext i
  rw [h'.expand' hs (h.span i), Finset.sum_eq_single i, h.delta, if_pos rfl, one_smul]
  · intro j _ hj
    rw [h.delta, if_neg (Ne.symm hj), zero_smul]
  · simp

theorem IsReciprocal.det {k : ℕ} {v w : Fin k → Fin n → K} (hs : g.IsSymm) (h : IsReciprocal g v w) :
    (Matrix.of fun i j => inner g (v i) (v j)).det ≠ 0 := by
  have e : (Matrix.of fun i j => inner g (w i) (w j)) * (Matrix.of fun i j => inner g (v i) (v j)) = 1 := by
    ext i j
    rw [Matrix.mul_apply, Matrix.one_apply, ← h.delta i j]
    conv_rhs => rw [h.expand hs (h.span i), inner_sum_left]
    rfl
  intro h0
  have := congrArg Matrix.det e
  rw [Matrix.det_mul, h0, mul_zero, Matrix.det_one] at this
  exact zero_ne_one this

/-- C54: mode `norm` returns the reciprocal frame: vectors of the span of the given ones with `r_i | v_j = δ_ij`.  It is
the only such list of vectors. -/
theorem C54_frame (hs : g.IsSymm) {k : ℕ} {v : Fin k → Fin n → K} {r : List (Mv K n)}
    (h : reciprocalFrameNorm g (List.ofFn fun i => Mv.vector (v i)) = some r) :
    ∃ w : Fin k → Fin n → K, IsReciprocal g v w ∧ r.length = k ∧
      (∀ j : Fin k, (r.getD j Mv.zero).eq g (Mv.vector (w j)) = true) ∧ ∀ w', IsReciprocal g v w' → w' = w := by
  have hL := frame_vectors (g := g) v
  obtain ⟨h1, h2, h3⟩ := reciprocals_spec hs hL
  have h0 : frameSq g (List.ofFn fun i => Mv.vector (v i)) ≠ 0 := by
    rw [frameSq_gram hs]
    exact mul_ne_zero (pow_ne_zero _ (by norm_num)) ((C54_defined hs v).mp ⟨r, h⟩)
  set c := frameSq g (List.ofFn fun i => Mv.vector (v i)) with hc
  have hh : ∀ j : Fin k, ∃ u, Spec.recip g (List.ofFn v) j = Spec.vec g u := fun j =>
    Spec.homogeneous_one (Spec.recip_homogeneous (by simp))
  choose u hu using hh
  rw [reciprocalFrameNorm] at h
  obtain ⟨h4, h5⟩ := mapM_option_getD (d := Mv.zero) h
  have hw : IsReciprocal g v fun j => c⁻¹ • u j := by
    refine ⟨fun j => Submodule.smul_mem _ _ ?_, fun i j => ?_⟩
    · rw [← Spec.spanL_ofFn]
      exact Spec.recip_mem h2 h0 (hu j)
    · have e := Spec.con_recip (g := g) (L := List.ofFn v) (i := j) (j := i) (by simp) (by simp)
      rw [hu, h2] at e
      have e' : inner g (v j) (u i) = if j = i then c else 0 := by
        refine algebraMap_inj g ?_
        rw [← ip_inner hs]
        have e2 : Spec.con g (v j) (Spec.vec g (u i)) = algebraMap K _ (Spec.ip g (v j) (u i)) := Spec.con_vec _ _
        rw [← e2]
        simp only [List.getElem_ofFn, Fin.eta] at e
        rw [e]
        simp only [Fin.ext_iff]
        split_ifs <;> simp
      have e3 : inner g (c⁻¹ • u i) (v j) = c⁻¹ * inner g (u i) (v j) := by
        simpa using inner_sum_left (g := g) (Finset.univ : Finset (Fin 1)) (fun _ => c⁻¹) (fun _ => u i) (v j)
      rw [e3, inner_comm hs, e']
      simp only [eq_comm (a := j)]
      split_ifs
      · exact inv_mul_cancel₀ h0
      · exact mul_zero _
  refine ⟨_, hw, h4.trans (h1.trans (by simp)), fun j => ?_, fun w' h' => h'.unique hs hw⟩
  have hj : (j : ℕ) < (reciprocals g (List.ofFn fun i => Mv.vector (v i))).length := by rw [h1]; simp
  have h6 := h5 j hj
  rw [show (reciprocals g (List.ofFn fun i => Mv.vector (v i)))[(j : ℕ)] =
    (reciprocals g (List.ofFn fun i => Mv.vector (v i))).getD j Mv.zero by
    simp [List.getD_eq_getElem?_getD, hj]] at h6
  obtain ⟨-, h9⟩ := divScalar_rep (h3 j (by simp)) h6
  rw [h9.eq_iff hs (Rep.vector _), hu, Spec.vec_smul]

/-- C54: with the reciprocal frame `w` of `v` every vector `a` of the span is `Σ (a|w_i) v_i` and `Σ (a|v_i) w_i`. -/
theorem C54_expansion (hs : g.IsSymm) {k : ℕ} {v w : Fin k → Fin n → K} (h : IsReciprocal g v w) {a : Fin n → K}
    (ha : a ∈ Submodule.span K (Set.range v)) :
    a = ∑ i, inner g a (w i) • v i ∧ a = ∑ i, inner g a (v i) • w i := ⟨h.expand hs ha, h.expand' hs ha⟩

/-- C54: the reciprocal frame of the reciprocal frame is the given one. -/
theorem C54_twice (hs : g.IsSymm) {k : ℕ} {v w : Fin k → Fin n → K} (h : IsReciprocal g v w) :
    ∃ r, reciprocalFrameNorm g (List.ofFn fun i => Mv.vector (w i)) = some r ∧
      ∀ j : Fin k, (r.getD j Mv.zero).eq g (Mv.vector (v j)) = true := by
  have hw := h.symm hs
  obtain ⟨r, hr⟩ := (C54_defined hs w).mpr (hw.det hs)
  obtain ⟨u, hu, -, he, -⟩ := C54_frame hs hr
  exact ⟨r, hr, fun j => by rw [hw.unique hs hu]; exact he j⟩

theorem IsReciprocal.independent {k : ℕ} {v w : Fin k → Fin n → K} (hs : g.IsSymm) (h : IsReciprocal g v w) :
    LinearIndependent K v := by
  rw [Fintype.linearIndependent_iff]
  intro c hc i
  have e := inner_sum_left (g := g) Finset.univ c v (w i)
  rw [hc, Finset.sum_eq_single i, inner_comm hs (v i), h.delta, if_pos rfl, mul_one] at e
  · rw [← e]; simp [inner]
  · intro j _ hj
    rw [inner_comm hs, h.delta, if_neg (Ne.symm hj), mul_zero]
  · simp

/-- C54: mode `norm` has a result only for linearly independent vectors, and then exactly if no vector of their span
other than zero is orthogonal to all of them; so for a definite metric exactly for linearly independent vectors. -/
theorem C54_independent (hs : g.IsSymm) {k : ℕ} (v : Fin k → Fin n → K) :
    ((∃ r, reciprocalFrameNorm g (List.ofFn fun i => Mv.vector (v i)) = some r) ↔
      LinearIndependent K v ∧ ∀ a ∈ Submodule.span K (Set.range v), (∀ i, inner g a (v i) = 0) → a = 0) ∧
    ((∀ a, inner g a a = 0 → a = 0) →
      ((∃ r, reciprocalFrameNorm g (List.ofFn fun i => Mv.vector (v i)) = some r) ↔ LinearIndependent K v)) := by
  have hb : ∀ a b, Matrix.toBilin' g a b = inner g a b := fun a b => by rw [Spec.ip_toBilin hs, ip_inner hs]
  have ho : ∀ a, (∀ i, inner g a (v i) = 0) ↔ a ∈ (Matrix.toBilin' g).orthogonal (Submodule.span K (Set.range v)) := by
    intro a
    rw [LinearMap.BilinForm.mem_orthogonal_iff]
    constructor
    · intro h w hw
      obtain ⟨c, rfl⟩ := (Submodule.mem_span_range_iff_exists_fun K).mp hw
      show Matrix.toBilin' g _ a = 0
      rw [hb, inner_sum_left]
      exact Finset.sum_eq_zero fun i _ => by rw [inner_comm hs, h, mul_zero]
    · intro h i
      rw [inner_comm hs, ← hb]
      exact h _ (Submodule.subset_span ⟨i, rfl⟩)
  have key : (∃ r, reciprocalFrameNorm g (List.ofFn fun i => Mv.vector (v i)) = some r) ↔
      LinearIndependent K v ∧ ∀ a ∈ Submodule.span K (Set.range v), (∀ i, inner g a (v i) = 0) → a = 0 := by
    constructor
    · rintro ⟨r, hr⟩
      obtain ⟨w, hw, -⟩ := C54_frame hs hr
      exact ⟨hw.independent hs, fun a ha h0 => hw.zero hs ha h0⟩
    · rintro ⟨hl, h0⟩
      have := (det_gram_ne_zero (g := g) hl).mpr (Submodule.disjoint_def.mpr fun a ha h => h0 a ha ((ho a).mpr h))
      simp only [hb] at this
      exact (C54_defined hs v).mpr this
  refine ⟨key, fun hd => key.trans ⟨fun h => h.1, fun h => ⟨h, fun a ha h0 => hd a ?_⟩⟩⟩
  have := (ho a).mp h0
  rw [LinearMap.BilinForm.mem_orthogonal_iff] at this
  rw [← hb]
  exact this a ha

/-! ### A frame of two vectors in a space of three dimensions -/

/-- Two vectors. -/
def Ex.frame2 : Fin 2 → Fin 3 → ℚ := ![![1, 2, 0], ![0, 1, 1]]

theorem Ex.frame2_det : (Matrix.of fun i j => inner Ex.gN (Ex.frame2 i) (Ex.frame2 j)).det ≠ 0 := by
  rw [Matrix.det_fin_two]; decide +kernel

example : ∃ r w, reciprocalFrameNorm Ex.gN (List.ofFn fun i => Mv.vector (Ex.frame2 i)) = some r ∧
    IsReciprocal Ex.gN Ex.frame2 w ∧ (∀ j : Fin 2, (r.getD j Mv.zero).eq Ex.gN (Mv.vector (w j)) = true) ∧
    Ex.frame2 1 = ∑ i, inner Ex.gN (Ex.frame2 1) (Ex.frame2 i) • w i ∧
    ∃ r', reciprocalFrameNorm Ex.gN (List.ofFn fun i => Mv.vector (w i)) = some r' := by
  obtain ⟨r, hr⟩ := (C54_defined Ex.gN_symm Ex.frame2).mpr Ex.frame2_det
  obtain ⟨w, hw, -, he, -⟩ := C54_frame Ex.gN_symm hr
  obtain ⟨r', h', -⟩ := C54_twice Ex.gN_symm hw
  exact ⟨r, w, hr, hw, he, (C54_expansion Ex.gN_symm hw (Submodule.subset_span ⟨1, rfl⟩)).2, r', h'⟩

/-- The frame is not its own reciprocal, and a frame of parallel vectors has none. -/
example : ¬ IsReciprocal Ex.gN Ex.frame2 Ex.frame2 ∧
    (Matrix.of fun i j : Fin 2 => inner Ex.gN (![![1, 2, 0], ![2, 4, 0]] i) (![![1, 2, 0], ![2, 4, 0]] j)).det = 0 := by
  refine ⟨fun h => ?_, by rw [Matrix.det_fin_two]; decide +kernel⟩
  have := h.delta 0 1
  revert this
  decide +kernel

/-- In the Euclidean plane, independent vectors. -/
example : ∃ r, reciprocalFrameNorm (!![1, 0; 0, 1] : Matrix (Fin 2) (Fin 2) ℚ)
    (List.ofFn fun i => Mv.vector ((![![1, 2], ![1, 1]] : Fin 2 → Fin 2 → ℚ) i)) = some r := by
  refine ((C54_independent (by decide) _).2 fun a h => ?_).mpr ?_
  · simp [inner, Fin.sum_univ_two] at h
    have h0 : a 0 = 0 := by nlinarith [mul_self_nonneg (a 0), mul_self_nonneg (a 1)]
    have h1 : a 1 = 0 := by nlinarith [mul_self_nonneg (a 0), mul_self_nonneg (a 1)]
    funext i
    fin_cases i <;> assumption
  · rw [LinearIndependent.pair_iff]
    intro s t h
    have h0 := congrFun h 0
    have h1 := congrFun h 1
    simp at h0 h1
    constructor <;> linarith

end GA
