import Verif.Proofs.Simple
import Verif.Proofs.Pseudo
import Mathlib.LinearAlgebra.BilinearForm.Orthogonal
import Mathlib.LinearAlgebra.Matrix.BilinearForm
import Mathlib.LinearAlgebra.FiniteDimensional.Lemmas

/-! Exterior products of vectors and the subspaces they span. -/

set_option linter.unusedSectionVars false

namespace Spec
open CliffordAlgebra Submodule
variable {n : ℕ} {K : Type*} [Field K] [Invertible (2 : K)] {g : Matrix (Fin n) (Fin n) K}

theorem exists_form {W : Submodule K (Fin n → K)} {v : Fin n → K} (h : v ∉ W) :
    ∃ d : Module.Dual K (Fin n → K), d v = 1 ∧ ∀ w ∈ W, d w = 0 := by
  obtain ⟨f, h1, h2⟩ := Submodule.exists_le_ker_of_notMem h
  refine ⟨(f v)⁻¹ • f, by simp [inv_mul_cancel₀ h1], fun w hw => ?_⟩
  have : f w = 0 := h2 hw
  simp [this]

/-- The span of the vectors of a list. -/
def spanL (L : List (Fin n → K)) : Submodule K (Fin n → K) := span K {w | w ∈ L}

theorem spanL_cons (v : Fin n → K) (L : List (Fin n → K)) : spanL (v :: L) = span K {v} ⊔ spanL L := by
  rw [spanL, spanL, ← span_union]
  congr 1
  ext w
  simp

theorem spanL_append (L M : List (Fin n → K)) : spanL (L ++ M) = spanL L ⊔ spanL M := by
  rw [spanL, spanL, spanL, ← span_union]
  congr 1
  ext w
  simp

theorem mem_spanL {v : Fin n → K} {L : List (Fin n → K)} (h : v ∈ L) : v ∈ spanL L := subset_span h

theorem spanL_map (f : (Fin n → K) →ₗ[K] (Fin n → K)) (L : List (Fin n → K)) :
    spanL (L.map f) = (spanL L).map f := by
  rw [spanL, spanL, map_span]
  congr 1
  ext w
  simp

/-- Vectors of the span annihilate the exterior product. -/
theorem wedge_spanL {L : List (Fin n → K)} {v : Fin n → K} (h : v ∈ spanL L) : wedge g (vec g v) (wedgeL g L) = 0 := by
  refine span_induction (p := fun v _ => wedge g (vec g v) (wedgeL g L) = 0) ?_ ?_ ?_ ?_ h
  · exact fun w hw => wedge_wedgeL_mem hw
  · rw [vec, map_zero, zero_wedge]
  · intro x y _ _ hx hy
    rw [vec, map_add, ← vec, ← vec, add_wedge, hx, hy, add_zero]
  · intro c x _ hx
    rw [vec_smul, smul_wedge, hx, smul_zero]

theorem wedgeL_cons_ne_zero {L : List (Fin n → K)} {v : Fin n → K} :
    wedgeL g (v :: L) ≠ 0 ↔ v ∉ spanL L ∧ wedgeL g L ≠ 0 := by
  constructor
  · intro h
    exact ⟨fun hv => h (by rw [wedgeL_cons, wedge_spanL hv]), fun h0 => h (by rw [wedgeL_cons, h0, wedge_zero])⟩
  · rintro ⟨hv, h0⟩ h
    obtain ⟨d, h1, h2⟩ := exists_form hv
    have := cof_wedge_vec (g := g) d v (wedgeL g L)
    rw [← wedgeL_cons, h, map_zero, h1, one_smul, cof_wedgeL_zero fun w hw => h2 w (mem_spanL hw), wedge_zero,
      sub_zero] at this
    exact h0 this.symm

/-- Exterior products vanish exactly for linearly dependent vectors. -/
theorem wedgeL_ofFn_ne_zero {k : ℕ} (v : Fin k → Fin n → K) :
    wedgeL g (List.ofFn v) ≠ 0 ↔ LinearIndependent K v := by
  classical
  induction k with
  | zero =>
    rw [List.ofFn_zero, wedgeL_nil]
    have h1 : (1 : Cl g) ≠ 0 := fun h => one_ne_zero (GA.algebraMap_inj g (a := (1 : K)) (b := 0) (by simp at h))
    exact ⟨fun _ => linearIndependent_empty_type, fun _ => h1⟩
  | succ k ih =>
    rw [List.ofFn_succ, wedgeL_cons_ne_zero, ih, linearIndependent_finSucc, and_comm, spanL]
    have : {w | w ∈ List.ofFn fun i : Fin k => v i.succ} = Set.range (Fin.tail v) := by
      ext w
      rw [Set.mem_ofPred_eq, List.mem_ofFn', Set.mem_range, Set.mem_range]
      rfl
    rw [this]
    rfl

theorem spanL_ofFn {k : ℕ} (v : Fin k → Fin n → K) : spanL (List.ofFn v) = span K (Set.range v) := by
  rw [spanL]
  congr 1
  ext w
  rw [Set.mem_ofPred_eq, List.mem_ofFn']

/-- `x` is a non-zero multiple of an exterior product of vectors that span `W`. -/
def BladeOf (g : Matrix (Fin n) (Fin n) K) (W : Submodule K (Fin n → K)) (x : Cl g) : Prop :=
  ∃ (c : K) (L : List (Fin n → K)), c ≠ 0 ∧ wedgeL g L ≠ 0 ∧ x = c • wedgeL g L ∧ spanL L = W

variable {W W' : Submodule K (Fin n → K)} {x y : Cl g}

theorem BladeOf.ne_zero (h : BladeOf g W x) : x ≠ 0 := by
  obtain ⟨c, L, hc, hL, rfl, -⟩ := h
  exact smul_ne_zero hc hL

theorem BladeOf.smul (h : BladeOf g W x) {c : K} (hc : c ≠ 0) : BladeOf g W (c • x) := by
  obtain ⟨d, L, hd, hL, rfl, hW⟩ := h
  exact ⟨c * d, L, mul_ne_zero hc hd, hL, by rw [mul_smul], hW⟩

theorem BladeOf.mem (h : BladeOf g W x) (v : Fin n → K) : wedge g (vec g v) x = 0 ↔ v ∈ W := by
  obtain ⟨c, L, hc, hL, rfl, rfl⟩ := h
  rw [wedge_smul, smul_eq_zero_iff_right hc]
  refine ⟨fun h => ?_, wedge_spanL⟩
  by_contra hv
  exact wedgeL_cons_ne_zero.mpr ⟨hv, hL⟩ (by rw [wedgeL_cons, h])

theorem BladeOf.simple (h : BladeOf g W x) : ∃ k, Simple g k x := by
  obtain ⟨c, L, -, -, h, -⟩ := h
  exact ⟨_, c, L, rfl, h⟩

theorem Simple.bladeOf {k : ℕ} (h : Simple g k x) (h0 : x ≠ 0) : ∃ W, BladeOf g W x := by
  obtain ⟨c, L, -, rfl⟩ := h
  exact ⟨spanL L, c, L, fun hc => h0 (by rw [hc, zero_smul]), fun hL => h0 (by rw [hL, smul_zero]), rfl, rfl⟩

theorem bladeOf_iff : BladeOf g W x ↔ x ≠ 0 ∧ (∃ k, Simple g k x) ∧ ∀ v, wedge g (vec g v) x = 0 ↔ v ∈ W := by
  refine ⟨fun h => ⟨h.ne_zero, h.simple, h.mem⟩, ?_⟩
  rintro ⟨h0, ⟨k, hk⟩, hm⟩
  obtain ⟨W', h'⟩ := hk.bladeOf h0
  have : W' = W := Submodule.ext fun v => by rw [← h'.mem, hm]
  exact this ▸ h'

theorem length_eq_finrank {L : List (Fin n → K)} (h : wedgeL g L ≠ 0) : L.length = Module.finrank K (spanL L) := by
  have h1 : L = List.ofFn fun i : Fin L.length => L[i] := by simp
  rw [h1, wedgeL_ofFn_ne_zero] at h
  have h2 := finrank_span_eq_card h
  rw [← spanL_ofFn, ← h1, Fintype.card_fin] at h2
  exact h2.symm

theorem BladeOf.homogeneous (h : BladeOf g W x) : Homogeneous g (Module.finrank K W) x := by
  obtain ⟨c, L, hc, hL, rfl, rfl⟩ := h
  rw [← length_eq_finrank hL]
  exact (homogeneous_wedgeL L).smul c

theorem BladeOf.simple_finrank (h : BladeOf g W x) : Simple g (Module.finrank K W) x := by
  obtain ⟨c, L, hc, hL, rfl, rfl⟩ := h
  exact ⟨c, L, length_eq_finrank hL, rfl⟩

/-- Every subspace has a blade. -/
theorem exists_bladeOf (W : Submodule K (Fin n → K)) : ∃ L : List (Fin n → K), wedgeL g L ≠ 0 ∧ spanL L = W := by
  let b := Module.finBasis K W
  refine ⟨List.ofFn fun i => (b i : Fin n → K), ?_, ?_⟩
  · rw [wedgeL_ofFn_ne_zero]
    exact b.linearIndependent.map' W.subtype (ker_subtype W)
  · have h := congrArg (Submodule.map W.subtype) b.span_eq
    rw [map_span, Submodule.map_top, range_subtype, ← Set.range_comp] at h
    rw [spanL_ofFn]
    exact h

/-- An element annihilated by independent vectors has their exterior product as a factor. -/
theorem eq_wedge_of_wedgeL {L : List (Fin n → K)} (hL : wedgeL g L ≠ 0) (h : ∀ v ∈ L, wedge g (vec g v) x = 0) :
    ∃ y, x = wedge g (wedgeL g L) y := by
  induction L with
  | nil => exact ⟨x, by rw [wedgeL_nil, one_wedge]⟩
  | cons v L ih =>
    obtain ⟨hv, hL'⟩ := wedgeL_cons_ne_zero.mp hL
    obtain ⟨y, rfl⟩ := ih hL' fun w hw => h w (by simp [hw])
    obtain ⟨d, h1, h2⟩ := exists_form hv
    have e := cof_wedge_vec (g := g) d v (wedge g (wedgeL g L) y)
    rw [h v (by simp), map_zero, h1, one_smul, eq_comm, sub_eq_zero, cof_wedge,
      cof_wedgeL_zero fun w hw => h2 w (mem_spanL hw), zero_wedge, zero_add,
      homogeneous_involute (homogeneous_wedgeL L), smul_wedge] at e
    refine ⟨(-1 : K) ^ L.length • cof g d y, ?_⟩
    rw [e, wedgeL_cons, wedge_smul, wedge_smul, wedge_assoc]

theorem grade_wedge_homogeneous {k : ℕ} (hx : Homogeneous g k x) (j : ℕ) (y : Cl g) :
    grade g (k + j) (wedge g x y) = wedge g x (grade g j y) := by
  induction y using blade_induction g with
  | h0 => simp [wedge_zero]
  | hadd y y' h h' => rw [wedge_add, map_add, map_add, wedge_add, h, h']
  | hsm c l hl =>
    have h1 := homogeneous_wedge hx (homogeneous_blade (g := g) l)
    rw [wedge_smul, map_smul, map_smul, wedge_smul, grade_blade]
    split_ifs with h
    · rw [← h, h1.grade_eq]
    · rw [wedge_zero, h1 _ (by omega)]

/-- An element of grade `k` annihilated by `k` independent vectors is a multiple of their exterior product. -/
theorem eq_smul_of_wedgeL {L : List (Fin n → K)} (hL : wedgeL g L ≠ 0) (hx : Homogeneous g L.length x)
    (h : ∀ v ∈ L, wedge g (vec g v) x = 0) : ∃ c : K, x = c • wedgeL g L := by
  obtain ⟨y, hy⟩ := eq_wedge_of_wedgeL hL h
  have h1 := grade_wedge_homogeneous (homogeneous_wedgeL (g := g) L) 0 y
  rw [← hy, Nat.add_zero, hx.grade_eq] at h1
  obtain ⟨c, hc⟩ := homogeneous_zero_iff.mp (homogeneous_grade 0 y)
  refine ⟨c, ?_⟩
  rw [h1, hc, Algebra.algebraMap_eq_smul_one, wedge_smul, wedge_one]

/-- Blades of the same subspace are multiples of each other. -/
theorem BladeOf.unique (h : BladeOf g W x) (h' : BladeOf g W' y) : W = W' ↔ ∃ c : K, c ≠ 0 ∧ x = c • y := by
  constructor
  · rintro rfl
    obtain ⟨c, L, hc, hL, rfl, hW⟩ := h'
    have hx := h.homogeneous
    rw [← hW, ← length_eq_finrank hL] at hx
    obtain ⟨d, hd⟩ := eq_smul_of_wedgeL hL hx fun v hv => (h.mem v).mpr (hW ▸ mem_spanL hv)
    have hd0 : d ≠ 0 := fun h0 => h.ne_zero (by rw [hd, h0, zero_smul])
    refine ⟨d * c⁻¹, mul_ne_zero hd0 (inv_ne_zero hc), ?_⟩
    rw [hd, smul_smul, inv_mul_cancel_right₀ hc]
  · rintro ⟨c, hc, rfl⟩
    ext v
    rw [← h.mem, ← h'.mem, wedge_smul, smul_eq_zero_iff_right hc]

/-- A subspace is part of another one exactly if its blade is a factor of the blade of the other one. -/
theorem BladeOf.le_iff (h : BladeOf g W x) (h' : BladeOf g W' y) : W ≤ W' ↔ ∃ z, y = wedge g x z := by
  constructor
  · intro hle
    obtain ⟨c, L, hc, hL, rfl, rfl⟩ := h
    obtain ⟨z, hz⟩ := eq_wedge_of_wedgeL hL fun v hv => (h'.mem v).mpr (hle (mem_spanL hv))
    exact ⟨c⁻¹ • z, by rw [hz, smul_wedge, wedge_smul, smul_smul, mul_inv_cancel₀ hc, one_smul]⟩
  · rintro ⟨z, rfl⟩ v hv
    rw [← h'.mem, ← wedge_assoc, (h.mem v).mpr hv, zero_wedge]

/-- Contracting by a vector: zero exactly if the vector is orthogonal to the subspace. -/
theorem BladeOf.con_eq_zero (h : BladeOf g W x) (v : Fin n → K) : con g v x = 0 ↔ ∀ w ∈ W, ip g v w = 0 := by
  constructor
  · intro h0 w hw
    have := con_wedge_vec (g := g) v w x
    rw [(h.mem w).mpr hw, map_zero, h0, wedge_zero, sub_zero, eq_comm, smul_eq_zero] at this
    exact this.resolve_right h.ne_zero
  · intro hv
    obtain ⟨c, L, hc, hL, rfl, rfl⟩ := h
    rw [map_smul]
    have : con g v (wedgeL g L) = 0 :=
      cof_wedgeL_zero (d := QuadraticMap.associated (R := K) (Q g) v) fun w hw => hv w (mem_spanL hw)
    rw [this, smul_zero]

theorem wedge_eq_zero_of_common {u : Fin n → K} (hu : u ≠ 0) (hx : wedge g (vec g u) x = 0)
    (hy : wedge g (vec g u) y = 0) : wedge g x y = 0 := by
  obtain ⟨d, hd⟩ := eq_wedge_of_wedge hu hy
  rw [hd, ← wedge_assoc, wedge_vec_right]
  have : wedge g (vec g u) (involute x) = 0 := by
    have h := congrArg (involute (Q := Q g)) hx
    rw [involute_wedge_vec, map_zero, neg_eq_zero] at h
    exact h
  rw [this, zero_wedge]

theorem wedgeL_append_ne_zero {L M : List (Fin n → K)} (hL : wedgeL g L ≠ 0) (hM : wedgeL g M ≠ 0) :
    wedgeL g (L ++ M) ≠ 0 ↔ Disjoint (spanL L) (spanL M) := by
  constructor
  · intro h
    rw [Submodule.disjoint_def]
    intro u hu hu'
    by_contra h0
    exact h (by rw [wedgeL_append]; exact wedge_eq_zero_of_common h0 (wedge_spanL hu) (wedge_spanL hu'))
  · intro h
    induction L with
    | nil => exact hM
    | cons v L ih =>
      obtain ⟨hv, hL'⟩ := wedgeL_cons_ne_zero.mp hL
      have hle : spanL L ≤ spanL (v :: L) := by rw [spanL_cons]; exact le_sup_right
      rw [List.cons_append, wedgeL_cons_ne_zero, spanL_append]
      refine ⟨fun hm => hv ?_, ih hL' (h.mono_left hle)⟩
      obtain ⟨a, ha, b, hb, hab⟩ := mem_sup.mp hm
      have h0 : b = 0 := (Submodule.disjoint_def.mp h) b (by
        have : b = v - a := by rw [← hab]; abel
        rw [this]
        exact sub_mem (mem_spanL (by simp)) (hle ha)) hb
      rw [← hab, h0, add_zero]
      exact ha

/-- The exterior product of blades: zero exactly if the subspaces have a common vector, and otherwise their sum. -/
theorem BladeOf.wedge (h : BladeOf g W x) (h' : BladeOf g W' y) :
    (Spec.wedge g x y ≠ 0 ↔ Disjoint W W') ∧ (Disjoint W W' → BladeOf g (W ⊔ W') (Spec.wedge g x y)) := by
  obtain ⟨c, L, hc, hL, rfl, rfl⟩ := h
  obtain ⟨d, M, hd, hM, rfl, rfl⟩ := h'
  have e : Spec.wedge g (c • wedgeL g L) (d • wedgeL g M) = (c * d) • wedgeL g (L ++ M) := by
    rw [smul_wedge, wedge_smul, smul_smul, wedgeL_append]
  have k := wedgeL_append_ne_zero hL hM
  refine ⟨?_, fun hd' => ⟨c * d, L ++ M, mul_ne_zero hc hd, k.mpr hd', e, spanL_append L M⟩⟩
  rw [e, ← k]
  exact not_congr (smul_eq_zero_iff_right (mul_ne_zero hc hd))

/-- The outermorphism of a matrix maps blades to blades of the images. -/
theorem BladeOf.outer (h : BladeOf g W x) (M : Matrix (Fin n) (Fin n) K) :
    (Spec.outer g M x ≠ 0 ↔ Disjoint W (LinearMap.ker M.mulVecLin)) ∧
    (Disjoint W (LinearMap.ker M.mulVecLin) → BladeOf g (W.map M.mulVecLin) (Spec.outer g M x)) := by
  obtain ⟨c, L, hc, hL, rfl, rfl⟩ := h
  have e : Spec.outer g M (c • wedgeL g L) = c • wedgeL g (L.map M.mulVecLin) := by
    rw [map_smul, outer_wedgeL]; rfl
  have k : wedgeL g (L.map M.mulVecLin) ≠ 0 ↔ Disjoint (spanL L) (LinearMap.ker M.mulVecLin) := by
    have h1 : L = List.ofFn fun i : Fin L.length => L[i] := by simp
    have h2 : L.map M.mulVecLin = List.ofFn (M.mulVecLin ∘ fun i : Fin L.length => L[i]) := by
      rw [← List.map_ofFn, ← h1]
    have hL' := hL
    rw [h1, wedgeL_ofFn_ne_zero] at hL'
    have h3 : spanL L = span K (Set.range fun i : Fin L.length => L[i]) := by rw [← spanL_ofFn, ← h1]
    rw [h2, wedgeL_ofFn_ne_zero, h3]
    exact ⟨fun h => Submodule.range_ker_disjoint h, fun h => (LinearMap.linearIndependent_iff_of_disjoint _ h).mpr hL'⟩
  refine ⟨?_, fun hd => ⟨c, _, hc, k.mpr hd, e, spanL_map _ _⟩⟩
  rw [e, ← k]
  exact not_congr (smul_eq_zero_iff_right hc)

/-! ### Duals -/

/-- The vectors orthogonal to a subspace. -/
abbrev perp (g : Matrix (Fin n) (Fin n) K) (W : Submodule K (Fin n → K)) : Submodule K (Fin n → K) :=
  (Matrix.toBilin' g).orthogonal W

theorem ip_toBilin (hs : g.IsSymm) (v w : Fin n → K) : Matrix.toBilin' g v w = ip g v w := by
  rw [Matrix.toBilin'_apply', ip_dot hs]

theorem mem_perp (hs : g.IsSymm) (v : Fin n → K) : v ∈ perp g W ↔ ∀ w ∈ W, ip g v w = 0 := by
  rw [LinearMap.BilinForm.mem_orthogonal_iff]
  refine forall₂_congr fun w _ => ?_
  rw [ip_toBilin hs, ip_comm]

theorem perp_perp (hs : g.IsSymm) (hd : g.det ≠ 0) (W : Submodule K (Fin n → K)) : perp g (perp g W) = W := by
  refine LinearMap.BilinForm.orthogonal_orthogonal (LinearMap.BilinForm.nondegenerate_toBilin'_iff_det_ne_zero.mpr hd) ?_ W
  intro v w h
  rw [ip_toBilin hs] at h ⊢
  rw [ip_comm, h]

theorem perp_sup (hs : g.IsSymm) (W W' : Submodule K (Fin n → K)) : perp g (W ⊔ W') = perp g W ⊓ perp g W' := by
  ext v
  rw [mem_inf, mem_perp hs, mem_perp hs, mem_perp hs]
  constructor
  · exact fun h => ⟨fun w hw => h w (mem_sup_left hw), fun w hw => h w (mem_sup_right hw)⟩
  · rintro ⟨h1, h2⟩ w hw
    obtain ⟨a, ha, b, hb, rfl⟩ := mem_sup.mp hw
    have h3 := h1 a ha
    have h4 := h2 b hb
    rw [ip] at h3 h4 ⊢
    rw [map_add, h3, h4, add_zero]

theorem perp_inf (hs : g.IsSymm) (hd : g.det ≠ 0) (W W' : Submodule K (Fin n → K)) :
    perp g (W ⊓ W') = perp g W ⊔ perp g W' := by
  rw [← perp_perp hs hd (perp g W ⊔ perp g W'), perp_sup hs, perp_perp hs hd, perp_perp hs hd]

theorem perp_bot : perp g (⊥ : Submodule K (Fin n → K)) = ⊤ := by
  ext v
  simp

theorem perp_top (hs : g.IsSymm) (hd : g.det ≠ 0) : perp g (⊤ : Submodule K (Fin n → K)) = ⊥ := by
  rw [← perp_bot (g := g), perp_perp hs hd]

theorem disjoint_perp (hs : g.IsSymm) (hd : g.det ≠ 0) (W W' : Submodule K (Fin n → K)) :
    Disjoint (perp g W) (perp g W') ↔ W ⊔ W' = ⊤ := by
  rw [disjoint_iff, ← perp_sup hs]
  constructor
  · intro h
    rw [← perp_perp hs hd (W ⊔ W'), h, perp_bot]
  · intro h
    rw [h, perp_top hs hd]

theorem Simple.con {k : ℕ} (v : Fin n → K) (h : Simple g k x) : ∃ k, Simple g k (Spec.con g v x) := by
  obtain ⟨c, L, -, rfl⟩ := h
  obtain ⟨d, L', h1, -⟩ := cof_wedgeL (g := g) (QuadraticMap.associated (R := K) (Q g) v) L
  exact ⟨_, c * d, L', rfl, by rw [map_smul, mul_smul]; exact congrArg (c • ·) h1⟩

theorem simple_lc_wedgeL (L : List (Fin n → K)) {k : ℕ} (h : Simple g k y) :
    ∃ k, Simple g k (leftContraction g (wedgeL g L) y) := by
  induction L generalizing y k with
  | nil => rw [wedgeL_nil, lc_one]; exact ⟨k, h⟩
  | cons v L ih =>
    obtain ⟨j, hj⟩ := ih h
    rw [wedgeL_cons, lc_wedge_vec]
    exact hj.con v

theorem mul_pseudo_ne_zero (hs : g.IsSymm) (hd : g.det ≠ 0) (h : x * pseudo g = 0) : x = 0 := by
  have h1 : x * pseudo g * pseudo g = 0 := by rw [h, zero_mul]
  rw [mul_assoc, pseudo_sq hs, ← Algebra.commutes, ← Algebra.smul_def, smul_eq_zero] at h1
  exact h1.resolve_left (mul_ne_zero (pow_ne_zero _ (by norm_num)) hd)

/-- Multiplication by the pseudoscalar gives a blade of the orthogonal complement. -/
theorem BladeOf.mul_pseudo (hs : g.IsSymm) (hd : g.det ≠ 0) (h : BladeOf g W x) :
    BladeOf g (perp g W) (x * pseudo g) := by
  refine bladeOf_iff.mpr ⟨fun h0 => h.ne_zero (mul_pseudo_ne_zero hs hd h0), ?_, fun v => ?_⟩
  · obtain ⟨c, L, -, -, rfl, -⟩ := h
    obtain ⟨k, hk⟩ := simple_lc_wedgeL (g := g) L (simple_top (homogeneous_pseudo (g := g)))
    exact ⟨k, by rw [smul_mul_assoc, mul_pseudo_lc]; exact hk.smul c⟩
  · rw [← lc_mul_pseudo, lc_vec, mem_perp hs, ← h.con_eq_zero]
    exact ⟨fun h0 => mul_pseudo_ne_zero hs hd h0, fun h0 => by rw [h0, zero_mul]⟩

/-- The pseudoscalar on the other side changes the sign at most. -/
theorem pseudo_mul_homogeneous {k : ℕ} (hx : Homogeneous g k x) :
    ∃ s : K, s ≠ 0 ∧ pseudo g * x = s • (x * pseudo g) := by
  obtain ⟨c, hc, hp⟩ := reverse_pseudo (g := g)
  have h1 := (homogeneous_reverse hx).2
  have h2 := (homogeneous_reverse (grade_mul_pseudo hx)).2
  have hc0 : c ≠ 0 := fun h => by rw [h, mul_zero] at hc; exact zero_ne_one hc
  refine ⟨c * (-1) ^ (k * (k - 1) / 2) * (-1) ^ ((n - k) * (n - k - 1) / 2),
    mul_ne_zero (mul_ne_zero hc0 (pow_ne_zero _ (by norm_num))) (pow_ne_zero _ (by norm_num)), ?_⟩
  have h3 : reverse (Q := Q g) (pseudo g * x) = ((-1) ^ (k * (k - 1) / 2) * c) • (x * pseudo g) := by
    rw [reverse.map_mul, hp, h1, smul_mul_smul_comm]
  rw [← reverse_reverse (Q := Q g) (pseudo g * x), h3, map_smul, h2, smul_smul]
  congr 1
  ring

theorem BladeOf.pseudo_mul (hs : g.IsSymm) (hd : g.det ≠ 0) (h : BladeOf g W x) :
    BladeOf g (perp g W) (pseudo g * x) := by
  obtain ⟨s, hs0, e⟩ := pseudo_mul_homogeneous h.homogeneous
  rw [e]
  exact (h.mul_pseudo hs hd).smul hs0

end Spec
