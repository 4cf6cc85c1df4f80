import Verif.Props.C108
import Mathlib.LinearAlgebra.Matrix.Determinant.Basic

/-!
# C108, continued: volumes are Gram determinants

`outerOf g [v1, ..., vk]` models `v1 ^ ... ^ vk`, `A.spRev g B` models `A.sp(B, 'rev')` and `A.qform g` models `A.qform()`.
`inner g v w` is the inner product of the vectors with the components `v`, `w`.
-/

set_option linter.unusedSectionVars false
set_option maxRecDepth 10000

namespace Spec
open GA CliffordAlgebra
variable {n : ℕ} {K : Type*} [Field K] [DecidableEq K] [Invertible (2 : K)] {g : Matrix (Fin n) (Fin n) K}

theorem sp_wedge_vec (v : Fin n → K) (x y : Cl g) : sp (wedge g (vec g v) x) y = sp x (con g v y) := by
  apply algebraMap_inj g
  have e : ∀ x y : Cl g, algebraMap K (Cl g) (sp x y) = grade g 0 (leftContraction g (reverse x) y) := fun x y => by
    rw [grade_zero_lc, ← algebraMap_sc]; rfl
  rw [e, e, reverse_wedge, lc_wedge, show reverse (vec g v) = vec g v from reverse_ι v, lc_vec]

theorem sp_sum_right {ι : Type*} (s : Finset ι) (x : Cl g) (f : ι → Cl g) : sp x (∑ i ∈ s, f i) = ∑ i ∈ s, sp x (f i) := by
  simp only [sp, Finset.mul_sum, map_sum]

theorem sp_one : sp (1 : Cl g) 1 = 1 := by
  apply algebraMap_inj g
  rw [sp, reverse.map_one, one_mul]
  show algebraMap K (Cl g) (sc 1) = _
  rw [algebraMap_sc, ← map_one (algebraMap K (Cl g)), grade_zero_algebraMap]

/-- The scalar product of two blades is the determinant of the inner products of their vectors. -/
theorem sp_wedgeL : ∀ {k : ℕ} (v w : Fin k → Fin n → K), sp (wedgeL g (List.ofFn v)) (wedgeL g (List.ofFn w)) =
    (Matrix.of fun i j => ip g (v i) (w j)).det
  | 0, v, w => by simp [sp_one]
  | k + 1, v, w => by
    rw [List.ofFn_succ, wedgeL_cons, sp_wedge_vec, con_wedgeL, sp_sum_right, Matrix.det_succ_row_zero]
    refine Finset.sum_congr rfl fun j _ => ?_
    rw [sp_smul_right, sp_wedgeL]
    rfl

theorem con_wedgeL_eq_zero (v : Fin n → K) {L : List (Fin n → K)} (h0 : wedgeL g L ≠ 0) :
    con g v (wedgeL g L) = 0 ↔ ∀ w ∈ L, ip g v w = 0 := by
  constructor
  · intro h w hw
    have e : wedge g (vec g w) (wedgeL g L) = 0 := wedge_wedgeL_mem hw
    have e' := congrArg (con g v) e
    rw [con_wedge_vec, h, wedge_zero, sub_zero, con, map_zero] at e'
    exact (smul_eq_zero.mp e').resolve_right h0
  · clear h0
    intro h
    induction L with
    | nil => rw [wedgeL_nil, con_one]
    | cons w L ih =>
      rw [wedgeL_cons, con_wedge_vec, h w (List.mem_cons_self ..), zero_smul, ih fun u hu => h u (List.mem_cons_of_mem _ hu),
        wedge_zero, sub_zero]

end Spec

namespace GA
section field
variable {n : ℕ} {K : Type*} [Field K] [DecidableEq K] [Invertible (2 : K)] {g : Matrix (Fin n) (Fin n) K}

/-- The inner product of two vectors, from their components and the metric tensor. -/
def inner (g : Matrix (Fin n) (Fin n) K) (v w : Fin n → K) : K := ∑ i, ∑ j, v i * g i j * w j

theorem ip_inner (hs : g.IsSymm) (v w : Fin n → K) : Spec.ip g v w = inner g v w := by
  rw [Spec.ip, Spec.associated_vec hs]
  exact Finset.sum_congr rfl fun i _ => Finset.sum_congr rfl fun j _ => by ring

/-- C108: the scalar product of `v1 ^ ... ^ vk` and `w1 ^ ... ^ wk` is the determinant of the inner products `vi | wj`. -/
theorem C108_gram (hs : g.IsSymm) {k : ℕ} (v w : Fin k → Fin n → K) :
    (outerOf g (List.ofFn v)).spRev g (outerOf g (List.ofFn w)) = (Matrix.of fun i j => inner g (v i) (w j)).det := by
  rw [spRev_spec hs (rep_outerOf hs _) (rep_outerOf hs _), Spec.sp_wedgeL]
  simp only [ip_inner hs]

/-- C108: blades of vectors of different numbers are orthogonal. -/
theorem C108_gram_ne (hs : g.IsSymm) {L L' : List (Fin n → K)} (h : L.length ≠ L'.length) :
    (outerOf g L).spRev g (outerOf g L') = 0 := by
  rw [spRev_spec hs (rep_outerOf hs _) (rep_outerOf hs _)]
  exact Spec.sp_grades h (Spec.homogeneous_wedgeL L) (Spec.homogeneous_wedgeL L')

/-- C108: the square of the volume that vectors span is the determinant of their inner products. -/
theorem C108_volume (hs : g.IsSymm) {k : ℕ} (v : Fin k → Fin n → K) :
    (outerOf g (List.ofFn v)).qform g = (Matrix.of fun i j => inner g (v i) (v j)).det := by
  rw [qform_sp hs (rep_outerOf hs _), Spec.sp_wedgeL]
  simp only [ip_inner hs]

/-- C108: a linear transformation multiplies the volumes that as many vectors as dimensions span by its determinant: the
quadratic form by the square. -/
theorem C108_volume_lt (hs : g.IsSymm) {L : Lt K n} (hL : L.WF) {d : K} (h : L.det g = some d) (v : Fin n → Fin n → K) :
    (L.call g (outerOf g (List.ofFn v))).eq g ((outerOf g (List.ofFn v)).smul d) = true ∧
      (L.call g (outerOf g (List.ofFn v))).qform g = d ^ 2 * (outerOf g (List.ofFn v)).qform g := by
  have r := rep_outerOf (g := g) hs (List.ofFn v)
  have rL := Rep.call hs hL r
  have hE := C36_pseudoscalar hs hL h
  rw [Rep.eq_iff hs (Rep.call hs hL pseudoE_rep) (pseudoE_rep.smul d)] at hE
  have e : Spec.outer g L.mat (Spec.wedgeL g (List.ofFn v)) = d • Spec.wedgeL g (List.ofFn v) := by
    rw [Spec.wedgeL_ofFn_det, map_smul, hE, smul_comm]
  refine ⟨(rL.eq_iff hs (r.smul d)).mpr e, ?_⟩
  rw [qform_sp hs rL, qform_sp hs r, e, Spec.sp_smul_left, Spec.sp_smul_right]
  ring

end field

section ordered
variable {n : ℕ} {K : Type*} [Field K] [LinearOrder K] [IsStrictOrderedRing K] [Invertible (2 : K)]
  {g : Matrix (Fin n) (Fin n) K}

theorem outerOf_zero_mem (hs : g.IsSymm) {L : List (Fin n → K)} (h : 0 ∈ L) : (outerOf g L).qform g = 0 := by
  have e : Spec.wedgeL g L = 0 := by
    have := List.append_of_mem h
    obtain ⟨s, t, rfl⟩ := this
    induction s with
    | nil => rw [List.nil_append, Spec.wedgeL_cons, show Spec.vec g 0 = 0 from map_zero _, Spec.zero_wedge]
    | cons u s ih =>
      rw [List.cons_append, Spec.wedgeL_cons, ih (by simp), Spec.wedge_zero]
  rw [qform_sp hs (rep_outerOf hs L), e, ← zero_smul K (0 : Spec.Cl g), Spec.sp_smul_right, zero_mul]

/-- C108: Hadamard's inequality is an equality exactly if the vectors are orthogonal to each other or one of them is zero. -/
theorem C108_hadamard_eq (hs : g.IsSymm) (hp : Euclidean g) (L : List (Fin n → K)) :
    (outerOf g L).qform g = (L.map fun v => (Mv.vector v).qform g).prod ↔
      0 ∈ L ∨ L.Pairwise fun v w => inner g v w = 0 := by
  have hz : ∀ v : Fin n → K, (Mv.vector v).qform g = 0 ↔ v = 0 := fun v => by
    constructor
    · intro h
      by_contra h0
      have := hp v h0
      rw [← ip_self hs, ← show (Mv.vector v).qform g = Spec.ip g v v from ?_, h] at this
      · exact lt_irrefl _ this
      · have := C108_volume hs (g := g) (fun _ : Fin 1 => v)
        rw [qform_sp hs (Rep.vector v)]
        have h2 := Spec.sp_wedgeL (g := g) (fun _ : Fin 1 => v) (fun _ : Fin 1 => v)
        simpa [Spec.wedge_one] using h2
    · rintro rfl
      rw [qform_sp hs (Rep.vector 0), show Spec.vec g 0 = 0 from map_zero _, ← zero_smul K (0 : Spec.Cl g), Spec.sp_smul_right, zero_mul]
  by_cases h0 : (0 : Fin n → K) ∈ L
  · rw [outerOf_zero_mem hs h0]
    refine ⟨fun _ => Or.inl h0, fun _ => ?_⟩
    exact (List.prod_eq_zero (List.mem_map.mpr ⟨0, h0, (hz 0).mpr rfl⟩)).symm
  rw [or_iff_right h0]
  induction L with
  | nil =>
    have := C108_volume hs (g := g) (fun i : Fin 0 => i.elim0)
    simpa using this
  | cons v L ih =>
    rw [List.mem_cons, not_or] at h0
    have r := rep_outerOf (g := g) hs L
    have hv : 0 < (Mv.vector v).qform g := lt_of_le_of_ne (qform_posdef hs hp (Rep.vector v)).1 fun h => h0.1 ((hz v).mp h.symm).symm
    have hs1 := (C108_vector_split hs v r.wf r.flag).2
    have hc := qform_posdef hs hp ((Rep.vector (g := g) v).left hs r)
    have hh := (C108_hadamard hs hp L).2
    have hpos : 0 < (L.map fun v => (Mv.vector v).qform g).prod := by
      refine List.prod_pos fun x hx => ?_
      obtain ⟨w, hw, rfl⟩ := List.mem_map.mp hx
      exact lt_of_le_of_ne (qform_posdef hs hp (Rep.vector w)).1 fun h => h0.2 ((hz w).mp h.symm ▸ hw)
    have ih' := ih h0.2
    rw [List.map_cons, List.prod_cons, List.pairwise_cons]
    refine Iff.trans ?_ (and_congr Iff.rfl ih')
    rw [outerOf, List.foldr_cons, ← outerOf]
    set W := outerOf g L
    have hn : W.qform g = (L.map fun v => (Mv.vector v).qform g).prod → Spec.wedgeL g L ≠ 0 := fun h e => by
      rw [← h, qform_sp hs r, e, ← zero_smul K (0 : Spec.Cl g), Spec.sp_smul_right, zero_mul] at hpos
      exact lt_irrefl _ hpos
    constructor
    · intro h
      have m1 : (Mv.vector v).qform g * W.qform g ≤ (Mv.vector v).qform g * (L.map fun v => (Mv.vector v).qform g).prod :=
        mul_le_mul_of_nonneg_left hh hv.le
      have e1 : ((Mv.vector v).left g W).qform g = 0 := le_antisymm (by linarith) hc.1
      have e2 : W.qform g = (L.map fun v => (Mv.vector v).qform g).prod := by
        refine mul_left_cancel₀ hv.ne' ?_
        linarith
      refine ⟨fun w hw => ?_, e2⟩
      rw [← ip_inner hs]
      exact (Spec.con_wedgeL_eq_zero v (hn e2)).mp (by rw [← Spec.lc_vec]; exact hc.2 e1) w hw
    · rintro ⟨h1, h2⟩
      have e := (Spec.con_wedgeL_eq_zero v (hn h2)).mpr fun w hw => by rw [ip_inner hs]; exact h1 w hw
      have e1 : ((Mv.vector v).left g W).qform g = 0 := by
        rw [qform_sp hs ((Rep.vector (g := g) v).left hs r), Spec.lc_vec, e, ← zero_smul K (0 : Spec.Cl g), Spec.sp_smul_right, zero_mul]
      rw [← h2]
      linarith

end ordered

section Ex

open Ex in
/-- Witness: the volumes of two and of three vectors in an algebra whose basis is not orthogonal, with a mixed product. -/
example : (outerOf (gE ℚ) [![1, 0, 0], ![0, 1, 1]]).spRev (gE ℚ) (outerOf (gE ℚ) [![0, 1, 0], ![1, 0, 2]]) = 1 ∧
    inner (gE ℚ) ![1, 0, 0] ![0, 1, 0] * inner (gE ℚ) ![0, 1, 1] ![1, 0, 2] -
      inner (gE ℚ) ![1, 0, 0] ![1, 0, 2] * inner (gE ℚ) ![0, 1, 1] ![0, 1, 0] = 1 ∧
    (outerOf (gE ℚ) [![1, 0, 0], ![0, 1, 0], ![1, 0, 1]]).qform (gE ℚ) = 4 := by
  decide +kernel

open Ex in
/-- Witness: three vectors that are orthogonal to each other in that algebra, and their volume. -/
example : [![1, 0, 0], ![1, -2, 0], ![1, -2, 3]].Pairwise (fun v w => inner (gE ℚ) v w = 0) ∧
    (0 : Fin 3 → ℚ) ∉ [![1, 0, 0], ![1, -2, 0], ![1, -2, 3]] ∧
    (outerOf (gE ℚ) [![1, 0, 0], ![1, -2, 0], ![1, -2, 3]]).qform (gE ℚ) = 144 ∧
    ([![1, 0, 0], ![1, -2, 0], ![1, -2, 3]].map fun v => (Mv.vector v).qform (gE ℚ)).prod = 144 := by
  decide +kernel

/-- Witness for `C108_volume_lt`: a linear transformation with a determinant, and three vectors. -/
example : Ex.L.det Ex.gN = some (-3) ∧ (Ex.L.call Ex.gN (outerOf Ex.gN [![1, 2, 0], ![0, 3, 1], ![1, 0, 1]])).qform Ex.gN =
    9 * (outerOf Ex.gN [![1, 2, 0], ![0, 3, 1], ![1, 0, 1]]).qform Ex.gN := by
  decide +kernel

end Ex
end GA
