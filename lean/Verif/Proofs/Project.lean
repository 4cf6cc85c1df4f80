import Verif.Proofs.GradeMul
import Verif.Proofs.Pseudo

/-! Left contraction on blades: projection and reflection in a blade. -/

set_option linter.unusedSectionVars false

namespace Spec
open GA CliffordAlgebra
variable {n : ℕ} {R : Type*} [CommRing R] [Invertible (2 : R)]
  {g : Matrix (Fin n) (Fin n) R}

/-- Left contraction as a bilinear map. -/
theorem lc_bilin : ∃ φ : Cl g →ₗ[R] Cl g →ₗ[R] Cl g, ∀ x y, leftContraction g x y = φ x y := by
  classical
  exact ⟨gradedL g (fun r s => if r ≤ s then some (s - r) else none),
    fun x y => (gradedL_apply g _ x y).symm⟩

theorem lc_add_left (x x' y : Cl g) :
    leftContraction g (x + x') y = leftContraction g x y + leftContraction g x' y := by
  obtain ⟨φ, h⟩ := lc_bilin (g := g); simp [h]
theorem lc_add_right (x y y' : Cl g) :
    leftContraction g x (y + y') = leftContraction g x y + leftContraction g x y' := by
  obtain ⟨φ, h⟩ := lc_bilin (g := g); simp [h]
theorem lc_smul_left (c : R) (x y : Cl g) :
    leftContraction g (c • x) y = c • leftContraction g x y := by
  obtain ⟨φ, h⟩ := lc_bilin (g := g); simp [h]
theorem lc_smul_right (c : R) (x y : Cl g) :
    leftContraction g x (c • y) = c • leftContraction g x y := by
  obtain ⟨φ, h⟩ := lc_bilin (g := g); simp [h]
theorem lc_zero_left (y : Cl g) : leftContraction g 0 y = 0 := by
  obtain ⟨φ, h⟩ := lc_bilin (g := g); simp [h]
theorem lc_zero_right (x : Cl g) : leftContraction g x 0 = 0 := by
  obtain ⟨φ, h⟩ := lc_bilin (g := g); simp [h]

theorem lc_homogeneous {r s : ℕ} {x y : Cl g} (hx : Homogeneous g r x) (hy : Homogeneous g s y) :
    leftContraction g x y = if r ≤ s then grade g (s - r) (x * y) else 0 := by
  rw [leftContraction, gradedProduct_homogeneous _ hx hy]
  split_ifs <;> rfl

theorem lc_one (y : Cl g) : leftContraction g 1 y = y := by
  induction y using blade_induction g with
  | h0 => exact lc_zero_right _
  | hadd x y hx hy => rw [lc_add_right, hx, hy]
  | hsm c l hl =>
    have h1 : Homogeneous g 0 (1 : Cl g) := by
      have := homogeneous_algebraMap (g := g) (1 : R); rwa [map_one] at this
    rw [lc_smul_right, lc_homogeneous h1 (homogeneous_blade l), if_pos (Nat.zero_le _), one_mul,
      Nat.sub_zero, (homogeneous_blade l).grade_eq]

/-- `(v ∧ x) ⌋ y = v ⌋ (x ⌋ y)`. -/
theorem lc_wedge_vec (v : Fin n → R) (x y : Cl g) :
    leftContraction g (wedge g (vec g v) x) y = con g v (leftContraction g x y) := by
  induction y using blade_induction g with
  | h0 => simp [lc_zero_right]
  | hadd y y' h h' => rw [lc_add_right, h, h', lc_add_right, map_add]
  | hsm c m hm =>
  rw [lc_smul_right, lc_smul_right, map_smul]; congr 1
  induction x using blade_induction g with
  | h0 => simp [lc_zero_left, wedge_zero]
  | hadd x x' h h' => rw [wedge_add, lc_add_left, h, h', lc_add_left, map_add]
  | hsm c l hl =>
  rw [wedge_smul, lc_smul_left, lc_smul_left, map_smul]; congr 1
  have hx := homogeneous_blade (g := g) l
  have hy := homogeneous_blade (g := g) m
  generalize blade g l = x at *
  generalize blade g m = y at *
  generalize l.length = r at *
  generalize m.length = s at *
  have hvx := homogeneous_wedge (homogeneous_vec (g := g) v) hx
  rw [lc_homogeneous hvx hy, lc_homogeneous hx hy]
  by_cases h1 : 1 + r ≤ s
  · rw [if_pos h1, if_pos (by omega), wedge_vec, sub_mul, map_sub, mul_assoc, vec_mul, map_add,
      grade_con, show s - (1 + r) + 1 = s - r by omega]
    have h2 : grade g (s - (1 + r)) (wedge g (vec g v) (x * y)) = 0 := by
      cases hk : s - (1 + r) with
      | zero => exact grade_zero_wedge_vec _ _
      | succ k =>
        rw [grade_wedge_vec, grade_mul_homogeneous hx hy (fun j h1 h2 h3 => by omega), wedge_zero]
    have h3 : grade g (s - (1 + r)) (con g v x * y) = 0 := by
      cases r with
      | zero => rw [con_homogeneous_zero v hx, zero_mul, map_zero]
      | succ r =>
        exact grade_mul_homogeneous (homogeneous_con v hx) hy (fun j h1 h2 h3 => by omega)
    rw [h2, h3]; abel
  · rw [if_neg h1]
    split_ifs with h2
    · rw [con_homogeneous_zero v]
      have := homogeneous_grade (g := g) (s - r) (x * y)
      rwa [show s - r = 0 by omega] at this ⊢
    · rw [map_zero]

theorem lc_wedgeL (L : List (Fin n → R)) (y : Cl g) :
    leftContraction g (wedgeL g L) y = conL g L y := by
  induction L with
  | nil => exact lc_one y
  | cons v L ih => rw [wedgeL_cons, lc_wedge_vec, ih, conL_cons]

theorem lc_vec (v : Fin n → R) (y : Cl g) : leftContraction g (vec g v) y = con g v y := by
  have := lc_wedgeL (g := g) [v] y
  rwa [wedgeL_cons, wedgeL_nil, wedge_one] at this

/-- The exterior algebra of the vectors of `L` is closed under contraction. -/
theorem Sub.con {W : Set (Fin n → R)} {m : ℕ} {x : Cl g} (h : Sub g W m x) (v : Fin n → R) :
    Sub g W m (con g v x) := by
  cases m with
  | zero => rw [(h.con_aux v).2 rfl]; exact Sub.zero _
  | succ m => exact ((h.con_aux v).1 m rfl).mono

theorem Sub.conL {W : Set (Fin n → R)} {m : ℕ} {x : Cl g} (h : Sub g W m x)
    (L : List (Fin n → R)) : Sub g W m (conL g L x) := by
  induction L with
  | nil => exact h
  | cons v L ih => exact ih.con v

theorem Sub.lc {W : Set (Fin n → R)} {m : ℕ} {y : Cl g} (h : Sub g W m y) (x : Cl g) :
    Sub g W m (leftContraction g x y) := by
  induction x using blade_induction g with
  | h0 => rw [lc_zero_left]; exact Sub.zero _
  | hadd x x' h h' => rw [lc_add_left]; exact h.add h'
  | hsm c l hl =>
    rw [lc_smul_left, blade_eq_wedgeL, lc_wedgeL]; exact (h.conL _).smul c

theorem Sub.mul_eq_lc {W : Set (Fin n → R)} {E : Cl g}
    (hE : ∀ v ∈ W, Spec.wedge g (vec g v) E = 0) {m : ℕ} {x : Cl g} (hx : Sub g W m x) :
    x * E = leftContraction g x E := by
  induction hx with
  | one => rw [one_mul, lc_one]
  | add _ _ ih1 ih2 => rw [add_mul, lc_add_left, ih1, ih2]
  | smul c _ ih => rw [smul_mul_assoc, lc_smul_left, ih]
  | wedge hw hx ih => rw [hx.wedge_mul hE hw, ih, lc_wedge_vec]
  | mono _ ih => exact ih

/-- For a blade `B`: `(x ⌋ B) B` is in the exterior algebra of the vectors of `B`, and contracting
it with `B` again multiplies by `B`. -/
theorem blade_lc (L : List (Fin n → R)) (x : Cl g) :
    leftContraction g (leftContraction g x (wedgeL g L) * wedgeL g L) (wedgeL g L) =
      leftContraction g x (wedgeL g L) * wedgeL g L * wedgeL g L := by
  have hE : ∀ v ∈ {v | v ∈ L}, Spec.wedge g (vec g v) (wedgeL g L) = 0 :=
    fun v hv => wedge_wedgeL_mem hv
  have h0 := sub_wedgeL (g := g) (W := {v | v ∈ L}) (L := L) fun _ h => h
  have h1 := h0.lc x
  have h2 := h0.lc (leftContraction g x (wedgeL g L))
  rw [h1.mul_eq_lc hE, h2.mul_eq_lc hE]

theorem reverse_wedgeL (L : List (Fin n → R)) :
    reverse (Q := Q g) (wedgeL g L) =
      (-1 : R) ^ (L.length * (L.length - 1) / 2) • wedgeL g L :=
  (homogeneous_reverse (homogeneous_wedgeL L)).2

/-- Multiplication by a vector on the right. -/
theorem mul_vec (v : Fin n → R) (x : Cl g) :
    x * vec g v = vec g v * involute x - (2 : R) • con g v (involute x) := by
  induction x using CliffordAlgebra.left_induction with
  | algebraMap c =>
    rw [AlgHom.commutes, con, contractLeft_algebraMap, smul_zero, sub_zero, Algebra.commutes]
  | add x y hx hy => rw [add_mul, hx, hy]; simp only [map_add, mul_add, smul_add]; abel
  | ι_mul x w ih =>
    have h1 : con g v (CliffordAlgebra.ι (Q g) w * involute x) =
        ip g v w • involute x - CliffordAlgebra.ι (Q g) w * con g v (involute x) :=
      contractLeft_ι_mul _ _ _
    have h2 : CliffordAlgebra.ι (Q g) w * vec g v =
        algebraMap R _ ((2 : R) * ip g v w) - vec g v * CliffordAlgebra.ι (Q g) w := by
      rw [two_smul_associated, vec, ← ι_mul_ι_add_swap]; abel
    rw [mul_assoc, ih, map_mul, involute_ι, mul_sub, ← mul_assoc, h2, neg_mul, mul_neg, map_neg, h1,
      mul_smul_comm, sub_mul, ← Algebra.smul_def, mul_assoc]
    module

/-! ### Projection and reflection in an invertible blade -/

section inv
variable {L : List (Fin n → R)} {c d : R}

/-- `proj` is idempotent. -/
theorem proj_proj (hB : wedgeL g L * wedgeL g L = algebraMap R _ c) (hd : d * c = 1) (x : Cl g) :
    leftContraction g (leftContraction g x (wedgeL g L) * (d • wedgeL g L)) (wedgeL g L) =
      leftContraction g x (wedgeL g L) := by
  rw [mul_smul_comm, lc_smul_left, blade_lc, mul_assoc, hB, ← Algebra.commutes, ← Algebra.smul_def,
    smul_smul, hd, one_smul]

theorem proj_homogeneous (a : Fin n → R) :
    Homogeneous g 1 (leftContraction g (vec g a) (wedgeL g L) * (d • wedgeL g L)) := by
  rw [mul_smul_comm]
  refine Homogeneous.smul _ ?_
  have hE : ∀ v ∈ {v | v ∈ L}, Spec.wedge g (vec g v) (wedgeL g L) = 0 :=
    fun v hv => wedge_wedgeL_mem hv
  have h0 := sub_wedgeL (g := g) (W := {v | v ∈ L}) (L := L) fun _ h => h
  rw [(h0.lc (vec g a)).mul_eq_lc hE, lc_vec]
  have hL := homogeneous_wedgeL (g := g) L
  rcases Nat.eq_zero_or_pos L.length with h | h
  · rw [h] at hL; rw [con_homogeneous_zero a hL, lc_zero_left]; exact homogeneous_zero _
  · have h1 : Homogeneous g (L.length - 1) (con g a (wedgeL g L)) :=
      homogeneous_con a (by rwa [Nat.sub_add_cancel h])
    rw [lc_homogeneous h1 hL, if_pos (by omega), show L.length - (L.length - 1) = 1 by omega]
    exact homogeneous_grade _ _

/-- The projection of a vector lies in the blade, and the rest is orthogonal to the blade. -/
theorem proj_vec (hB : wedgeL g L * wedgeL g L = algebraMap R _ c) (hd : d * c = 1)
    (a : Fin n → R) : ∃ u : Fin n → R,
      leftContraction g (vec g a) (wedgeL g L) * (d • wedgeL g L) = vec g u ∧
      wedge g (vec g u) (wedgeL g L) = 0 ∧ con g (a - u) (wedgeL g L) = 0 := by
  obtain ⟨u, hu⟩ := homogeneous_one (proj_homogeneous (g := g) (L := L) (d := d) a)
  have h1 := proj_proj hB hd (vec g a)
  rw [hu, lc_vec, lc_vec] at h1
  refine ⟨u, hu, ?_, ?_⟩
  · have h2 : vec g u * wedgeL g L = con g a (wedgeL g L) := by
      rw [← hu, lc_vec, mul_assoc, smul_mul_assoc, hB, mul_smul_comm, ← Algebra.commutes,
        ← Algebra.smul_def, smul_smul, hd, one_smul]
    rw [vec_mul, h1] at h2
    exact left_eq_add.mp h2.symm
  · have : con g a (wedgeL g L) = con g (a - u) (wedgeL g L) + con g u (wedgeL g L) := by
      rw [← con_add_left, sub_add_cancel]
    rw [h1] at this
    exact right_eq_add.mp this

theorem blade_mul_vec (v : Fin n → R) : wedgeL g L * vec g v =
    (-1 : R) ^ L.length • (wedge g (vec g v) (wedgeL g L) - con g v (wedgeL g L)) := by
  rw [mul_vec, homogeneous_involute (homogeneous_wedgeL L), mul_smul_comm, map_smul, vec_mul]
  module

/-- On a vector, the reflection is `2 proj(a) - a`. -/
theorem refl_vec (hB : wedgeL g L * wedgeL g L = algebraMap R _ c) (hd : d * c = 1)
    (a : Fin n → R) :
    (-1 : R) ^ (L.length + 1) • (wedgeL g L * vec g a * (d • wedgeL g L)) =
      (2 : R) • (leftContraction g (vec g a) (wedgeL g L) * (d • wedgeL g L)) - vec g a := by
  obtain ⟨u, hu, h1, h2⟩ := proj_vec hB hd a
  have e1 : wedgeL g L * vec g u = (-1 : R) ^ (L.length + 1) • (vec g u * wedgeL g L) := by
    rw [blade_mul_vec, h1, vec_mul, h1, pow_succ]; module
  have e2 : wedgeL g L * vec g (a - u) = (-1 : R) ^ L.length • (vec g (a - u) * wedgeL g L) := by
    rw [blade_mul_vec, h2, vec_mul, h2]; module
  have hd' : wedgeL g L * (d • wedgeL g L) = 1 := by
    rw [mul_smul_comm, hB, Algebra.smul_def, ← map_mul, hd, map_one]
  have e3 : vec g a = vec g u + vec g (a - u) := by rw [← vec_add]; congr 1; abel
  have sq : ((-1 : R) ^ L.length) * (-1) ^ L.length = 1 := by
    rw [← mul_pow, neg_one_mul, neg_neg, one_pow]
  rw [hu, e3, mul_add, add_mul, e1, e2, smul_mul_assoc, smul_mul_assoc, mul_assoc, mul_assoc, hd',
    mul_one, mul_one, smul_add, smul_smul, smul_smul, pow_succ]
  linear_combination (norm := module) sq • (vec g u - vec g (a - u))

end inv

end Spec
