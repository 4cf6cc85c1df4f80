import Verif.Proofs.MvSpec

/-! Laws of the specification: grades, exterior product, vectors. -/

set_option linter.unusedSectionVars false

namespace Spec
open GA CliffordAlgebra
variable {n : ℕ} {R : Type*} [CommRing R] [Invertible (2 : R)]
  (g : Matrix (Fin n) (Fin n) R)

/-- Induction over linear combinations of basis blades. -/
theorem blade_induction {P : Cl g → Prop} (h0 : P 0) (hadd : ∀ x y, P x → P y → P (x + y))
    (hsm : ∀ (c : R) l, l.Pairwise (· < ·) → P (c • blade g l)) (x : Cl g) : P x := by
  classical
  obtain ⟨E, hE, rfl⟩ := exists_expr g x
  induction E with
  | nil => exact h0
  | cons t E ih =>
    obtain ⟨l, hl, hlt⟩ := hE t (by simp)
    rw [den_eq_lin, lin_cons, hl]
    exact hadd _ _ (hsm _ _ hlt) (ih fun u hu => hE u (by simp [hu]))

theorem grade_grade (r s : ℕ) (x : Cl g) :
    grade g r (grade g s x) = if r = s then grade g s x else 0 := by
  induction x using blade_induction g with
  | h0 => simp
  | hadd x y hx hy =>
    rw [map_add, map_add, hx, hy]
    split_ifs <;> simp
  | hsm c l hl =>
    rw [map_smul, grade_blade]
    split_ifs with h1 h2 h2
    · rw [map_smul, grade_blade, if_pos (h1.trans h2.symm)]
    · rw [map_smul, grade_blade, if_neg (fun h => h2 (h.symm.trans h1)), smul_zero]
    · simp
    · simp

variable {g}

theorem homogeneous_grade (r : ℕ) (x : Cl g) : Homogeneous g r (grade g r x) := by
  intro k hk; rw [grade_grade, if_neg hk]

theorem Homogeneous.grade_eq {r : ℕ} {x : Cl g} (h : Homogeneous g r x) : grade g r x = x := by
  classical
  conv_rhs => rw [← sum_grade g x]
  by_cases hr : r ≤ n
  · rw [Finset.sum_eq_single r]
    · intro k _ hk; exact h k hk
    · intro h'; simp at h'; omega
  · rw [Finset.sum_eq_zero]
    · have hx : x = 0 := by
        rw [← sum_grade g x]
        refine Finset.sum_eq_zero fun k hk => h k ?_
        rintro rfl; exact hr (by simpa [Nat.lt_succ_iff] using hk)
      rw [hx, map_zero]
    · intro k hk
      refine h k ?_
      rintro rfl; exact hr (by simpa [Nat.lt_succ_iff] using hk)

theorem homogeneous_iff {r : ℕ} {x : Cl g} : Homogeneous g r x ↔ grade g r x = x :=
  ⟨fun h => h.grade_eq, fun h => h ▸ homogeneous_grade r x⟩

theorem homogeneous_blade (l : List (Fin n)) : Homogeneous g l.length (blade g l) := by
  intro k hk; rw [grade_blade, if_neg hk.symm]

theorem homogeneous_vec (v : Fin n → R) : Homogeneous g 1 (vec g v) := by
  intro k hk
  rw [vec_eq_sum, map_sum]
  refine Finset.sum_eq_zero fun i _ => ?_
  rw [map_smul, ← blade_singleton, grade_blade, if_neg (by simpa using hk.symm), smul_zero]

theorem homogeneous_algebraMap (c : R) : Homogeneous g 0 (algebraMap R (Cl g) c) :=
  fun _ hk => by classical exact grade_algebraMap g c hk

theorem grade_gt {r : ℕ} (hr : n < r) (x : Cl g) : grade g r x = 0 := by
  induction x using blade_induction g with
  | h0 => simp
  | hadd x y hx hy => rw [map_add, hx, hy, add_zero]
  | hsm c l hl =>
    have := length_le_of_lt hl
    rw [map_smul, grade_blade, if_neg (by omega), smul_zero]

/-- The graded products on homogeneous elements. -/
theorem gradedProduct_homogeneous (f : ℕ → ℕ → Option ℕ) {r s : ℕ} {x y : Cl g}
    (hx : Homogeneous g r x) (hy : Homogeneous g s y) :
    gradedProduct g f x y = match f r s with
      | none => 0
      | some t => grade g t (x * y) := by
  rw [gradedProduct]
  by_cases hr : r ≤ n
  · rw [Finset.sum_eq_single r]
    · by_cases hs : s ≤ n
      · rw [Finset.sum_eq_single s]
        · rw [hx.grade_eq, hy.grade_eq]
          cases f r s <;> rfl
        · intro k _ hk
          rw [hy k hk]; cases f r k <;> simp
        · intro h; simp at h; omega
      · have hy0 : y = 0 := by rw [← hy.grade_eq, grade_gt (by omega)]
        subst hy0
        rw [Finset.sum_eq_zero]
        · cases f r s <;> simp
        · intro k _; cases f r k <;> simp
    · intro k _ hk
      refine Finset.sum_eq_zero fun j _ => ?_
      rw [hx k hk]; cases f k j <;> simp
    · intro h; simp at h; omega
  · have hx0 : x = 0 := by rw [← hx.grade_eq, grade_gt (by omega)]
    subst hx0
    rw [Finset.sum_eq_zero]
    · cases f r s <;> simp
    · intro k _
      refine Finset.sum_eq_zero fun j _ => ?_
      cases f k j <;> simp

/-! ### Exterior product -/

theorem wedge_assoc (x y z : Cl g) : wedge g (wedge g x y) z = wedge g x (wedge g y z) := by
  simp [wedge, mul_assoc]
theorem wedge_add (x y z : Cl g) : wedge g x (y + z) = wedge g x y + wedge g x z := by
  simp [wedge, mul_add]
theorem add_wedge (x y z : Cl g) : wedge g (x + y) z = wedge g x z + wedge g y z := by
  simp [wedge, add_mul]
theorem wedge_smul (c : R) (x y : Cl g) : wedge g x (c • y) = c • wedge g x y := by
  simp [wedge]
theorem smul_wedge (c : R) (x y : Cl g) : wedge g (c • x) y = c • wedge g x y := by
  simp [wedge]
theorem wedge_zero (x : Cl g) : wedge g x 0 = 0 := by simp [wedge]
theorem zero_wedge (x : Cl g) : wedge g 0 x = 0 := by simp [wedge]

theorem vec_wedge_self (v : Fin n → R) : wedge g (vec g v) (vec g v) = 0 := by
  rw [wedge, toExt_vec, ExteriorAlgebra.ι_sq_zero, map_zero]

theorem extBlade_move (i : Fin n) (m : List (Fin n)) :
    extBlade R (i :: m) = (-1 : R) ^ m.length • extBlade R (m ++ [i]) := by
  induction m with
  | nil => simp
  | cons j m ih =>
    have h1 := extBlade_swap (R := R) [] i j m
    simp only [List.nil_append] at h1
    rw [h1, extBlade_cons, ih, List.cons_append, extBlade_cons]
    simp [pow_succ, mul_comm]

theorem extBlade_swap_append (l m : List (Fin n)) :
    extBlade R (l ++ m) = (-1 : R) ^ (l.length * m.length) • extBlade R (m ++ l) := by
  induction l generalizing m with
  | nil => simp
  | cons i l ih =>
    rw [List.cons_append, extBlade_move, List.append_assoc, ih, smul_smul, List.append_assoc]
    congr 1
    rw [← pow_add, List.length_append, List.length_append, List.length_cons, List.length_cons, List.length_nil]
    have : ∀ a b : ℕ, (Even a ↔ Even b) → (-1 : R) ^ a = (-1) ^ b := by
      intro a b h
      rcases Nat.even_or_odd a with ha | ha
      · rw [ha.neg_one_pow, (h.mp ha).neg_one_pow]
      · have hb : Odd b := Nat.not_even_iff_odd.mp fun hb => (Nat.not_even_iff_odd.mpr ha) (h.mpr hb)
        rw [ha.neg_one_pow, hb.neg_one_pow]
    apply this
    simp only [zero_add, Nat.even_add, Nat.even_mul, Nat.not_even_one, iff_false]
    tauto

theorem wedge_blade_comm (l m : List (Fin n)) : wedge g (blade g l) (blade g m) =
    (-1 : R) ^ (l.length * m.length) • wedge g (blade g m) (blade g l) := by
  rw [wedge_blade, wedge_blade, blade, blade, extBlade_swap_append, map_smul]

theorem wedge_comm {r s : ℕ} {x y : Cl g} (hx : Homogeneous g r x) (hy : Homogeneous g s y) :
    wedge g x y = (-1 : R) ^ (r * s) • wedge g y x := by
  have key : ∀ x y : Cl g, wedge g (grade g r x) (grade g s y) =
      (-1 : R) ^ (r * s) • wedge g (grade g s y) (grade g r x) := by
    intro x y
    induction x using blade_induction g with
    | h0 => simp [wedge_zero, zero_wedge]
    | hadd x x' hx hx' => rw [map_add, add_wedge, hx, hx', wedge_add, smul_add]
    | hsm c l hl =>
      rw [map_smul, grade_blade]
      split_ifs with h1
      · induction y using blade_induction g with
        | h0 => simp [wedge_zero, zero_wedge]
        | hadd y y' hy hy' => rw [map_add, wedge_add, hy, hy', add_wedge, smul_add]
        | hsm d m hm =>
          rw [map_smul, grade_blade]
          split_ifs with h2
          · rw [smul_wedge, wedge_smul, wedge_blade_comm, smul_wedge, wedge_smul, h1, h2]
            simp only [smul_smul]
            congr 1; ring
          · simp [wedge_zero, zero_wedge]
      · simp [wedge_zero, zero_wedge]
  have := key x y
  rwa [hx.grade_eq, hy.grade_eq] at this

theorem homogeneous_wedge {r s : ℕ} {x y : Cl g} (hx : Homogeneous g r x)
    (hy : Homogeneous g s y) : Homogeneous g (r + s) (wedge g x y) := by
  rw [← hx.grade_eq, ← hy.grade_eq]
  clear hx hy
  intro k hk
  induction x using blade_induction g with
  | h0 => simp [zero_wedge]
  | hadd x x' hx hx' => rw [map_add, add_wedge, map_add, hx, hx', add_zero]
  | hsm c l hl =>
    rw [map_smul, grade_blade]
    split_ifs with h1
    · induction y using blade_induction g with
      | h0 => simp [wedge_zero]
      | hadd y y' hy hy' => rw [map_add, wedge_add, map_add, hy, hy', add_zero]
      | hsm d m hm =>
        rw [map_smul, grade_blade]
        split_ifs with h2
        · rw [smul_wedge, wedge_smul, wedge_blade, map_smul, map_smul, grade_blade, if_neg,
            smul_zero, smul_zero]
          rw [List.length_append]; omega
        · simp [wedge_zero]
    · simp [zero_wedge]

/-! ### Vectors -/

theorem associated_vec (hs : g.IsSymm) (v w : Fin n → R) :
    QuadraticMap.associated (R := R) (Q g) v w = ∑ i, ∑ j, g i j * v i * w j := by
  have h := two_smul_associated g v w
  rw [polar_Q] at h
  have h2 : ∑ i, ∑ j, (g i j + g j i) * v i * w j = 2 * ∑ i, ∑ j, g i j * v i * w j := by
    rw [Finset.mul_sum]
    refine Finset.sum_congr rfl fun i _ => ?_
    rw [Finset.mul_sum]
    refine Finset.sum_congr rfl fun j _ => ?_
    rw [hs.apply i j]; ring
  rw [h2] at h
  exact (isUnit_of_invertible (2 : R)).mul_left_cancel h

theorem con_vec (v w : Fin n → R) :
    con g v (vec g w) = algebraMap R _ (QuadraticMap.associated (R := R) (Q g) v w) := by
  have := con_vec_mul g v w 1
  rw [mul_one, con_one, mul_zero, sub_zero, ← Algebra.algebraMap_eq_smul_one] at this
  exact this

theorem vec_mul_vec (hs : g.IsSymm) (v w : Fin n → R) :
    vec g v * vec g w = algebraMap R _ (∑ i, ∑ j, g i j * v i * w j) + wedge g (vec g v) (vec g w) := by
  rw [wedge_vec, con_vec, associated_vec hs]; abel

theorem grade_zero_vec_mul_vec (hs : g.IsSymm) (v w : Fin n → R) :
    grade g 0 (vec g v * vec g w) = algebraMap R _ (∑ i, ∑ j, g i j * v i * w j) := by
  classical
  rw [vec_mul_vec hs, map_add, grade_zero_algebraMap,
    homogeneous_wedge (homogeneous_vec v) (homogeneous_vec w) 0 (by norm_num), add_zero]

theorem hestenesDot_vec (hs : g.IsSymm) (v w : Fin n → R) :
    hestenesDot g (vec g v) (vec g w) = algebraMap R _ (∑ i, ∑ j, g i j * v i * w j) := by
  rw [hestenesDot, gradedProduct_homogeneous _ (homogeneous_vec v) (homogeneous_vec w)]
  simpa using grade_zero_vec_mul_vec hs v w

end Spec
