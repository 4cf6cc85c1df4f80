import Verif.Proofs.Pseudo

/-! Grades occurring in a geometric product of homogeneous elements. -/

set_option linter.unusedSectionVars false

namespace Spec
open GA CliffordAlgebra
variable {n : ℕ} {R : Type*} [CommRing R] [Invertible (2 : R)]
  {g : Matrix (Fin n) (Fin n) R}

theorem wedge_vec_sum {ι : Type*} (s : Finset ι) (x : Cl g) (f : ι → Cl g) :
    wedge g x (∑ i ∈ s, f i) = ∑ i ∈ s, wedge g x (f i) := wedge_sum s x f

theorem grade_wedge_vec (k : ℕ) (v : Fin n → R) (x : Cl g) :
    grade g (k + 1) (wedge g (vec g v) x) = wedge g (vec g v) (grade g k x) := by
  induction x using blade_induction g with
  | h0 => simp [wedge_zero]
  | hadd x y hx hy => rw [wedge_add, map_add, hx, hy, map_add, wedge_add]
  | hsm c l hl =>
    rw [wedge_smul, map_smul, map_smul, wedge_smul, grade_blade]
    congr 1
    have h1 := homogeneous_wedge (homogeneous_vec (g := g) v) (homogeneous_blade (g := g) l)
    split_ifs with h
    · rw [show k + 1 = 1 + l.length by omega]; exact h1.grade_eq
    · rw [wedge_zero]; exact h1 _ (by omega)

theorem grade_zero_wedge_vec (v : Fin n → R) (x : Cl g) :
    grade g 0 (wedge g (vec g v) x) = 0 := by
  induction x using blade_induction g with
  | h0 => simp [wedge_zero]
  | hadd x y hx hy => rw [wedge_add, map_add, hx, hy, add_zero]
  | hsm c l hl =>
    rw [wedge_smul, map_smul,
      homogeneous_wedge (homogeneous_vec (g := g) v) (homogeneous_blade (g := g) l) 0 (by omega),
      smul_zero]

theorem grade_vec_mul {k : ℕ} (v : Fin n → R) {z : Cl g} (h1 : grade g (k + 1) z = 0)
    (h2 : ∀ j, k = j + 1 → grade g j z = 0) : grade g k (vec g v * z) = 0 := by
  rw [vec_mul, map_add, grade_con, h1, map_zero, zero_add]
  cases k with
  | zero => exact grade_zero_wedge_vec v z
  | succ k => rw [grade_wedge_vec, h2 k rfl, wedge_zero]

/-- A grade-`r` element times a grade-`s` element has only grades `r + s - 2 j` with `j ≤ r`. -/
theorem grade_mul_left (r : ℕ) : ∀ {x : Cl g}, Homogeneous g r x → ∀ {s : ℕ} {y : Cl g},
    Homogeneous g s y → ∀ k, (∀ j ≤ r, k + 2 * j ≠ r + s) → grade g k (x * y) = 0 := by
  induction r using Nat.strong_induction_on with
  | _ r ih =>
  intro x hx s y hy k hk
  rw [← hx.grade_eq]
  clear hx
  induction x using blade_induction g with
  | h0 => simp
  | hadd x x' hx hx' => rw [map_add, add_mul, map_add, hx, hx', add_zero]
  | hsm c l hl =>
    rw [map_smul, grade_blade, smul_mul_assoc, map_smul]
    split_ifs with h
    swap
    · simp
    cases l with
    | nil =>
      simp only [List.length_nil] at h
      rw [blade_nil, one_mul, hy k (by have := hk 0 (by omega); omega), smul_zero]
    | cons i l =>
      obtain ⟨r', rfl⟩ : ∃ r', r = r' + 1 := ⟨l.length, by simpa using h.symm⟩
      have hl' : l.length = r' := by simpa using h
      have hb : Homogeneous g r' (blade g l) := hl' ▸ homogeneous_blade l
      have h1 : blade g (i :: l) = vec g (Pi.single i 1) * blade g l -
          con g (Pi.single i 1) (blade g l) := by
        rw [vec_mul, blade_cons, e]; abel
      rw [h1, sub_mul, map_sub, mul_assoc, grade_vec_mul, zero_sub]
      · cases r' with
        | zero => rw [con_homogeneous_zero _ hb, zero_mul, map_zero, neg_zero, smul_zero]
        | succ r'' =>
          rw [ih r'' (by omega) (homogeneous_con _ hb) hy k, neg_zero, smul_zero]
          intro j hj
          have := hk (j + 1) (by omega)
          omega
      · refine ih r' (by omega) hb hy _ fun j hj => ?_
        have := hk (j + 1) (by omega)
        omega
      · intro m hm
        refine ih r' (by omega) hb hy _ fun j hj => ?_
        have := hk j (by omega)
        omega

theorem grade_reverse (k : ℕ) (x : Cl g) :
    grade g k (reverse x) = reverse (grade g k x) := by
  induction x using blade_induction g with
  | h0 => simp
  | hadd x y hx hy => rw [map_add, map_add, map_add, map_add, hx, hy]
  | hsm c l hl =>
    rw [map_smul, map_smul, map_smul, map_smul]
    congr 1
    by_cases h : l.length = k
    · subst h
      rw [(homogeneous_reverse (homogeneous_blade (g := g) l)).1.grade_eq,
        (homogeneous_blade (g := g) l).grade_eq]
    · rw [(homogeneous_reverse (homogeneous_blade (g := g) l)).1 k (Ne.symm h),
        homogeneous_blade (g := g) l k (Ne.symm h), map_zero]

/-- A grade-`r` element times a grade-`s` element has only the grades
`|r-s|, |r-s|+2, ..., r+s`. -/
theorem grade_mul_homogeneous {r s : ℕ} {x y : Cl g} (hx : Homogeneous g r x)
    (hy : Homogeneous g s y) {k : ℕ} (hk : ∀ j, j ≤ r → j ≤ s → k + 2 * j ≠ r + s) :
    grade g k (x * y) = 0 := by
  by_cases h : ∀ j ≤ r, k + 2 * j ≠ r + s
  · exact grade_mul_left r hx hy k h
  · push Not at h
    obtain ⟨j, hj, hj'⟩ := h
    have h2 : grade g k (reverse y * reverse x) = 0 := by
      refine grade_mul_left s (homogeneous_reverse hy).1 (homogeneous_reverse hx).1 k fun i hi hi' => ?_
      have : i = j := by omega
      subst this
      exact hk i hj hi hj'
    rw [← reverse.map_mul, grade_reverse] at h2
    rw [← reverse_reverse (Q := Q g) (grade g k (x * y)), h2, map_zero]

theorem grade_zero_mul_of_ne {r s : ℕ} {x y : Cl g} (hx : Homogeneous g r x)
    (hy : Homogeneous g s y) (h : r ≠ s) : grade g 0 (x * y) = 0 :=
  grade_mul_homogeneous hx hy fun j h1 h2 h3 => by omega

/-- The scalar part of a product is symmetric. -/
theorem grade_zero_mul_comm (x y : Cl g) : grade g 0 (x * y) = grade g 0 (y * x) := by
  classical
  have key : ∀ r s, ∀ x y : Cl g, Homogeneous g r x → Homogeneous g s y →
      grade g 0 (x * y) = grade g 0 (y * x) := by
    intro r s x y hx hy
    by_cases h : r = s
    · subst h
      have h1 : reverse (grade g 0 (x * y)) = grade g 0 (x * y) := by
        rw [(homogeneous_reverse (homogeneous_grade 0 (x * y))).2]; simp
      rw [← grade_reverse, reverse.map_mul, (homogeneous_reverse hx).2, (homogeneous_reverse hy).2,
        smul_mul_smul_comm, ← mul_pow, neg_one_mul, neg_neg, one_pow, one_smul] at h1
      exact h1.symm
    · rw [grade_zero_mul_of_ne hx hy h, grade_zero_mul_of_ne hy hx (Ne.symm h)]
  have h2 : ∀ r, ∀ x y : Cl g, Homogeneous g r x → grade g 0 (x * y) = grade g 0 (y * x) := by
    intro r x y hx
    rw [← sum_grade g y, Finset.mul_sum, Finset.sum_mul, map_sum, map_sum]
    exact Finset.sum_congr rfl fun s _ => key r s x _ hx (homogeneous_grade s y)
  rw [← sum_grade g x, Finset.mul_sum, Finset.sum_mul, map_sum, map_sum]
  exact Finset.sum_congr rfl fun s _ => h2 s _ y (homogeneous_grade s x)

/-- `⟨(w_1 ∧ ... ∧ w_k) y⟩_0 = w_1 ⌋ (... (w_k ⌋ y))` for `y` of grade `k`. -/
theorem grade_zero_wedgeL_mul (L : List (Fin n → R)) {y : Cl g} (hy : Homogeneous g L.length y) :
    grade g 0 (wedgeL g L * y) = conL g L y := by
  induction L using List.reverseRecOn generalizing y with
  | nil => rw [wedgeL_nil, one_mul, conL_nil]; exact hy.grade_eq
  | append_singleton L v ih =>
    rw [List.length_append, List.length_singleton] at hy
    have hL := homogeneous_wedgeL (g := g) L
    have h1 : wedgeL g (L ++ [v]) = (-1 : R) ^ L.length • wedge g (vec g v) (wedgeL g L) := by
      rw [wedgeL_append, wedgeL_cons, wedgeL_nil, wedge_one, wedge_comm hL (homogeneous_vec v),
        mul_one]
    -- `x ∧ v = x v - (x ⌊ v)`
    have h2 : wedge g (vec g v) (wedgeL g L) = (-1 : R) ^ L.length • (wedgeL g L * vec g v) +
        con g v (wedgeL g L) := by
      have h3 := vec_mul (g := g) v (wedgeL g L)
      have h4 : reverse (wedgeL g L * vec g v) = vec g v * reverse (wedgeL g L) := by
        rw [reverse.map_mul, vec, reverse_ι]
      have e1 := (homogeneous_reverse hL).2
      rw [e1, mul_smul_comm, h3, smul_add] at h4
      have hc : reverse (con g v (wedgeL g L)) =
          (-1 : R) ^ ((L.length - 1) * (L.length - 1 - 1) / 2) • con g v (wedgeL g L) := by
        rcases Nat.eq_zero_or_pos L.length with h0 | h0
        · rw [h0] at hL; rw [con_homogeneous_zero v hL]; simp
        · refine (homogeneous_reverse (homogeneous_con v ?_)).2
          rwa [Nat.sub_add_cancel h0]
      have hw : reverse (wedge g (vec g v) (wedgeL g L)) =
          (-1 : R) ^ ((L.length + 1) * (L.length + 1 - 1) / 2) • wedge g (vec g v) (wedgeL g L) := by
        have := homogeneous_wedge (homogeneous_vec v) hL
        rw [Nat.add_comm] at this
        exact (homogeneous_reverse this).2
      have h5 := congrArg (CliffordAlgebra.reverse (Q := Q g)) h4
      rw [reverse_reverse, map_add, map_smul, map_smul, hc, hw, smul_smul, smul_smul, ← pow_add,
        ← pow_add] at h5
      rw [h5, smul_add, smul_smul, smul_smul, ← pow_add, ← pow_add]
      generalize hm : L.length = m at *
      have p1 : (-1 : R) ^ (m + (m * (m - 1) / 2 + (m + 1) * (m + 1 - 1) / 2)) = 1 := by
        refine Even.neg_one_pow ?_
        have q1 : (m + 1) * (m + 1 - 1) / 2 = m * (m - 1) / 2 + m := by
          cases m with
          | zero => rfl
          | succ k =>
            simp only [Nat.add_sub_cancel]
            have : (k + 1 + 1) * (k + 1) = (k + 1) * k + (k + 1) * 2 := by ring
            rw [this, Nat.add_mul_div_right _ _ (by norm_num)]
        rw [q1]; exact ⟨m + m * (m - 1) / 2, by ring⟩
      rw [p1, one_smul]
      rcases Nat.eq_zero_or_pos m with h0 | h0
      · subst h0; rw [con_homogeneous_zero v hL]; simp
      · have p2 : (-1 : R) ^ (m + (m * (m - 1) / 2 + (m - 1) * (m - 1 - 1) / 2)) = -1 := by
          refine Odd.neg_one_pow ?_
          obtain ⟨k, rfl⟩ : ∃ k, m = k + 1 := ⟨m - 1, by omega⟩
          have q1 : (k + 1) * (k + 1 - 1) / 2 = k * (k - 1) / 2 + k := by
            cases k with
            | zero => rfl
            | succ k =>
              simp only [Nat.add_sub_cancel]
              have : (k + 1 + 1) * (k + 1) = (k + 1) * k + (k + 1) * 2 := by ring
              rw [this, Nat.add_mul_div_right _ _ (by norm_num)]
          rw [q1, Nat.add_sub_cancel]; exact ⟨k + k * (k - 1) / 2, by ring⟩
        rw [p2]; module
    have hz : grade g 0 (con g v (wedgeL g L) * y) = 0 := by
      rcases Nat.eq_zero_or_pos L.length with h0 | h0
      · rw [h0] at hL; rw [con_homogeneous_zero v hL]; simp
      · have : Homogeneous g (L.length - 1) (con g v (wedgeL g L)) :=
          homogeneous_con v (by rwa [Nat.sub_add_cancel h0])
        exact grade_zero_mul_of_ne this hy (by omega)
    rw [h1, h2, smul_add, smul_smul, ← mul_pow, neg_one_mul, neg_neg, one_pow, one_smul, add_mul,
      map_add, smul_mul_assoc, map_smul, hz, smul_zero, add_zero, mul_assoc, vec_mul, mul_add,
      map_add, grade_zero_mul_of_ne hL (homogeneous_wedge (homogeneous_vec v) hy) (by omega), add_zero,
      ih (homogeneous_con v hy), conL_append, conL_cons, conL_nil]

end Spec
