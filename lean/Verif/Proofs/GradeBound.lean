import Verif.Proofs.GradeMul

/-! The upper bound `2n - r - s` for the grades of a product. -/

set_option linter.unusedSectionVars false

namespace Spec
open GA CliffordAlgebra
variable {n : ℕ} {R : Type*} [CommRing R] [Invertible (2 : R)]
  {g : Matrix (Fin n) (Fin n) R}

/-- Contraction by a linear form. -/
noncomputable abbrev cof (g : Matrix (Fin n) (Fin n) R) (d : Module.Dual R (Fin n → R)) :
    Cl g →ₗ[R] Cl g := contractLeft (Q := Q g) d

variable (d : Module.Dual R (Fin n → R))

theorem cof_mul (x y : Cl g) : cof g d (x * y) = cof g d x * y + involute x * cof g d y := by
  induction x using CliffordAlgebra.left_induction with
  | algebraMap r =>
    rw [← Algebra.smul_def, map_smul, contractLeft_algebraMap, zero_mul, zero_add, AlgHom.commutes,
      Algebra.smul_def]
  | add x y hx hy => rw [add_mul, map_add, hx, hy, map_add, map_add]; noncomm_ring
  | ι_mul x w hx =>
    rw [mul_assoc, contractLeft_ι_mul, hx, contractLeft_ι_mul, map_mul, involute_ι]
    rw [Algebra.smul_def, Algebra.smul_def]
    noncomm_ring

theorem toExt_cof (x : Cl g) : toExt g (cof g d x) =
    contractLeft (Q := (0 : QuadraticForm R (Fin n → R))) d (toExt g x) := by
  rw [toExt_apply, toExt_apply, changeForm_contractLeft]

theorem cof_wedge_vec (w : Fin n → R) (x : Cl g) :
    cof g d (wedge g (vec g w) x) = d w • x - wedge g (vec g w) (cof g d x) := by
  apply (toExt g).injective
  rw [toExt_cof, wedge, wedge, LinearEquiv.apply_symm_apply, map_sub, LinearEquiv.apply_symm_apply,
    toExt_vec, map_smul, toExt_cof]
  exact contractLeft_ι_mul _ _ _

theorem homogeneous_cof_blade (l : List (Fin n)) :
    (∀ k, l.length = k + 1 → Homogeneous g k (cof g d (blade g l))) ∧
    (l.length = 0 → cof g d (blade g l) = 0) := by
  induction l with
  | nil => exact ⟨fun k hk => by simp at hk, fun _ => by rw [blade_nil]; exact contractLeft_one _ _⟩
  | cons i l ih =>
    refine ⟨fun k hk => ?_, fun h => by simp at h⟩
    rw [blade_cons, e, cof_wedge_vec]
    have hk' : l.length = k := by simpa using hk
    refine Homogeneous.sub (Homogeneous.smul _ (hk' ▸ homogeneous_blade l)) ?_
    cases k with
    | zero => rw [ih.2 hk', wedge_zero]; exact homogeneous_zero _
    | succ k =>
      have := homogeneous_wedge (homogeneous_vec (g := g) (Pi.single i 1)) (ih.1 k hk')
      rwa [Nat.add_comm] at this

theorem grade_cof (k : ℕ) (x : Cl g) : grade g k (cof g d x) = cof g d (grade g (k + 1) x) := by
  induction x using blade_induction g with
  | h0 => simp
  | hadd x y hx hy => rw [map_add, map_add, hx, hy, map_add, map_add]
  | hsm c l hl =>
    rw [map_smul, map_smul, map_smul, map_smul, grade_blade]
    congr 1
    obtain ⟨h1, h2⟩ := homogeneous_cof_blade (g := g) d l
    split_ifs with h
    · rw [(h1 k h).grade_eq]
    · rw [map_zero]
      rcases Nat.eq_zero_or_pos l.length with h0 | h0
      · rw [h2 h0, map_zero]
      · exact h1 (l.length - 1) (by omega) k (by omega)

theorem homogeneous_cof {k : ℕ} {x : Cl g} (hx : Homogeneous g (k + 1) x) :
    Homogeneous g k (cof g d x) := by
  intro j hj; rw [grade_cof, hx _ (by omega), map_zero]

theorem cof_homogeneous_zero {x : Cl g} (hx : Homogeneous g 0 x) : cof g d x = 0 := by
  classical
  rw [← sum_grade g (cof g d x)]
  refine Finset.sum_eq_zero fun k _ => ?_
  rw [grade_cof, hx _ (by omega), map_zero]

theorem cof_blade_of_not_mem {i : Fin n} {l : List (Fin n)} (h : i ∉ l) :
    cof g (LinearMap.proj i) (blade g l) = 0 := by
  induction l with
  | nil => rw [blade_nil]; exact contractLeft_one _ _
  | cons j l ih =>
    rw [List.mem_cons, not_or] at h
    rw [blade_cons, e, cof_wedge_vec, ih h.2, wedge_zero, sub_zero, LinearMap.proj_apply,
      Pi.single_eq_of_ne h.1, zero_smul]

theorem blade_eq_cof {i : Fin n} {l : List (Fin n)} (h : i ∉ l) :
    blade g l = cof g (LinearMap.proj i) (blade g (i :: l)) := by
  rw [blade_cons, e, cof_wedge_vec, cof_blade_of_not_mem h, wedge_zero, sub_zero, LinearMap.proj_apply,
    Pi.single_eq_same, one_smul]

theorem homogeneous_top {x : Cl g} (hx : Homogeneous g n x) : ∃ c : R, x = c • pseudo g := by
  rw [← hx.grade_eq]
  clear hx
  induction x using blade_induction g with
  | h0 => exact ⟨0, by simp⟩
  | hadd x y hx hy =>
    obtain ⟨a, ha⟩ := hx
    obtain ⟨b, hb⟩ := hy
    exact ⟨a + b, by rw [map_add, ha, hb, add_smul]⟩
  | hsm c l hl =>
    rw [map_smul, grade_blade]
    split_ifs with h
    · refine ⟨c, ?_⟩
      have : l = List.finRange n := by
        have hnd : l.Nodup := hl.imp fun h => ne_of_lt h
        have hp : l.Perm (List.finRange n) := by
          refine List.Subperm.perm_of_length_le (List.Nodup.subperm hnd fun i _ => List.mem_finRange i) ?_
          rw [List.length_finRange, h]
        exact hp.eq_of_pairwise (fun a b _ _ h1 h2 => absurd h1 (lt_asymm h2)) hl
          (List.pairwise_lt_finRange n)
      rw [this, pseudo]
    · exact ⟨0, by simp⟩

/-- A grade-`r` element times a grade-`s` element has no grades above `2n - r - s`. -/
theorem grade_mul_bound : ∀ (m r : ℕ), n ≤ r + m → ∀ {s : ℕ} {x y : Cl g}, Homogeneous g r x →
    Homogeneous g s y → ∀ {k : ℕ}, 2 * n < k + r + s → grade g k (x * y) = 0 := by
  intro m
  induction m with
  | zero =>
    intro r hr s x y hx hy k hk
    rcases Nat.lt_or_ge n r with h | h
    · rw [← hx.grade_eq, grade_gt h, zero_mul, map_zero]
    · obtain rfl : r = n := by omega
      obtain ⟨c, rfl⟩ := homogeneous_top hx
      rcases Nat.lt_or_ge r s with h' | h'
      · rw [← hy.grade_eq, grade_gt h', mul_zero, map_zero]
      rw [smul_mul_assoc, map_smul, grade_pseudo_mul hy k (by omega), smul_zero]
  | succ m ih =>
    intro r hr s x y hx hy k hk
    rcases Nat.lt_or_ge r n with h | h
    swap
    · exact ih r (by omega) hx hy hk
    rw [← hx.grade_eq]
    clear hx
    induction x using blade_induction g with
    | h0 => simp
    | hadd x y hx hy => rw [map_add, add_mul, map_add, hx, hy, add_zero]
    | hsm c l hl =>
      rw [map_smul, grade_blade]
      split_ifs with hl'
      swap
      · simp
      obtain ⟨i, hi⟩ : ∃ i, i ∉ l := by
        by_contra hcon
        push Not at hcon
        have : (List.finRange n).length ≤ l.length :=
          (List.Nodup.subperm (List.nodup_finRange n) fun i _ => hcon i).length_le
        rw [List.length_finRange] at this
        omega
      rw [smul_mul_assoc, map_smul, blade_eq_cof hi]
      have hb : Homogeneous g (r + 1) (blade g (i :: l)) := by
        have := homogeneous_blade (g := g) (i :: l)
        rwa [List.length_cons, hl'] at this
      have e1 := cof_mul (g := g) (LinearMap.proj i) (blade g (i :: l)) y
      have e2 : cof g (LinearMap.proj i) (blade g (i :: l)) * y =
          cof g (LinearMap.proj i) (blade g (i :: l) * y) -
            involute (blade g (i :: l)) * cof g (LinearMap.proj i) y := by rw [e1]; abel
      rw [e2, map_sub, grade_cof, ih (r + 1) (by omega) hb hy (by omega), map_zero, zero_sub,
        homogeneous_involute hb, smul_mul_assoc, map_smul]
      cases s with
      | zero => rw [cof_homogeneous_zero _ hy, mul_zero, map_zero, smul_zero, neg_zero, smul_zero]
      | succ s =>
        rw [ih (r + 1) (by omega) hb (homogeneous_cof _ hy) (by omega), smul_zero, neg_zero, smul_zero]

theorem grade_mul_upper {r s k : ℕ} {x y : Cl g} (hx : Homogeneous g r x) (hy : Homogeneous g s y)
    (hk : 2 * n < k + r + s) : grade g k (x * y) = 0 :=
  grade_mul_bound n r (by omega) hx hy hk

end Spec
