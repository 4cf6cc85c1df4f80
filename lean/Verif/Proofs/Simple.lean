import Verif.Proofs.OrthoBasis
import Verif.Proofs.InnerLaws
import Verif.Props.C28Outer

/-! Which elements of a Clifford algebra are exterior products of vectors. -/

set_option linter.unusedSectionVars false

namespace Spec
open CliffordAlgebra

section ring
variable {n : ℕ} {R : Type*} [CommRing R] [Invertible (2 : R)] {g : Matrix (Fin n) (Fin n) R}

theorem subWedge (a b c : Cl g) : wedge g (a - b) c = wedge g a c - wedge g b c := by
  rw [sub_eq_add_neg, add_wedge, ← neg_one_smul R b, smul_wedge]; module

theorem neg_wedge (a b : Cl g) : wedge g (-a) b = -wedge g a b := by
  rw [← neg_one_smul R a, smul_wedge]; module

theorem wedgeSub (a b c : Cl g) : wedge g a (b - c) = wedge g a b - wedge g a c := by
  rw [sub_eq_add_neg, wedge_add, ← neg_one_smul R c, wedge_smul]; module

theorem wedge_neg (a b : Cl g) : wedge g a (-b) = -wedge g a b := by
  rw [← neg_one_smul R b, wedge_smul]; module

/-- The product rule of contraction by a linear form, for the wedge product. -/
theorem cof_wedge (d : Module.Dual R (Fin n → R)) (x y : Cl g) :
    cof g d (wedge g x y) = wedge g (cof g d x) y + wedge g (involute x) (cof g d y) := by
  induction x using wedge_induction with
  | h0 => simp [zero_wedge]
  | h1 => simp [one_wedge, zero_wedge, cof, contractLeft_one]
  | hadd x x' h h' => rw [add_wedge, map_add, h, h', map_add, map_add, add_wedge, add_wedge]; abel
  | hsmul c x h => rw [smul_wedge, map_smul, h, map_smul, map_smul, smul_wedge, smul_wedge, smul_add]
  | hv w x h =>
    rw [wedge_assoc, cof_wedge_vec, h, cof_wedge_vec, involute_wedge_vec, wedge_add, ← wedge_assoc, ← wedge_assoc,
      subWedge, neg_wedge, smul_wedge]
    abel

theorem wedge_self (v : Fin n → R) (x : Cl g) : wedge g (vec g v) (wedge g (vec g v) x) = 0 := by
  have h := wedge_vec_swap (g := g) v v x
  have : (2 : R) • wedge g (vec g v) (wedge g (vec g v) x) = 0 := by
    rw [two_smul]; nth_rewrite 1 [h]; abel
  rw [← one_smul R (wedge g _ _), ← invOf_mul_self (2 : R), mul_smul, this, smul_zero]

/-- `x - e_i ∧ (e_i* ⌋ x)`: the part of `x` without `e_i`. -/
noncomputable def without (g : Matrix (Fin n) (Fin n) R) (i : Fin n) (x : Cl g) : Cl g :=
  x - wedge g (e g i) (cof g (LinearMap.proj i) x)

theorem without_wedge_self (i : Fin n) (x : Cl g) : without g i (wedge g (e g i) x) = 0 := by
  rw [without, e, cof_wedge_vec, LinearMap.proj_apply, Pi.single_eq_same, one_smul, wedgeSub, wedge_self, sub_zero,
    sub_self]

theorem without_wedge_ne {i j : Fin n} (h : i ≠ j) (x : Cl g) :
    without g i (wedge g (e g j) x) = wedge g (e g j) (without g i x) := by
  rw [without, without, e, e, cof_wedge_vec, LinearMap.proj_apply, Pi.single_eq_of_ne h, zero_smul, zero_sub,
    wedge_neg, wedgeSub, wedge_vec_swap]
  abel

theorem without_foldr_wedge (l : List (Fin n)) (j : Fin n) (x : Cl g) :
    l.foldr (without g) (wedge g (e g j) x) = if j ∈ l then 0 else wedge g (e g j) (l.foldr (without g) x) := by
  induction l with
  | nil => simp
  | cons i l ih =>
    rw [List.foldr_cons, ih]
    by_cases hj : j ∈ l
    · rw [if_pos hj, if_pos (List.mem_cons_of_mem _ hj)]
      simp [without, wedge_zero]
    · rw [if_neg hj]
      by_cases hij : i = j
      · subst hij
        rw [without_wedge_self, if_pos List.mem_cons_self]
      · rw [without_wedge_ne hij, if_neg (by simp [hj, Ne.symm hij]), List.foldr_cons]

theorem without_add (i : Fin n) (x y : Cl g) : without g i (x + y) = without g i x + without g i y := by
  rw [without, map_add, wedge_add, without, without]; abel

theorem without_smul (i : Fin n) (c : R) (x : Cl g) : without g i (c • x) = c • without g i x := by
  rw [without, map_smul, wedge_smul, without, smul_sub]

/-- Only scalars are annihilated by all contractions. -/
theorem homogeneous_zero_of_cof {x : Cl g} (h : ∀ i : Fin n, cof g (LinearMap.proj i) x = 0) : Homogeneous g 0 x := by
  have h1 : ∀ l : List (Fin n), l.foldr (without g) x = x := fun l => by
    induction l with
    | nil => rfl
    | cons i l ih => rw [List.foldr_cons, ih, without, h, wedge_zero, sub_zero]
  have ha : ∀ (l : List (Fin n)) (x y : Cl g),
      l.foldr (without g) (x + y) = l.foldr (without g) x + l.foldr (without g) y := fun l x y => by
    induction l with
    | nil => rfl
    | cons i l ih => rw [List.foldr_cons, ih, without_add]; rfl
  have hm : ∀ (l : List (Fin n)) (c : R) (x : Cl g), l.foldr (without g) (c • x) = c • l.foldr (without g) x :=
    fun l c x => by
      induction l with
      | nil => rfl
      | cons i l ih => rw [List.foldr_cons, ih, without_smul]; rfl
  have hz : (List.finRange n).foldr (without g) 0 = 0 := by
    have := hm (List.finRange n) 0 0
    rwa [zero_smul, zero_smul] at this
  have key : ∀ x : Cl g, Homogeneous g 0 ((List.finRange n).foldr (without g) x) := fun x => by
    induction x using blade_induction g with
    | h0 => rw [hz]; exact homogeneous_zero 0
    | hadd x y hx hy => rw [ha]; exact hx.add hy
    | hsm c l hl =>
      rw [hm]
      refine Homogeneous.smul c ?_
      cases l with
      | nil =>
        rw [blade_nil]
        have : ∀ l : List (Fin n), l.foldr (without g) (1 : Cl g) = 1 := fun l => by
          induction l with
          | nil => rfl
          | cons i l ih => rw [List.foldr_cons, ih, without, cof, contractLeft_one, wedge_zero, sub_zero]
        rw [this]
        exact homogeneous_zero_iff.mpr ⟨1, (map_one _).symm⟩
      | cons j l =>
        rw [blade_cons, without_foldr_wedge, if_pos (List.mem_finRange j)]
        exact homogeneous_zero 0
  rw [← h1 (List.finRange n)]
  exact key x

theorem homogeneous_ne {r s : ℕ} {x : Cl g} (h : r ≠ s) (hr : Homogeneous g r x) (hs : Homogeneous g s x) : x = 0 := by
  rw [← hr.grade_eq]
  exact hs r h

end ring

section field
variable {n : ℕ} {K : Type*} [Field K] [Invertible (2 : K)] {g : Matrix (Fin n) (Fin n) K}

/-- A vector which divides `x` in the sense `b ∧ x = 0` is a factor of `x`. -/
theorem eq_wedge_of_wedge {b : Fin n → K} (hb : b ≠ 0) {x : Cl g} (h : wedge g (vec g b) x = 0) :
    ∃ d : Module.Dual K (Fin n → K), x = wedge g (vec g b) (cof g d x) := by
  obtain ⟨i, hi⟩ := Function.ne_iff.mp hb
  refine ⟨(b i)⁻¹ • LinearMap.proj i, ?_⟩
  have := cof_wedge_vec (g := g) ((b i)⁻¹ • LinearMap.proj i) b x
  rw [h, map_zero, LinearMap.smul_apply, LinearMap.proj_apply, smul_eq_mul, inv_mul_cancel₀ hi, one_smul] at this
  exact (sub_eq_zero.mp this.symm)

/-- A bivector with `x ∧ x = 0` is the exterior product of two vectors. -/
theorem bivector_simple {x : Cl g} (hx : Homogeneous g 2 x) (h : wedge g x x = 0) :
    ∃ u v : Fin n → K, x = wedge g (vec g u) (vec g v) := by
  by_cases h0 : ∀ i : Fin n, cof g (LinearMap.proj i) x = 0
  · rw [homogeneous_ne (by decide) hx (homogeneous_zero_of_cof h0)]
    exact ⟨0, 0, by rw [vec, map_zero, zero_wedge]⟩
  · push Not at h0
    obtain ⟨i, hi⟩ := h0
    obtain ⟨b, hb⟩ := homogeneous_one (homogeneous_cof (LinearMap.proj i) hx)
    have h1 := cof_wedge (LinearMap.proj i) x x
    rw [h, map_zero, homogeneous_involute hx, hb, neg_one_sq, one_smul, wedge_vec_right, homogeneous_involute hx, neg_one_sq,
      one_smul, ← two_smul K] at h1
    have h2 : wedge g (vec g b) x = 0 := by
      rw [← one_smul K (wedge g _ _), ← invOf_mul_self (2 : K), mul_smul, ← h1, smul_zero]
    obtain ⟨d, hd⟩ := eq_wedge_of_wedge (fun hb0 => hi (by rw [hb, hb0, vec, map_zero])) h2
    obtain ⟨c, hc⟩ := homogeneous_one (homogeneous_cof d hx)
    exact ⟨b, c, by rw [hc] at hd; exact hd⟩

theorem smul_wedgeL {L : List (Fin n → K)} (h : L ≠ []) (c : K) :
    ∃ L' : List (Fin n → K), L'.length = L.length ∧ c • wedgeL g L = wedgeL g L' := by
  cases L with
  | nil => exact absurd rfl h
  | cons v L => exact ⟨(c • v) :: L, rfl, by rw [wedgeL_cons, wedgeL_cons, vec_smul, smul_wedge]⟩

/-- Wedging with `v` does not see multiples of `v` in the other factors. -/
theorem wedge_wedgeL_shift (v : Fin n → K) (f : (Fin n → K) → K) (L : List (Fin n → K)) :
    wedge g (vec g v) (wedgeL g (L.map fun w => w - f w • v)) = wedge g (vec g v) (wedgeL g L) := by
  induction L with
  | nil => rfl
  | cons w L ih =>
    rw [List.map_cons, wedgeL_cons, wedgeL_cons, wedge_vec_swap, ih, vec, map_sub, map_smul, ← vec, ← vec, subWedge,
      smul_wedge, wedge_self, smul_zero, sub_zero, wedge_vec_swap]
    abel

theorem cof_wedgeL_zero {d : Module.Dual K (Fin n → K)} {L : List (Fin n → K)} (h : ∀ v ∈ L, d v = 0) :
    cof g d (wedgeL g L) = 0 := by
  induction L with
  | nil => rw [wedgeL_nil]; exact contractLeft_one _ _
  | cons v L ih =>
    rw [wedgeL_cons, cof_wedge_vec, h v (by simp), zero_smul, ih fun w hw => h w (by simp [hw]), wedge_zero, sub_zero]

/-- Contracting a blade by a linear form gives a blade. -/
theorem cof_wedgeL (d : Module.Dual K (Fin n → K)) (L : List (Fin n → K)) :
    ∃ (c : K) (L' : List (Fin n → K)), cof g d (wedgeL g L) = c • wedgeL g L' ∧ L'.length = L.length - 1 := by
  induction L with
  | nil => exact ⟨0, [], by rw [wedgeL_nil, zero_smul]; exact contractLeft_one _ _, rfl⟩
  | cons v L ih =>
    by_cases hv : d v = 0
    · obtain ⟨c, L', h, hl⟩ := ih
      cases L with
      | nil => exact ⟨0, [], by rw [wedgeL_cons, cof_wedge_vec, hv, wedgeL_nil, cof, contractLeft_one, wedge_zero]; simp, rfl⟩
      | cons w L =>
        refine ⟨-c, v :: L', ?_, by simp [hl]⟩
        rw [wedgeL_cons, cof_wedge_vec, hv, h, wedge_smul, wedgeL_cons v L']
        module
    · refine ⟨d v, L.map fun w => w - ((d v)⁻¹ * d w) • v, ?_, by simp⟩
      rw [wedgeL_cons, ← wedge_wedgeL_shift v (fun w => (d v)⁻¹ * d w), cof_wedge_vec, cof_wedgeL_zero, wedge_zero, sub_zero]
      intro w hw
      obtain ⟨w, -, rfl⟩ := List.mem_map.mp hw
      rw [map_sub, map_smul, smul_eq_mul]
      field_simp
      ring

/-- `x` is a multiple of an exterior product of `r` vectors. -/
def Simple (g : Matrix (Fin n) (Fin n) K) (r : ℕ) (x : Cl g) : Prop :=
  ∃ (c : K) (L : List (Fin n → K)), L.length = r ∧ x = c • wedgeL g L

theorem Simple.smul {r : ℕ} {x : Cl g} (k : K) (h : Simple g r x) : Simple g r (k • x) := by
  obtain ⟨c, L, hl, rfl⟩ := h
  exact ⟨k * c, L, hl, by rw [mul_smul]⟩

theorem Simple.wedgeL (L : List (Fin n → K)) : Simple g L.length (wedgeL g L) := ⟨1, L, rfl, (one_smul _ _).symm⟩

theorem simple_zero {x : Cl g} (hx : Homogeneous g 0 x) : Simple g 0 x := by
  obtain ⟨c, rfl⟩ := homogeneous_zero_iff.mp hx
  exact ⟨c, [], rfl, by rw [wedgeL_nil, Algebra.algebraMap_eq_smul_one]⟩

theorem simple_one {x : Cl g} (hx : Homogeneous g 1 x) : Simple g 1 x := by
  obtain ⟨c, rfl⟩ := homogeneous_one hx
  exact ⟨1, [c], rfl, by rw [wedgeL_cons, wedgeL_nil, wedge_one, one_smul]⟩

theorem simple_two {x : Cl g} (hx : Homogeneous g 2 x) (h : wedge g x x = 0) : Simple g 2 x := by
  obtain ⟨u, v, rfl⟩ := bivector_simple hx h
  exact ⟨1, [u, v], rfl, by rw [wedgeL_cons, wedgeL_cons, wedgeL_nil, wedge_one, one_smul]⟩

theorem simple_top {x : Cl g} (hx : Homogeneous g n x) : Simple g n x := by
  obtain ⟨c, rfl⟩ := homogeneous_top hx
  refine ⟨c, _, ?_, by rw [pseudo, blade_eq_wedgeL]⟩
  simp

theorem blade_ne_zero {l : List (Fin n)} (hl : l.Nodup) : blade g l ≠ 0 := by
  classical
  induction l with
  | nil => rw [blade_nil]; exact fun h => one_ne_zero (GA.algebraMap_inj g (a := (1 : K)) (b := 0) (by simp at h))
  | cons i l ih =>
    rw [List.nodup_cons] at hl
    intro h
    exact ih hl.2 (by rw [blade_eq_cof hl.1, h, map_zero])

/-- Every element of grade `n - 1` is a contraction of the pseudoscalar. -/
theorem eq_cof_pseudo {r : ℕ} (hr : r + 1 = n) {x : Cl g} (hx : Homogeneous g r x) :
    ∃ d : Module.Dual K (Fin n → K), x = cof g d (pseudo g) := by
  rw [← hx.grade_eq]
  clear hx
  induction x using blade_induction g with
  | h0 => exact ⟨0, by simp [cof]⟩
  | hadd x y hx hy =>
    obtain ⟨a, ha⟩ := hx
    obtain ⟨b, hb⟩ := hy
    exact ⟨a + b, by rw [map_add, ha, hb, cof, cof, cof, map_add]; rfl⟩
  | hsm c l hl =>
    rw [map_smul, grade_blade]
    split_ifs with h
    · have hnd : l.Nodup := hl.imp fun h => ne_of_lt h
      obtain ⟨i, hi⟩ : ∃ i : Fin n, i ∉ l := by
        by_contra hc
        push Not at hc
        have : (Finset.univ : Finset (Fin n)).card ≤ l.toFinset.card :=
          Finset.card_le_card fun i _ => List.mem_toFinset.mpr (hc i)
        rw [List.toFinset_card_of_nodup hnd, Finset.card_univ, Fintype.card_fin] at this
        omega
      have ht : Homogeneous g n (blade g (i :: l)) := by
        have := homogeneous_blade (g := g) (i :: l)
        rwa [List.length_cons, h, hr] at this
      obtain ⟨k, hk⟩ := homogeneous_top ht
      refine ⟨(c * k) • LinearMap.proj i, ?_⟩
      rw [blade_eq_cof hi, hk, map_smul, smul_smul, cof, cof, map_smul]
      rfl
    · exact ⟨0, by simp [cof]⟩

/-- Every element of grade `n - 1` is a blade. -/
theorem simple_pred {r : ℕ} (hr : r + 1 = n) {x : Cl g} (hx : Homogeneous g r x) : Simple g r x := by
  obtain ⟨d, rfl⟩ := eq_cof_pseudo hr hx
  obtain ⟨c, L, h1, h2⟩ := cof_wedgeL (g := g) d ((List.finRange n).map fun i => Pi.single i 1)
  refine ⟨c, L, ?_, ?_⟩
  · rw [h2, List.length_map, List.length_finRange]; omega
  · rw [pseudo, blade_eq_wedgeL, h1]

/-- An element of one grade which acts on vectors like a versor is a blade. -/
theorem simple_versor {r : ℕ} {x : Cl g} (hx : Homogeneous g r x) {q : K} (hq : q ≠ 0)
    (h1 : x * reverse x = algebraMap K _ q) (h1' : reverse x * x = algebraMap K _ q)
    (h2 : ∀ v, Homogeneous g 1 (involute x * vec g v * reverse x)) : Simple g r x := by
  set y : Cl g := q⁻¹ • reverse x with hy
  have hxy : x * y = 1 := by
    rw [hy, mul_smul_comm, h1, Algebra.smul_def, ← map_mul, inv_mul_cancel₀ hq, map_one]
  have hyx : y * x = 1 := by
    rw [hy, smul_mul_assoc, h1', Algebra.smul_def, ← map_mul, inv_mul_cancel₀ hq, map_one]
  have hv : ∀ a, ∃ u, leftContraction g (vec g a) x * y = vec g u ∧ wedge g (vec g u) x = 0 ∧ con g (a - u) x = 0 := by
    intro a
    obtain ⟨b, hb⟩ := homogeneous_one (h2 a)
    have e1 := mul_vec (g := g) a (involute x)
    rw [involute_involute] at e1
    have e2 : con g a x * y = vec g ((⅟2 : K) • (a - q⁻¹ • b)) := by
      have e3 : involute x * vec g a * y = q⁻¹ • vec g b := by rw [hy, mul_smul_comm, hb]
      rw [e1, sub_mul, mul_assoc, hxy, mul_one, smul_mul_assoc] at e3
      rw [vec_smul, vec, map_sub, map_smul, ← vec, ← vec, ← e3, sub_sub_cancel, smul_smul, invOf_mul_self, one_smul]
    set u := (⅟2 : K) • (a - q⁻¹ • b) with hu
    have e3 : con g a x = vec g u * x := by rw [← e2, mul_assoc, hyx, mul_one]
    rw [vec_mul] at e3
    have e4 : wedge g (vec g u) x = con g a x - con g u x := by rw [e3]; abel
    have e5 : wedge g (vec g u) x = 0 := by
      have w := homogeneous_wedge (homogeneous_vec (g := g) u) hx
      cases r with
      | zero => rw [e4, con_homogeneous_zero a hx, con_homogeneous_zero u hx, sub_zero]
      | succ k =>
        refine homogeneous_ne (r := 1 + (k + 1)) (s := k) (by omega) w ?_
        rw [e4]
        exact (homogeneous_con a hx).sub (homogeneous_con u hx)
    refine ⟨u, by rw [lc_vec, e2], e5, ?_⟩
    rw [e5, add_zero] at e3
    have : con g a x = con g (a - u) x + con g u x := by rw [← con_add_left, sub_add_cancel]
    rw [e3] at this
    exact right_eq_add.mp this
  obtain ⟨M, hM⟩ := lc_mul_outer hyx hxy hv
  obtain ⟨hrev, hrev'⟩ := homogeneous_reverse hx
  -- some basis blade has a non-zero scalar product with `x`
  obtain ⟨l, hl, hne⟩ : ∃ l : List (Fin n), l.length = r ∧ leftContraction g (blade g l) x ≠ 0 := by
    by_contra hc
    push Not at hc
    have key : ∀ z : Cl g, leftContraction g (grade g r z) x = 0 := fun z => by
      induction z using blade_induction g with
      | h0 => rw [map_zero, lc_zero_left]
      | hadd a b ha hb => rw [map_add, lc_add_left, ha, hb, add_zero]
      | hsm c l hl =>
        rw [map_smul, lc_smul_left, grade_blade]
        split_ifs with h
        · rw [hc l h, smul_zero]
        · rw [lc_zero_left, smul_zero]
    have h3 := key (reverse x)
    rw [hrev.grade_eq, lc_homogeneous hrev hx, if_pos le_rfl, Nat.sub_self, h1'] at h3
    have h4 : Homogeneous g 0 (algebraMap K (Cl g) q) := homogeneous_zero_iff.mpr ⟨q, rfl⟩
    rw [h4.grade_eq] at h3
    classical
    exact hq (GA.algebraMap_inj g (by rw [h3, map_zero]))
  have hl0 : Homogeneous g 0 (leftContraction g (blade g l) x) := by
    have hb := homogeneous_blade (g := g) l
    rw [hl] at hb
    rw [lc_homogeneous hb hx, if_pos le_rfl, Nat.sub_self]
    exact homogeneous_grade _ _
  obtain ⟨t, ht⟩ := homogeneous_zero_iff.mp hl0
  have ht0 : t ≠ 0 := fun h => hne (by rw [ht, h, map_zero])
  have h5 := hM (blade g l)
  rw [ht, ← Algebra.smul_def, blade_eq_wedgeL, outer_wedgeL] at h5
  have h6 : y = t⁻¹ • wedgeL g (((l.map fun i => Pi.single i 1)).map M.mulVec) := by
    rw [← h5, smul_smul, inv_mul_cancel₀ ht0, one_smul]
  have h7 : x = ((-1 : K) ^ (r * (r - 1) / 2) * q) • y := by
    rw [hy, hrev', smul_smul, smul_smul]
    have := GA.neg_one_pow_sq (R := K) (r * (r - 1) / 2)
    rw [show (-1 : K) ^ (r * (r - 1) / 2) * q * q⁻¹ * (-1) ^ (r * (r - 1) / 2) = 1 by
      field_simp; linear_combination this, one_smul]
  rw [h7, h6]
  refine Simple.smul _ (Simple.smul _ ?_)
  have := Simple.wedgeL (g := g) (((l.map fun i => (Pi.single i 1 : Fin n → K))).map M.mulVec)
  rwa [List.length_map, List.length_map, hl] at this

end field
end Spec
