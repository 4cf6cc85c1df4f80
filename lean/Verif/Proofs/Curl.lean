import Verif.Proofs.Grad
import Verif.Proofs.Hitzer

/-! The exterior derivative `x ↦ ∑ u_j ∧ ∇_j x`, and the derivative of the reverse. -/

set_option linter.unusedSectionVars false

namespace Spec
open CliffordAlgebra
variable {n : ℕ} {K : Type*} [Field K] [DecidableEq K] [Invertible (2 : K)]
  {g : Matrix (Fin n) (Fin n) K}

theorem deriv_reverse (D : Derivation ℤ K K) (Γ : Matrix (Fin n) (Fin n) K) (x : Cl g) :
    deriv g D Γ (reverse x) = reverse (deriv g D Γ x) := by
  rw [← GA.sum_grade (g := g) (deriv g D Γ (reverse x)), ← GA.sum_grade (g := g) (reverse (deriv g D Γ x))]
  refine Finset.sum_congr rfl fun k _ => ?_
  rw [grade_reverse', ← deriv_grade, ← deriv_grade, grade_reverse', deriv_smul]
  have : D ((-1 : K) ^ (k * (k - 1) / 2)) = 0 := by
    rw [Derivation.leibniz_pow]; simp
  rw [this, zero_smul, zero_add]

/-- The exterior derivative. -/
noncomputable def dS (g : Matrix (Fin n) (Fin n) K) (D : Fin n → Derivation ℤ K K)
    (Γ : Fin n → Matrix (Fin n) (Fin n) K) (u : Fin n → Fin n → K) (x : Cl g) : Cl g :=
  ∑ j, wedge g (vec g (u j)) (deriv g (D j) (Γ j) x)

section
variable {D : Fin n → Derivation ℤ K K} {Γ : Fin n → Matrix (Fin n) (Fin n) K} {u : Fin n → Fin n → K}

theorem dS_add (x y : Cl g) : dS g D Γ u (x + y) = dS g D Γ u x + dS g D Γ u y := by
  simp only [dS, deriv_add, wedge_add, Finset.sum_add_distrib]

theorem dS_zero : dS g D Γ u 0 = 0 := by
  simp only [dS, deriv_zero, wedge_zero, Finset.sum_const_zero]

theorem dS_sum {ι : Type*} (s : Finset ι) (f : ι → Cl g) :
    dS g D Γ u (∑ i ∈ s, f i) = ∑ i ∈ s, dS g D Γ u (f i) := by
  classical
  induction s using Finset.induction_on with
  | empty => simp [dS_zero]
  | insert i s hi ih => rw [Finset.sum_insert hi, Finset.sum_insert hi, dS_add, ih]

theorem dS_neg (x : Cl g) : dS g D Γ u (-x) = - dS g D Γ u x := by
  have := dS_add (g := g) (D := D) (Γ := Γ) (u := u) x (-x)
  rw [add_neg_cancel, dS_zero] at this
  exact (neg_eq_of_add_eq_zero_right this.symm).symm

theorem dS_smul (c : K) (x : Cl g) : dS g D Γ u (c • x) =
    (∑ j, D j c • wedge g (vec g (u j)) x) + c • dS g D Γ u x := by
  simp only [dS, deriv_smul, wedge_add, wedge_smul, Finset.sum_add_distrib, Finset.smul_sum]

/-- A symmetric combination of outer products vanishes. -/
theorem sum_symm_wedge {c : Fin n → Fin n → K} (hc : ∀ j k, c j k = c k j) (x : Cl g) :
    ∑ j, ∑ k, c j k • wedge g (vec g (u j)) (wedge g (vec g (u k)) x) = 0 := by
  apply eq_zero_of_eq_neg
  conv_lhs => rw [Finset.sum_comm]
  rw [← Finset.sum_neg_distrib]
  refine Finset.sum_congr rfl fun j _ => ?_
  rw [← Finset.sum_neg_distrib]
  refine Finset.sum_congr rfl fun k _ => ?_
  rw [hc k j, wedge_vec_swap, smul_neg]

theorem dS_wedge_vec (v : Fin n → K) (x : Cl g) : dS g D Γ u (wedge g (vec g v) x) =
    wedge g (dS g D Γ u (vec g v)) x - wedge g (vec g v) (dS g D Γ u x) := by
  simp only [dS, deriv_wedge, wedge_add, Finset.sum_add_distrib, sum_wedge, wedge_sum, wedge_assoc]
  rw [sub_eq_add_neg, ← Finset.sum_neg_distrib]
  congr 1
  exact Finset.sum_congr rfl fun j _ => wedge_vec_swap _ _ _

/-- Hypotheses on the vectors `u`: they are reciprocal to the tangent vectors, the connection is metric
and without torsion. -/
structure Recip (g : Matrix (Fin n) (Fin n) K) (D : Fin n → Derivation ℤ K K)
    (Γ : Fin n → Matrix (Fin n) (Fin n) K) (s : Fin n → K) (u : Fin n → Fin n → K) : Prop where
  symm : g.IsSymm
  ne : ∀ i, s i ≠ 0
  recip : ∀ i j, ip g (Pi.single i 1) (u j) = if i = j then (s j)⁻¹ else 0
  compat : ∀ i, Compatible g (D i) (Γ i)
  torsion : ∀ i j, dvec (D i) (Γ i) (Pi.single j (s j)) = dvec (D j) (Γ j) (Pi.single i (s i))

variable {s : Fin n → K} (h : Recip g D Γ s u)
include h

theorem Recip.expand (v : Fin n → K) :
    v = ∑ k, (s k * ip g (Pi.single k 1) v) • u k := GA.vec_eq_sum h.symm h.ne h.recip v

theorem Recip.single (i : Fin n) (v : Fin n → K) :
    s i * ip g (Pi.single i 1) v = ip g (Pi.single i (s i)) v := by
  rw [show (Pi.single i (s i) : Fin n → K) = s i • Pi.single i 1 by
    rw [← Pi.single_smul, smul_eq_mul, mul_one], ip, ip, map_smul]; rfl

theorem Recip.curl (i : Fin n) : dS g D Γ u (vec g (u i)) = 0 := by
  have e : ∀ j, deriv g (D j) (Γ j) (vec g (u i)) =
      ∑ k, (s k * ip g (Pi.single k 1) (dvec (D j) (Γ j) (u i))) • wedge g (vec g (u k)) 1 := by
    intro j
    rw [deriv_vec]
    conv_lhs => rw [h.expand (dvec (D j) (Γ j) (u i))]
    rw [vec, map_sum]
    refine Finset.sum_congr rfl fun k _ => ?_
    rw [wedge_one, ← vec, ← vec_smul]
  rw [dS]
  simp only [e, wedge_sum, wedge_smul]
  refine sum_symm_wedge (c := fun j k => s k * ip g (Pi.single k 1) (dvec (D j) (Γ j) (u i)))
    (fun j k => ?_) 1
  have key : ∀ j k, s k * ip g (Pi.single k 1) (dvec (D j) (Γ j) (u i)) =
      - ip g (dvec (D j) (Γ j) (Pi.single k (s k))) (u i) := by
    intro j k
    rw [h.single]
    have h1 := ip_deriv h.symm (h.compat j) (Pi.single k (s k)) (u i)
    have h2 : D j (ip g (Pi.single k (s k)) (u i)) = 0 := by
      rw [← h.single, h.recip]
      split_ifs with hki
      · rw [hki, mul_inv_cancel₀ (h.ne i), Derivation.map_one_eq_zero]
      · rw [mul_zero, map_zero]
    rw [h2] at h1
    exact (neg_eq_of_add_eq_zero_right h1.symm).symm
  rw [key, key, h.torsion]

theorem Recip.dS_wedge (i : Fin n) (x : Cl g) :
    dS g D Γ u (wedge g (vec g (u i)) x) = - wedge g (vec g (u i)) (dS g D Γ u x) := by
  rw [dS_wedge_vec, h.curl, zero_wedge, zero_sub]

/-- The exterior derivative of an exterior derivative vanishes. -/
theorem Recip.dS_dS (hD : ∀ i j f, D i (D j f) = D j (D i f)) (x : Cl g) :
    dS g D Γ u (dS g D Γ u x) = 0 := by
  have hadd : ∀ x y : Cl g, dS g D Γ u (dS g D Γ u x) = 0 → dS g D Γ u (dS g D Γ u y) = 0 →
      dS g D Γ u (dS g D Γ u (x + y)) = 0 := by
    intro x y hx hy
    rw [dS_add, dS_add, hx, hy, add_zero]
  have hsm : ∀ (c : K) (x : Cl g), dS g D Γ u (dS g D Γ u x) = 0 →
      dS g D Γ u (dS g D Γ u (c • x)) = 0 := by
    intro c x hx
    rw [dS_smul, dS_add, dS_smul, hx, smul_zero, add_zero, dS_sum]
    simp only [dS_smul, h.dS_wedge, smul_neg, Finset.sum_add_distrib, Finset.sum_neg_distrib,
      neg_add_cancel_right]
    rw [Finset.sum_comm]
    exact sum_symm_wedge (c := fun j k => D j (D k c)) (fun j k => hD j k c) x
  have hw : ∀ (v : Fin n → K) (x : Cl g), dS g D Γ u (dS g D Γ u x) = 0 →
      dS g D Γ u (dS g D Γ u (wedge g (vec g v) x)) = 0 := by
    intro v x hx
    rw [h.expand v, vec, map_sum, sum_wedge, dS_sum, dS_sum]
    refine Finset.sum_eq_zero fun k _ => ?_
    rw [map_smul, smul_wedge]
    refine hsm _ _ ?_
    change dS g D Γ u (dS g D Γ u (wedge g (vec g (u k)) x)) = 0
    rw [h.dS_wedge, dS_neg, h.dS_wedge, hx, wedge_zero, neg_zero, neg_zero]
  induction x using blade_induction g with
  | h0 => rw [dS_zero, dS_zero]
  | hadd a b ha hb => exact hadd a b ha hb
  | hsm c l hl =>
    refine hsm c _ ?_
    clear hl
    induction l with
    | nil =>
      rw [blade_nil]
      have : dS g D Γ u (1 : Cl g) = 0 := by
        simp only [dS, deriv_one, wedge_zero, Finset.sum_const_zero]
      rw [this, dS_zero]
    | cons i l ih =>
      have e : blade g (i :: l) = wedge g (vec g (Pi.single i 1)) (blade g l) := by
        have := wedge_blade (g := g) [i] l
        rw [blade_singleton] at this
        exact this.symm
      rw [e]
      exact hw _ _ ih

end

end Spec
