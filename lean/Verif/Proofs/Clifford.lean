import Verif.Spec.Clifford
import Mathlib.Tactic.Ring
import Mathlib.Tactic.Abel
import Mathlib.Tactic.Module
import Mathlib.Tactic.NoncommRing
import Mathlib.Algebra.Algebra.Basic
import Mathlib.Data.Finset.Sort

/-! Facts about the Clifford algebra of a metric tensor used by the refinement proofs. -/

open CliffordAlgebra

namespace Spec

variable {R : Type*} [CommRing R] {n : ℕ} (g : Matrix (Fin n) (Fin n) R)

theorem polar_Q (v w : Fin n → R) :
    QuadraticMap.polar (Q g) v w = ∑ i, ∑ j, (g i j + g j i) * v i * w j := by
  simp only [Q, LinearMap.BilinMap.polar_toQuadraticMap, Matrix.toBilin'_apply]
  rw [Finset.sum_comm (f := fun i j => w i * g i j * v j), ← Finset.sum_add_distrib]
  refine Finset.sum_congr rfl fun i _ => ?_
  rw [← Finset.sum_add_distrib]
  exact Finset.sum_congr rfl fun j _ => by ring

theorem polar_single (i j : Fin n) :
    QuadraticMap.polar (Q g) (Pi.single i 1) (Pi.single j 1) = g i j + g j i := by
  simp [Q, LinearMap.BilinMap.polar_toQuadraticMap]

theorem Q_single (i : Fin n) : Q g (Pi.single i 1) = g i i := by
  simp [Q, LinearMap.BilinMap.toQuadraticMap_apply]

theorem e_sq (i : Fin n) : e g i * e g i = algebraMap R _ (g i i) := by
  rw [e, vec, ι_sq_scalar, Q_single]

theorem e_mul_e_add_swap (i j : Fin n) :
    e g i * e g j + e g j * e g i = algebraMap R _ (g i j + g j i) := by
  rw [e, e, vec, vec, ι_mul_ι_add_swap, polar_single]

theorem e_anticomm_of_ortho (hg : ∀ i j, i ≠ j → g i j = 0) {i j : Fin n} (h : i ≠ j) :
    e g i * e g j = -(e g j * e g i) := by
  have := e_mul_e_add_swap g i j
  rw [hg i j h, hg j i h.symm, add_zero, map_zero] at this
  exact eq_neg_of_add_eq_zero_left this

theorem vec_eq_sum (v : Fin n → R) : vec g v = ∑ i, v i • e g i := by
  simp only [e, vec]
  conv_lhs => rw [← Finset.univ_sum_single v, map_sum]
  refine Finset.sum_congr rfl fun i _ => ?_
  rw [← map_smul, ← Pi.single_smul', smul_eq_mul, mul_one]

@[simp] theorem base_nil : base g [] = 1 := rfl
@[simp] theorem base_cons (i : Fin n) (l) : base g (i :: l) = e g i * base g l := by
  simp [base]
theorem base_append (l m : List (Fin n)) : base g (l ++ m) = base g l * base g m := by
  simp [base]

@[simp] theorem extBlade_nil : extBlade R ([] : List (Fin n)) = 1 := rfl
@[simp] theorem extBlade_cons (i : Fin n) (l) :
    extBlade R (i :: l) = ExteriorAlgebra.ι R (Pi.single i 1) * extBlade R l := by
  simp [extBlade]
theorem extBlade_append (l m : List (Fin n)) :
    extBlade R (l ++ m) = extBlade R l * extBlade R m := by
  simp [extBlade]

theorem ext_anticomm (v w : Fin n → R) :
    ExteriorAlgebra.ι R v * ExteriorAlgebra.ι R w = -(ExteriorAlgebra.ι R w * ExteriorAlgebra.ι R v) :=
  eq_neg_of_add_eq_zero_left (ExteriorAlgebra.ι_add_mul_swap v w)

theorem extBlade_swap (l : List (Fin n)) (i j : Fin n) (m : List (Fin n)) :
    extBlade R (l ++ i :: j :: m) = -extBlade R (l ++ j :: i :: m) := by
  simp only [extBlade_append, extBlade_cons, ← mul_assoc]
  rw [mul_assoc (extBlade R l), ext_anticomm]
  simp [mul_assoc]

theorem extBlade_dup (l : List (Fin n)) (i : Fin n) (m : List (Fin n)) :
    extBlade R (l ++ i :: i :: m) = 0 := by
  simp only [extBlade_append, extBlade_cons, ← mul_assoc]
  rw [mul_assoc (extBlade R l), ExteriorAlgebra.ι_sq_zero]
  simp

section half
variable [Invertible (2 : R)]

/-- contraction of `x` by the vector `v` (`v ⌋ x`). -/
noncomputable def con (v : Fin n → R) : Cl g →ₗ[R] Cl g :=
  contractLeft (Q := Q g) (QuadraticMap.associated (R := R) (Q g) v)

theorem toExt_apply (x : Cl g) :
    toExt g x = changeForm (changeForm.associated_neg_proof (Q := Q g)) x := rfl

@[simp] theorem toExt_one : toExt g 1 = 1 := by rw [toExt_apply, changeForm_one]

theorem toExt_algebraMap (r : R) : toExt g (algebraMap R _ r) = algebraMap R _ r := by
  rw [toExt_apply, changeForm_algebraMap]

theorem toExt_vec (v) : toExt g (vec g v) = ExteriorAlgebra.ι R v := by
  rw [toExt_apply, vec, changeForm_ι]

@[simp] theorem toExt_symm_one : (toExt g).symm 1 = 1 := by
  rw [LinearEquiv.symm_apply_eq, toExt_one]

theorem toExt_symm_ι (v) : (toExt g).symm (ExteriorAlgebra.ι R v) = vec g v := by
  rw [LinearEquiv.symm_apply_eq, toExt_vec]

theorem toExt_con (v : Fin n → R) (x : Cl g) :
    toExt g (con g v x) =
      contractLeft (Q := (0 : QuadraticForm R (Fin n → R)))
        (QuadraticMap.associated (R := R) (Q g) v) (toExt g x) := by
  rw [toExt_apply, toExt_apply, con, changeForm_contractLeft]

theorem toExt_vec_mul (v : Fin n → R) (x : Cl g) :
    toExt g (vec g v * x) = ExteriorAlgebra.ι R v * toExt g x + toExt g (con g v x) := by
  rw [toExt_con, toExt_apply, toExt_apply]
  have hneg : QuadraticMap.associated (R := R) (-Q g) v =
      -QuadraticMap.associated (R := R) (Q g) v := by rw [map_neg]; rfl
  rw [vec, changeForm_ι_mul, hneg]
  generalize changeForm (changeForm.associated_neg_proof (Q := Q g)) x = y
  rw [map_neg, LinearMap.neg_apply, sub_neg_eq_add]

theorem con_vec_mul (v w : Fin n → R) (x : Cl g) :
    con g v (vec g w * x) = QuadraticMap.associated (R := R) (Q g) v w • x - vec g w * con g v x := by
  rw [con, vec, contractLeft_ι_mul]

@[simp] theorem con_one (v : Fin n → R) : con g v 1 = 0 := contractLeft_one _ _

@[simp] theorem con_algebraMap (v : Fin n → R) (r : R) : con g v (algebraMap R _ r) = 0 :=
  contractLeft_algebraMap _ _ _

theorem two_smul_associated (v w : Fin n → R) :
    (2 : R) * QuadraticMap.associated (R := R) (Q g) v w = QuadraticMap.polar (Q g) v w := by
  have := QuadraticMap.two_nsmul_associated (S := R) (Q g)
  have h := congrArg (fun B => B v w) this
  rw [two_mul]
  simpa [two_smul, QuadraticMap.polarBilin_apply_apply] using h

theorem associated_single (hs : ∀ i j, g i j = g j i) (i j : Fin n) :
    QuadraticMap.associated (R := R) (Q g) (Pi.single i 1) (Pi.single j 1) = g i j := by
  have h := two_smul_associated g (Pi.single i 1) (Pi.single j 1)
  rw [polar_single, hs j i, ← two_mul] at h
  exact (isUnit_of_invertible (2 : R)).mul_left_cancel h

/-- `v x - x̂ v = 2 (v ⌋ x)` -/
theorem two_smul_con (v : Fin n → R) (x : Cl g) :
    (2 : R) • con g v x = vec g v * x - involute x * vec g v := by
  induction x using CliffordAlgebra.left_induction with
  | algebraMap r => simp [Algebra.commutes]
  | add x y hx hy => rw [map_add, smul_add, hx, hy, map_add]; noncomm_ring
  | ι_mul x w hx =>
    have h1 : con g v (ι (Q g) w * x) = _ := con_vec_mul g v w x
    have h2 : vec g v * ι (Q g) w + ι (Q g) w * vec g v = algebraMap R _ _ :=
      ι_mul_ι_add_swap v w
    rw [h1, smul_sub, smul_smul, two_smul_associated, Algebra.smul_def, ← h2,
      ← mul_smul_comm, hx, map_mul, involute_ι]
    simp only [vec]
    noncomm_ring

theorem wedge_vec (v : Fin n → R) (x : Cl g) : wedge g (vec g v) x = vec g v * x - con g v x := by
  rw [wedge, LinearEquiv.symm_apply_eq, map_sub, toExt_vec_mul, toExt_vec, add_sub_cancel_right]

/-- `2 (v ∧ x) = v x + x̂ v` -/
theorem two_smul_wedge_vec (v : Fin n → R) (x : Cl g) :
    (2 : R) • wedge g (vec g v) x = vec g v * x + involute x * vec g v := by
  rw [wedge_vec, smul_sub, two_smul_con, two_smul]; abel

@[simp] theorem blade_nil : blade g [] = 1 := by simp [blade]

theorem blade_singleton (i : Fin n) : blade g [i] = e g i := by
  simp [blade, extBlade, toExt_symm_ι, e]

theorem toExt_blade (l : List (Fin n)) : toExt g (blade g l) = extBlade R l := by
  simp [blade]

theorem blade_cons (i : Fin n) (l : List (Fin n)) :
    blade g (i :: l) = wedge g (e g i) (blade g l) := by
  rw [wedge, e, toExt_vec, toExt_blade, ← extBlade_cons, blade]

theorem wedge_blade (l m : List (Fin n)) :
    wedge g (blade g l) (blade g m) = blade g (l ++ m) := by
  rw [wedge, toExt_blade, toExt_blade, ← extBlade_append, blade]

theorem two_cancel {M : Type*} [AddCommGroup M] [Module R M] {x y : M}
    (h : (2 : R) • x = (2 : R) • y) : x = y :=
  (isUnit_of_invertible (2 : R)).smul_left_cancel.mp h

theorem involute_blade (l : List (Fin n)) :
    involute (blade g l) = (-1 : R) ^ l.length • blade g l := by
  induction l with
  | nil => simp
  | cons i l ih =>
    apply two_cancel (R := R)
    rw [← map_smul, smul_comm, blade_cons, e, two_smul_wedge_vec, map_add, map_mul, map_mul,
      ih, map_smul, ih]
    simp only [vec, involute_ι, List.length_cons, pow_succ]
    simp only [mul_neg, mul_one, neg_smul, neg_mul, smul_add, smul_neg, smul_smul, smul_mul_assoc,
      mul_smul_comm]

/-- `2 e_i ∧ B = e_i B + (-1)^r B e_i` for a blade `B` of grade `r`. -/
theorem two_smul_blade_cons (i : Fin n) (l : List (Fin n)) :
    (2 : R) • blade g (i :: l) =
      e g i * blade g l + (-1 : R) ^ l.length • (blade g l * e g i) := by
  rw [blade_cons, e, two_smul_wedge_vec, involute_blade, smul_mul_assoc]

theorem reverse_blade (l : List (Fin n)) :
    reverse (blade g l) = (-1 : R) ^ (l.length * (l.length - 1) / 2) • blade g l := by
  induction l with
  | nil => simp
  | cons i l ih =>
    apply two_cancel (R := R)
    rw [← map_smul, smul_comm, two_smul_blade_cons, map_add, map_smul, reverse.map_mul,
      reverse.map_mul, ih]
    have : reverse (e g i) = e g i := reverse_ι _
    rw [this]
    have h : ((l.length + 1) * (l.length + 1 - 1) / 2) = l.length * (l.length - 1) / 2 + l.length := by
      rcases Nat.eq_zero_or_pos l.length with h0 | h0
      · simp [h0]
      · obtain ⟨k, hk⟩ : ∃ k, l.length = k + 1 := ⟨l.length - 1, by omega⟩
        rw [hk]
        have e1 : (k + 1 + 1) * (k + 1 + 1 - 1) = (k + 1) * (k + 1 - 1) + (k + 1) * 2 := by
          simp; ring
        rw [e1, Nat.add_mul_div_right _ _ (by norm_num)]
    rw [List.length_cons, h, pow_add]
    simp only [smul_add, smul_smul, smul_mul_assoc, mul_smul_comm]
    rw [add_comm, mul_assoc, ← mul_pow]
    simp [mul_comm]

theorem con_e_base_ortho (hg : ∀ i j, i ≠ j → g i j = 0) (i : Fin n) (l : List (Fin n))
    (h : i ∉ l) : con g (Pi.single i 1) (base g l) = 0 := by
  have hs : ∀ i j, g i j = g j i := fun i j => by
    by_cases hij : i = j
    · rw [hij]
    · rw [hg i j hij, hg j i (Ne.symm hij)]
  induction l with
  | nil => simp
  | cons j l ih =>
    simp only [List.mem_cons, not_or] at h
    rw [base_cons, e, con_vec_mul, associated_single g hs, hg i j h.1, ih h.2]
    simp

/-- For an orthogonal metric the blade of distinct basis vectors is their geometric product. -/
theorem blade_eq_base_of_ortho (hg : ∀ i j, i ≠ j → g i j = 0) (l : List (Fin n))
    (h : l.Nodup) : blade g l = base g l := by
  induction l with
  | nil => simp
  | cons i l ih =>
    rw [List.nodup_cons] at h
    rw [blade_cons, e, wedge_vec, base_cons, ih h.2, con_e_base_ortho g hg i l h.1, sub_zero, e]

omit [Invertible (2 : R)] in
theorem extBlade_mem (l : List (Fin n)) : extBlade R l ∈ ⋀[R]^l.length (Fin n → R) := by
  induction l with
  | nil => exact SetLike.GradedOne.one_mem (A := fun i : ℕ => ⋀[R]^i (Fin n → R))
  | cons i l ih =>
    rw [extBlade_cons, List.length_cons, add_comm]
    refine SetLike.GradedMul.mul_mem (A := fun i : ℕ => ⋀[R]^i (Fin n → R)) ?_ ih
    simp

theorem grade_blade (r : ℕ) (l : List (Fin n)) :
    grade g r (blade g l) = if l.length = r then blade g l else 0 := by
  simp only [grade, LinearMap.comp_apply, LinearEquiv.coe_coe, toExt_blade]
  split_ifs with h
  · subst h
    rw [GradedAlgebra.proj_apply, DirectSum.decompose_of_mem_same (fun i : ℕ => ⋀[R]^i (Fin n → R)) (extBlade_mem l), blade]
  · rw [GradedAlgebra.proj_apply, DirectSum.decompose_of_mem_ne (fun i : ℕ => ⋀[R]^i (Fin n → R)) (extBlade_mem l) h, map_zero]

omit [Invertible (2 : R)] in
theorem extBasis_apply (s : Finset (Fin n)) :
    (Pi.basisFun R (Fin n)).ExteriorAlgebra s = extBlade R (s.sort (· ≤ ·)) := by
  rw [ExteriorAlgebra.basis_apply_ofCard (Pi.basisFun R (Fin n)) (n := s.card) rfl]
  simp only [ExteriorAlgebra.ιMulti_family, ExteriorAlgebra.ιMulti_apply, extBlade]
  congr 1
  apply List.ext_getElem
  · simp
  · intro i h1 h2
    simp [Set.powersetCard.ofFinEmbEquiv_symm_apply, Finset.orderEmbOfFin_apply]

end half
end Spec
