import Verif.Proofs.Project
import Verif.Proofs.GradeBound

/-! Laws of the contractions, the wedge product, reversion and the pseudoscalar. -/

set_option linter.unusedSectionVars false

namespace Spec
open GA CliffordAlgebra
variable {n : ℕ} {R : Type*} [CommRing R] [Invertible (2 : R)]
  {g : Matrix (Fin n) (Fin n) R}

/-- Induction along exterior products of vectors. -/
theorem wedge_induction {P : Cl g → Prop} (h0 : P 0) (h1 : P 1) (hadd : ∀ x y, P x → P y → P (x + y))
    (hsmul : ∀ (c : R) x, P x → P (c • x)) (hv : ∀ v x, P x → P (wedge g (vec g v) x)) (x : Cl g) : P x := by
  induction x using blade_induction g with
  | h0 => exact h0
  | hadd x y hx hy => exact hadd x y hx hy
  | hsm c l hl =>
    refine hsmul c _ ?_
    clear hl
    induction l with
    | nil => rw [blade_nil]; exact h1
    | cons i l ih => rw [blade_cons]; exact hv _ _ ih

/-- `(x ∧ y) ⌋ z = x ⌋ (y ⌋ z)`. -/
theorem lc_wedge (x y z : Cl g) :
    leftContraction g (wedge g x y) z = leftContraction g x (leftContraction g y z) := by
  induction x using wedge_induction with
  | h0 => rw [zero_wedge, lc_zero_left, lc_zero_left]
  | h1 => rw [one_wedge, lc_one]
  | hadd x x' h h' => rw [add_wedge, lc_add_left, h, h', lc_add_left]
  | hsmul c x h => rw [smul_wedge, lc_smul_left, h, lc_smul_left]
  | hv v x h => rw [wedge_assoc, lc_wedge_vec, h, lc_wedge_vec]

theorem reverse_gradedProduct (f : ℕ → ℕ → Option ℕ) (x y : Cl g) :
    reverse (Q := Q g) (gradedProduct g f x y) = gradedProduct g (fun r s => f s r) (reverse y) (reverse x) := by
  rw [gradedProduct, gradedProduct, map_sum, Finset.sum_comm]
  refine Finset.sum_congr rfl fun r _ => ?_
  rw [map_sum]
  refine Finset.sum_congr rfl fun s _ => ?_
  cases f r s with
  | none => exact map_zero _
  | some t => simp only [← grade_reverse, reverse.map_mul]

theorem reverse_lc (x y : Cl g) :
    reverse (Q := Q g) (leftContraction g x y) = rightContraction g (reverse y) (reverse x) :=
  reverse_gradedProduct _ x y

theorem reverse_rc (x y : Cl g) :
    reverse (Q := Q g) (rightContraction g x y) = leftContraction g (reverse y) (reverse x) :=
  reverse_gradedProduct _ x y

theorem reverse_dot (x y : Cl g) :
    reverse (Q := Q g) (hestenesDot g x y) = hestenesDot g (reverse y) (reverse x) := by
  rw [hestenesDot, reverse_gradedProduct]
  congr 1
  funext r s
  rw [max_comm, min_comm]
  exact if_congr or_comm rfl rfl

theorem rc_eq (x y : Cl g) :
    rightContraction g x y = reverse (Q := Q g) (leftContraction g (reverse y) (reverse x)) := by
  rw [reverse_lc, reverse_reverse, reverse_reverse]

theorem reverse_inj {x y : Cl g} (h : reverse (Q := Q g) x = reverse y) : x = y := by
  rw [← reverse_reverse (Q := Q g) x, h, reverse_reverse]

/-- `x ∧ v = v ∧ x̂`. -/
theorem wedge_vec_right (v : Fin n → R) (x : Cl g) :
    wedge g x (vec g v) = wedge g (vec g v) (involute x) := by
  induction x using blade_induction g with
  | h0 => rw [zero_wedge, map_zero, wedge_zero]
  | hadd x y hx hy => rw [add_wedge, hx, hy, map_add, wedge_add]
  | hsm c l hl =>
    rw [smul_wedge, map_smul, wedge_smul, wedge_comm (homogeneous_blade l) (homogeneous_vec v), mul_one,
      homogeneous_involute (homogeneous_blade l), wedge_smul]

theorem involute_wedge_vec (v : Fin n → R) (x : Cl g) :
    involute (wedge g (vec g v) x) = -wedge g (vec g v) (involute x) := by
  have h := wedge_vec_right (g := g) v
  induction x using blade_induction g with
  | h0 => simp [wedge_zero]
  | hadd x y hx hy => rw [wedge_add, map_add, hx, hy, map_add, wedge_add]; abel
  | hsm c l hl =>
    have h1 := homogeneous_wedge (homogeneous_vec (g := g) v) (homogeneous_blade (g := g) l)
    rw [wedge_smul, map_smul, map_smul, wedge_smul, homogeneous_involute h1,
      homogeneous_involute (homogeneous_blade l), wedge_smul, pow_add, pow_one]
    module

theorem involute_con (v : Fin n → R) (x : Cl g) : involute (con g v x) = -con g v (involute x) := by
  have h1 := vec_mul (g := g) v (involute x)
  have h2 := congrArg (involute (Q := Q g)) (vec_mul (g := g) v x)
  rw [map_mul, map_add, involute_wedge_vec, vec, involute_ι, neg_mul] at h2
  rw [← vec, h1] at h2
  linear_combination (norm := module) -h2

/-- `x v = x ⌊ v + x ∧ v`, where `x ⌊ v = -(v ⌋ x̂)`. -/
theorem rc_vec (x : Cl g) (v : Fin n → R) : rightContraction g x (vec g v) = -con g v (involute x) := by
  have hr : reverse (Q := Q g) (vec g v) = vec g v := reverse_ι v
  rw [rc_eq, hr, lc_vec]
  induction x using blade_induction g with
  | h0 => simp
  | hadd x y hx hy => simp only [map_add, hx, hy]; abel
  | hsm c l hl =>
    simp only [map_smul]
    rw [← smul_neg]
    congr 1
    have hL := homogeneous_blade (g := g) l
    rw [(homogeneous_reverse hL).2, homogeneous_involute hL, map_smul, map_smul, map_smul]
    generalize l.length = r at *
    cases r with
    | zero => rw [con_homogeneous_zero v hL]; simp
    | succ r =>
      rw [(homogeneous_reverse (homogeneous_con v hL)).2, smul_smul, ← neg_smul]
      congr 1
      rw [Nat.triangle_succ, pow_add, pow_succ]
      have : ((-1 : R) ^ (r * (r - 1) / 2)) * (-1) ^ (r * (r - 1) / 2) = 1 := by
        rw [← mul_pow, neg_one_mul, neg_neg, one_pow]
      linear_combination (-1 : R) ^ r * this

theorem mul_vec' (x : Cl g) (v : Fin n → R) :
    x * vec g v = rightContraction g x (vec g v) + wedge g x (vec g v) := by
  rw [rc_vec, wedge_vec_right, mul_vec, vec_mul]
  module

/-- Reversion turns the wedge product around. -/
theorem reverse_wedge (x y : Cl g) :
    reverse (Q := Q g) (wedge g x y) = wedge g (reverse y) (reverse x) := by
  have hv : ∀ v (z : Cl g), reverse (Q := Q g) (wedge g (vec g v) z) = wedge g (reverse z) (vec g v) := by
    intro v z
    have hr : reverse (Q := Q g) (vec g v) = vec g v := reverse_ι v
    have h1 := mul_vec' (reverse (Q := Q g) z) v
    rw [rc_eq, hr, reverse_reverse, lc_vec] at h1
    rw [wedge_vec, map_sub, reverse.map_mul, hr, h1]
    abel
  induction x using wedge_induction with
  | h0 => simp [zero_wedge, wedge_zero]
  | h1 => rw [one_wedge, reverse.map_one, wedge_one]
  | hadd x x' h h' => rw [add_wedge, map_add, h, h', map_add, wedge_add]
  | hsmul c x h => rw [smul_wedge, map_smul, h, map_smul, wedge_smul]
  | hv v x h => rw [wedge_assoc, hv, h, wedge_assoc, hv]

/-- `x ⌊ (y ∧ z) = (x ⌊ y) ⌊ z`. -/
theorem rc_wedge (x y z : Cl g) :
    rightContraction g x (wedge g y z) = rightContraction g (rightContraction g x y) z := by
  apply reverse_inj
  rw [reverse_rc, reverse_wedge, lc_wedge, reverse_rc, reverse_rc]

theorem rc_con (v : Fin n → R) (y z : Cl g) :
    rightContraction g (con g v y) z = con g v (rightContraction g y z) := by
  induction z using wedge_induction generalizing y with
  | h0 => simp [rc_eq, lc_zero_left]
  | h1 => simp [rc_eq, lc_one]
  | hadd z z' h h' =>
    have e : ∀ w : Cl g, rightContraction g w (z + z') = rightContraction g w z + rightContraction g w z' :=
      fun w => by rw [rc_eq, map_add, lc_add_left, map_add, ← rc_eq, ← rc_eq]
    rw [e, h, h', e, map_add]
  | hsmul c z h =>
    have e : ∀ w : Cl g, rightContraction g w (c • z) = c • rightContraction g w z :=
      fun w => by rw [rc_eq, map_smul, lc_smul_left, map_smul, ← rc_eq]
    rw [e, h, e, map_smul]
  | hv w z h => rw [rc_wedge, rc_wedge, ← h, rc_vec, rc_vec, involute_con, map_neg, map_neg, con_comm, neg_neg]

/-- `(x ⌋ y) ⌊ z = x ⌋ (y ⌊ z)`. -/
theorem lc_rc (x y z : Cl g) :
    rightContraction g (leftContraction g x y) z = leftContraction g x (rightContraction g y z) := by
  induction x using wedge_induction with
  | h0 => simp [rc_eq, lc_zero_left, lc_zero_right]
  | h1 => rw [lc_one, lc_one]
  | hadd x x' h h' =>
    rw [lc_add_left, lc_add_left, ← h, ← h', rc_eq, map_add, lc_add_right, map_add, ← rc_eq, ← rc_eq]
  | hsmul c x h => rw [lc_smul_left, lc_smul_left, ← h, rc_eq, map_smul, lc_smul_right, map_smul, ← rc_eq]
  | hv v x h => rw [lc_wedge_vec, lc_wedge_vec, rc_con, h]

/-- The product rule of contraction by a vector, for the geometric product. -/
theorem con_mul (v : Fin n → R) (x y : Cl g) :
    con g v (x * y) = con g v x * y + involute x * con g v y := cof_mul _ x y

/-- The product rule of contraction by a vector, for the wedge product. -/
theorem con_wedge (v : Fin n → R) (x y : Cl g) :
    con g v (wedge g x y) = wedge g (con g v x) y + wedge g (involute x) (con g v y) := by
  induction x using wedge_induction with
  | h0 => simp [zero_wedge]
  | h1 => simp [one_wedge, zero_wedge]
  | hadd x x' h h' => rw [add_wedge, map_add, h, h', map_add, map_add, add_wedge, add_wedge]; abel
  | hsmul c x h => rw [smul_wedge, map_smul, h, map_smul, map_smul, smul_wedge, smul_wedge, smul_add]
  | hv w x h =>
    rw [wedge_assoc, con_wedge_vec, h, con_wedge_vec, involute_wedge_vec, wedge_add, ← wedge_assoc, ← wedge_assoc]
    have e1 : ∀ a b c : Cl g, wedge g (a - b) c = wedge g a c - wedge g b c := fun a b c => by
      rw [sub_eq_add_neg, add_wedge, ← neg_one_smul R b, smul_wedge]; module
    have e2 : ∀ a b : Cl g, wedge g (-a) b = -wedge g a b := fun a b => by
      rw [← neg_one_smul R a, smul_wedge]; module
    rw [e1, e2, smul_wedge]
    abel

theorem mul_pseudo_lc (x : Cl g) : x * pseudo g = leftContraction g x (pseudo g) := by
  induction x using blade_induction g with
  | h0 => rw [zero_mul, lc_zero_left]
  | hadd x y hx hy => rw [add_mul, hx, hy, lc_add_left]
  | hsm c l _ =>
    rw [smul_mul_assoc, lc_smul_left, blade_eq_wedgeL,
      (sub_wedgeL (g := g) (W := Set.univ) fun _ _ => trivial).mul_eq_lc fun v _ => wedge_pseudo v]

/-- `(x ∧ y) E = x ⌋ (y E)`. -/
theorem wedge_mul_pseudo_lc (x y : Cl g) :
    wedge g x y * pseudo g = leftContraction g x (y * pseudo g) := by
  rw [mul_pseudo_lc, lc_wedge, ← mul_pseudo_lc]

/-- `(x ⌋ y) E = x ∧ (y E)`. -/
theorem lc_mul_pseudo (x y : Cl g) :
    leftContraction g x y * pseudo g = wedge g x (y * pseudo g) := by
  have hv : ∀ v (y : Cl g), con g v y * pseudo g = wedge g (vec g v) (y * pseudo g) := by
    intro v y
    have h := wedge_mul_pseudo_lc (g := g) (vec g v) y
    rw [lc_vec] at h
    rw [wedge_vec, ← h, ← mul_assoc, vec_mul, add_mul]
    abel
  induction x using wedge_induction with
  | h0 => rw [lc_zero_left, zero_mul, zero_wedge]
  | h1 => rw [lc_one, one_wedge]
  | hadd x x' h h' => rw [lc_add_left, add_mul, h, h', add_wedge]
  | hsmul c x h => rw [lc_smul_left, smul_mul_assoc, h, smul_wedge]
  | hv v x h => rw [lc_wedge_vec, hv, h, wedge_assoc]

theorem reverse_pseudo : ∃ c : R, c * c = 1 ∧ reverse (Q := Q g) (pseudo g) = c • pseudo g :=
  ⟨_, by rw [← mul_pow, neg_one_mul, neg_neg, one_pow], (homogeneous_reverse homogeneous_pseudo).2⟩

/-- `E (x ∧ y) = (E x) ⌊ y`. -/
theorem pseudo_mul_wedge (x y : Cl g) :
    pseudo g * wedge g x y = rightContraction g (pseudo g * x) y := by
  obtain ⟨c, -, hc⟩ := reverse_pseudo (g := g)
  apply reverse_inj
  rw [reverse.map_mul, reverse_wedge, reverse_rc, reverse.map_mul, hc, mul_smul_comm, mul_smul_comm, lc_smul_right,
    wedge_mul_pseudo_lc]

/-- `E (x ⌊ y) = (E x) ∧ y`. -/
theorem pseudo_mul_rc (x y : Cl g) :
    pseudo g * rightContraction g x y = wedge g (pseudo g * x) y := by
  obtain ⟨c, -, hc⟩ := reverse_pseudo (g := g)
  apply reverse_inj
  rw [reverse.map_mul, reverse_wedge, reverse_rc, reverse.map_mul, hc, mul_smul_comm, mul_smul_comm, wedge_smul,
    lc_mul_pseudo]

/-- The scalar part of a product is that of the contraction. -/
theorem grade_zero_lc (x y : Cl g) : grade g 0 (leftContraction g x y) = grade g 0 (x * y) := by
  induction x using blade_induction g with
  | h0 => rw [lc_zero_left, zero_mul]
  | hadd x x' h h' => rw [lc_add_left, map_add, h, h', add_mul, map_add]
  | hsm c l hl =>
  rw [lc_smul_left, map_smul, smul_mul_assoc, map_smul]; congr 1
  induction y using blade_induction g with
  | h0 => rw [lc_zero_right, mul_zero]
  | hadd y y' h h' => rw [lc_add_right, map_add, h, h', mul_add, map_add]
  | hsm d m hm =>
  rw [lc_smul_right, map_smul, mul_smul_comm, map_smul]; congr 1
  rw [lc_homogeneous (homogeneous_blade l) (homogeneous_blade m)]
  by_cases h : l.length = m.length
  · rw [if_pos h.le, h, Nat.sub_self, grade_grade, if_pos rfl]
  · rw [grade_zero_mul_of_ne (homogeneous_blade l) (homogeneous_blade m) h]
    split_ifs with h'
    · rw [grade_grade, if_neg (by omega)]
    · exact map_zero _

/-- `⟨(x ∧ y) z⟩ = ⟨x (y ⌋ z)⟩`. -/
theorem grade_zero_wedge_mul (x y z : Cl g) :
    grade g 0 (wedge g x y * z) = grade g 0 (x * leftContraction g y z) := by
  rw [← grade_zero_lc, lc_wedge, grade_zero_lc]

end Spec
