import Verif.Proofs.SpecLaws
import Mathlib.LinearAlgebra.Matrix.Determinant.Basic
import Mathlib.Tactic.LinearCombination

/-! Contractions, exterior products of vectors, Gram determinants. -/

set_option linter.unusedSectionVars false

namespace Spec
open GA CliffordAlgebra
variable {n : ℕ} {R : Type*} [CommRing R] [Invertible (2 : R)]
  {g : Matrix (Fin n) (Fin n) R}

/-- The inner product of two vectors. -/
noncomputable abbrev ip (g : Matrix (Fin n) (Fin n) R) (v w : Fin n → R) : R :=
  QuadraticMap.associated (R := R) (Q g) v w

theorem ip_comm (v w : Fin n → R) : ip g v w = ip g w v := by
  apply (isUnit_of_invertible (2 : R)).mul_left_cancel
  rw [two_smul_associated, two_smul_associated, QuadraticMap.polar_comm]

theorem con_wedge_vec (v w : Fin n → R) (x : Cl g) :
    con g v (wedge g (vec g w) x) = ip g v w • x - wedge g (vec g w) (con g v x) := by
  apply (toExt g).injective
  rw [toExt_con, wedge, wedge, LinearEquiv.apply_symm_apply, map_sub, LinearEquiv.apply_symm_apply,
    toExt_vec, map_smul, toExt_con]
  exact contractLeft_ι_mul _ _ _

theorem con_con (v : Fin n → R) (x : Cl g) : con g v (con g v x) = 0 :=
  contractLeft_contractLeft _ _

theorem con_comm (v w : Fin n → R) (x : Cl g) : con g v (con g w x) = -con g w (con g v x) :=
  contractLeft_comm _ _ _

theorem vec_mul (v : Fin n → R) (x : Cl g) : vec g v * x = con g v x + wedge g (vec g v) x := by
  rw [wedge_vec]; abel

theorem vec_add (v w : Fin n → R) : vec g (v + w) = vec g v + vec g w := map_add _ _ _
theorem vec_smul (c : R) (v : Fin n → R) : vec g (c • v) = c • vec g v := map_smul _ _ _

theorem con_add_left (v w : Fin n → R) (x : Cl g) : con g (v + w) x = con g v x + con g w x := by
  simp [con]
theorem con_smul_left (c : R) (v : Fin n → R) (x : Cl g) : con g (c • v) x = c • con g v x := by
  simp [con]

theorem wedge_vec_swap (v w : Fin n → R) (x : Cl g) :
    wedge g (vec g v) (wedge g (vec g w) x) = -wedge g (vec g w) (wedge g (vec g v) x) := by
  have h := ext_anticomm (R := R) v w
  rw [← wedge_assoc, ← wedge_assoc]
  have : wedge g (vec g v) (vec g w) = -wedge g (vec g w) (vec g v) := by
    rw [wedge, wedge, toExt_vec, toExt_vec, ← map_neg, h]
  rw [this, ← neg_one_smul R, smul_wedge, neg_one_smul]

/-- Successive contraction by the vectors of a list, the last one first. -/
noncomputable def conL (g : Matrix (Fin n) (Fin n) R) (L : List (Fin n → R)) (x : Cl g) : Cl g :=
  L.foldr (fun v => con g v) x

/-- The exterior product of a list of vectors. -/
noncomputable def wedgeL (g : Matrix (Fin n) (Fin n) R) (L : List (Fin n → R)) : Cl g :=
  L.foldr (fun v x => wedge g (vec g v) x) 1

@[simp] theorem conL_nil (x : Cl g) : conL g [] x = x := rfl
@[simp] theorem conL_cons (v) (L : List (Fin n → R)) (x : Cl g) :
    conL g (v :: L) x = con g v (conL g L x) := rfl
@[simp] theorem wedgeL_nil : wedgeL g [] = 1 := rfl
@[simp] theorem wedgeL_cons (v) (L : List (Fin n → R)) :
    wedgeL g (v :: L) = wedge g (vec g v) (wedgeL g L) := rfl

theorem one_wedge (x : Cl g) : wedge g 1 x = x := by simp [wedge]
theorem wedge_one (x : Cl g) : wedge g x 1 = x := by simp [wedge]

theorem conL_append (L M : List (Fin n → R)) (x : Cl g) :
    conL g (L ++ M) x = conL g L (conL g M x) := by
  simp [conL, List.foldr_append]

theorem wedgeL_append (L M : List (Fin n → R)) :
    wedgeL g (L ++ M) = wedge g (wedgeL g L) (wedgeL g M) := by
  induction L with
  | nil => simp [one_wedge]
  | cons v L ih => rw [List.cons_append, wedgeL_cons, ih, wedgeL_cons, wedge_assoc]

theorem con_conL (v : Fin n → R) (L : List (Fin n → R)) (x : Cl g) :
    con g v (conL g L x) = (-1 : R) ^ L.length • conL g L (con g v x) := by
  induction L with
  | nil => simp
  | cons w L ih =>
    rw [conL_cons, con_comm, ih, map_smul, conL_cons, List.length_cons, pow_succ]
    simp

theorem con_conL_mem {v : Fin n → R} {L : List (Fin n → R)} (h : v ∈ L) (x : Cl g) :
    con g v (conL g L x) = 0 := by
  induction L with
  | nil => simp at h
  | cons w L ih =>
    rw [conL_cons]
    rcases List.mem_cons.mp h with rfl | h
    · exact con_con _ _
    · rw [con_comm, ih h, map_zero, neg_zero]

theorem wedge_wedgeL_mem {v : Fin n → R} {L : List (Fin n → R)} (h : v ∈ L) :
    wedge g (vec g v) (wedgeL g L) = 0 := by
  induction L with
  | nil => simp at h
  | cons w L ih =>
    rw [wedgeL_cons]
    rcases List.mem_cons.mp h with rfl | h
    · rw [← wedge_assoc, vec_wedge_self, zero_wedge]
    · rw [wedge_vec_swap, ih h, wedge_zero, neg_zero]

theorem homogeneous_zero (r : ℕ) : Homogeneous g r (0 : Cl g) := fun _ _ => map_zero _
theorem Homogeneous.add {r : ℕ} {x y : Cl g} (hx : Homogeneous g r x) (hy : Homogeneous g r y) :
    Homogeneous g r (x + y) := fun k hk => by rw [map_add, hx k hk, hy k hk, add_zero]
theorem Homogeneous.smul {r : ℕ} {x : Cl g} (c : R) (hx : Homogeneous g r x) :
    Homogeneous g r (c • x) := fun k hk => by rw [map_smul, hx k hk, smul_zero]
theorem Homogeneous.neg {r : ℕ} {x : Cl g} (hx : Homogeneous g r x) :
    Homogeneous g r (-x) := fun k hk => by rw [map_neg, hx k hk, neg_zero]
theorem Homogeneous.sub {r : ℕ} {x y : Cl g} (hx : Homogeneous g r x) (hy : Homogeneous g r y) :
    Homogeneous g r (x - y) := fun k hk => by rw [map_sub, hx k hk, hy k hk, sub_zero]

theorem homogeneous_con_blade (v : Fin n → R) (l : List (Fin n)) :
    (∀ k, l.length = k + 1 → Homogeneous g k (con g v (blade g l))) ∧
    (l.length = 0 → con g v (blade g l) = 0) := by
  induction l with
  | nil => exact ⟨fun k hk => by simp at hk, fun _ => by simp⟩
  | cons i l ih =>
    refine ⟨fun k hk => ?_, fun h => by simp at h⟩
    rw [blade_cons, e, con_wedge_vec]
    have hk' : l.length = k := by simpa using hk
    refine Homogeneous.sub (Homogeneous.smul _ (hk' ▸ homogeneous_blade l)) ?_
    cases k with
    | zero => rw [ih.2 hk', wedge_zero]; exact homogeneous_zero _
    | succ k =>
      have := homogeneous_wedge (homogeneous_vec (g := g) (Pi.single i 1)) (ih.1 k hk')
      rwa [Nat.add_comm] at this

theorem grade_con (k : ℕ) (v : Fin n → R) (x : Cl g) :
    grade g k (con g v x) = con g v (grade g (k + 1) x) := by
  induction x using blade_induction g with
  | h0 => simp
  | hadd x y hx hy => rw [map_add, map_add, hx, hy, map_add, map_add]
  | hsm c l hl =>
    rw [map_smul, map_smul, map_smul, map_smul, grade_blade]
    congr 1
    obtain ⟨h1, h2⟩ := homogeneous_con_blade (g := g) v l
    split_ifs with h
    · rw [(h1 k h).grade_eq]
    · rw [map_zero]
      rcases Nat.eq_zero_or_pos l.length with h0 | h0
      · rw [h2 h0, map_zero]
      · exact h1 (l.length - 1) (by omega) k (by omega)

theorem homogeneous_con {k : ℕ} {x : Cl g} (v : Fin n → R) (hx : Homogeneous g (k + 1) x) :
    Homogeneous g k (con g v x) := by
  intro j hj; rw [grade_con, hx _ (by omega), map_zero]

theorem con_homogeneous_zero {x : Cl g} (v : Fin n → R) (hx : Homogeneous g 0 x) :
    con g v x = 0 := by
  classical
  rw [← sum_grade g (con g v x)]
  refine Finset.sum_eq_zero fun k _ => ?_
  rw [grade_con, hx _ (by omega), map_zero]

theorem homogeneous_conL {k : ℕ} (L : List (Fin n → R)) {x : Cl g}
    (hx : Homogeneous g (k + L.length) x) : Homogeneous g k (conL g L x) := by
  induction L generalizing k with
  | nil => exact hx
  | cons v L ih =>
    refine homogeneous_con v (ih (k := k + 1) ?_)
    rwa [List.length_cons, ← Nat.add_assoc, Nat.add_right_comm] at hx

theorem homogeneous_wedgeL (L : List (Fin n → R)) : Homogeneous g L.length (wedgeL g L) := by
  induction L with
  | nil =>
    have := homogeneous_algebraMap (g := g) (1 : R)
    rwa [map_one] at this
  | cons v L ih =>
    rw [List.length_cons, Nat.add_comm]
    exact homogeneous_wedge (homogeneous_vec v) ih

theorem homogeneous_zero_iff {x : Cl g} : Homogeneous g 0 x ↔ ∃ c, x = algebraMap R _ c := by
  classical
  refine ⟨fun h => ?_, fun ⟨c, hc⟩ => hc ▸ homogeneous_algebraMap c⟩
  exact (eq_algebraMap_iff x).mp fun r hr => h r hr

/-! ### Multiplication by a blade that contains the factors -/

/-- Linear combinations of exterior products of at most `m` vectors from `W`. -/
inductive Sub (g : Matrix (Fin n) (Fin n) R) (W : Set (Fin n → R)) : ℕ → Cl g → Prop
  | one : Sub g W 0 1
  | add {m x y} : Sub g W m x → Sub g W m y → Sub g W m (x + y)
  | smul {m x} (c : R) : Sub g W m x → Sub g W m (c • x)
  | wedge {m x w} : w ∈ W → Sub g W m x → Sub g W (m + 1) (wedge g (vec g w) x)
  | mono {m x} : Sub g W m x → Sub g W (m + 1) x

theorem Sub.zero {W : Set (Fin n → R)} (m : ℕ) : Sub g W m 0 := by
  induction m with
  | zero => have := Sub.smul (0 : R) (Sub.one (g := g) (W := W)); rwa [zero_smul] at this
  | succ m ih => exact ih.mono

theorem Sub.con_aux {W : Set (Fin n → R)} {m : ℕ} {x : Cl g} (v : Fin n → R) (h : Sub g W m x) :
    (∀ k, m = k + 1 → Sub g W k (con g v x)) ∧ (m = 0 → con g v x = 0) := by
  induction h with
  | one => exact ⟨fun k hk => by omega, fun _ => con_one _ _⟩
  | add _ _ ih1 ih2 =>
    refine ⟨fun k hk => ?_, fun h0 => ?_⟩
    · rw [map_add]; exact (ih1.1 k hk).add (ih2.1 k hk)
    · rw [map_add, ih1.2 h0, ih2.2 h0, add_zero]
  | smul c _ ih =>
    refine ⟨fun k hk => ?_, fun h0 => ?_⟩
    · rw [map_smul]; exact (ih.1 k hk).smul c
    · rw [map_smul, ih.2 h0, smul_zero]
  | @wedge m x w hw hx ih =>
    refine ⟨fun k hk => ?_, fun h0 => by omega⟩
    obtain rfl : m = k := by omega
    rw [con_wedge_vec, sub_eq_add_neg, ← neg_one_smul R (Spec.wedge g _ _)]
    refine (hx.smul _).add (Sub.smul _ ?_)
    cases m with
    | zero => rw [ih.2 rfl, wedge_zero]; exact Sub.zero _
    | succ m => exact (ih.1 m rfl).wedge hw
  | @mono m x hx ih =>
    refine ⟨fun k hk => ?_, fun h0 => by omega⟩
    obtain rfl : m = k := by omega
    cases m with
    | zero => rw [ih.2 rfl]; exact Sub.zero _
    | succ m => exact (ih.1 m rfl).mono

/-- If every vector of `W` is annihilated by `∧ E`, then `(v ⌋ x) E = v ∧ (x E)` for `x` in the
exterior algebra of `W`. -/
theorem Sub.con_mul {W : Set (Fin n → R)} {E : Cl g} (hE : ∀ v ∈ W, Spec.wedge g (vec g v) E = 0)
    {m : ℕ} : ∀ {x : Cl g}, Sub g W m x → ∀ v ∈ W,
      con g v x * E = Spec.wedge g (vec g v) (x * E) := by
  induction m using Nat.strong_induction_on with
  | _ m IH =>
    intro x h
    have step : ∀ {k z}, k < m → Sub g W k z → ∀ w ∈ W,
        Spec.wedge g (vec g w) z * E = con g w (z * E) := by
      intro k z hk hz w hw
      have := IH k hk hz w hw
      rw [wedge_vec, sub_mul, this, mul_assoc, vec_mul]; abel
    induction h with
    | one => intro v hv; rw [con_one, zero_mul, one_mul, hE v hv]
    | add _ _ ih1 ih2 =>
      intro v hv
      rw [map_add, add_mul, add_mul, wedge_add, ih1 IH step v hv, ih2 IH step v hv]
    | smul c _ ih =>
      intro v hv
      rw [map_smul, smul_mul_assoc, smul_mul_assoc, wedge_smul, ih IH step v hv]
    | @wedge m x w hw hx ih =>
      intro v hv
      have h1 : Spec.wedge g (vec g w) (con g v x) * E = con g w (con g v x * E) := by
        obtain ⟨a, b⟩ := hx.con_aux v
        cases m with
        | zero => rw [b rfl, wedge_zero, zero_mul, map_zero]
        | succ m => exact step (Nat.lt_succ_of_lt (Nat.lt_succ_self _)) (a m rfl) w hw
      have h2 := IH m (Nat.lt_succ_self _) hx v hv
      have h3 := step (Nat.lt_succ_self _) hx w hw
      rw [con_wedge_vec, sub_mul, h1, h2, h3, con_wedge_vec, smul_mul_assoc, ip_comm]; abel
    | @mono m x hx ih =>
      intro v hv
      exact IH m (Nat.lt_succ_self _) hx v hv

theorem Sub.wedge_mul {W : Set (Fin n → R)} {E : Cl g}
    (hE : ∀ v ∈ W, Spec.wedge g (vec g v) E = 0) {m : ℕ} {x : Cl g} (hx : Sub g W m x)
    {w : Fin n → R} (hw : w ∈ W) : Spec.wedge g (vec g w) x * E = con g w (x * E) := by
  have := hx.con_mul hE w hw
  rw [wedge_vec, sub_mul, this, mul_assoc, vec_mul]; abel

theorem sub_wedgeL {W : Set (Fin n → R)} {L : List (Fin n → R)} (h : ∀ v ∈ L, v ∈ W) :
    Sub g W L.length (wedgeL g L) := by
  induction L with
  | nil => exact Sub.one
  | cons v L ih =>
    exact (ih fun w hw => h w (List.mem_cons_of_mem _ hw)).wedge (h v List.mem_cons_self)

/-- The product of a blade with a blade that contains it is a chain of contractions. -/
theorem wedgeL_mul {E : Cl g} {L : List (Fin n → R)}
    (hE : ∀ v ∈ L, Spec.wedge g (vec g v) E = 0) : wedgeL g L * E = conL g L E := by
  induction L with
  | nil => simp
  | cons v L ih =>
    have h1 := sub_wedgeL (g := g) (W := {w | w ∈ v :: L}) (L := L)
      fun w hw => List.mem_cons_of_mem _ hw
    rw [wedgeL_cons, h1.wedge_mul (W := {w | w ∈ v :: L}) hE List.mem_cons_self,
      ih fun w hw => hE w (List.mem_cons_of_mem _ hw), conL_cons]

/-- A blade times itself. -/
theorem wedgeL_sq (L : List (Fin n → R)) : wedgeL g L * wedgeL g L = conL g L (wedgeL g L) :=
  wedgeL_mul fun _ hv => wedge_wedgeL_mem hv

theorem wedgeL_sq_homogeneous (L : List (Fin n → R)) :
    Homogeneous g 0 (wedgeL g L * wedgeL g L) := by
  rw [wedgeL_sq]
  refine homogeneous_conL L ?_
  rw [Nat.zero_add]; exact homogeneous_wedgeL L

/-! ### Gram determinants -/

theorem conL_smul (L : List (Fin n → R)) (c : R) (x : Cl g) : conL g L (c • x) = c • conL g L x := by
  induction L with
  | nil => rfl
  | cons v L ih => rw [conL_cons, ih, map_smul, conL_cons]
theorem conL_add (L : List (Fin n → R)) (x y : Cl g) :
    conL g L (x + y) = conL g L x + conL g L y := by
  induction L with
  | nil => rfl
  | cons v L ih => rw [conL_cons, ih, map_add, conL_cons, conL_cons]
theorem conL_zero (L : List (Fin n → R)) : conL g L 0 = 0 := by
  have := conL_smul (g := g) L 0 0; simpa using this
theorem conL_sum {ι : Type*} (s : Finset ι) (L : List (Fin n → R)) (f : ι → Cl g) :
    conL g L (∑ i ∈ s, f i) = ∑ i ∈ s, conL g L (f i) := by
  classical
  induction s using Finset.induction_on with
  | empty => simp [conL_zero]
  | insert a s ha ih => rw [Finset.sum_insert ha, Finset.sum_insert ha, conL_add, ih]

theorem wedge_sum {ι : Type*} (s : Finset ι) (x : Cl g) (f : ι → Cl g) :
    wedge g x (∑ i ∈ s, f i) = ∑ i ∈ s, wedge g x (f i) := by
  classical
  induction s using Finset.induction_on with
  | empty => simp [wedge_zero]
  | insert a s ha ih => rw [Finset.sum_insert ha, Finset.sum_insert ha, wedge_add, ih]

/-- `v ⌋ (w_1 ∧ ... ∧ w_k) = ∑ (-1)^j (v·w_j) w_1 ∧ .. ŵ_j .. ∧ w_k`. -/
theorem con_wedgeL {k : ℕ} (v : Fin n → R) (w : Fin (k + 1) → Fin n → R) :
    con g v (wedgeL g (List.ofFn w)) =
      ∑ j : Fin (k + 1), ((-1 : R) ^ (j : ℕ) * ip g v (w j)) •
        wedgeL g (List.ofFn (fun i => w (j.succAbove i))) := by
  induction k with
  | zero =>
    simp only [List.ofFn_succ, List.ofFn_zero, wedgeL_cons, wedgeL_nil, con_wedge_vec, con_one,
      wedge_zero, Fin.sum_univ_succ]
    simp
  | succ k ih =>
    rw [List.ofFn_succ, wedgeL_cons, con_wedge_vec, ih, wedge_sum, Fin.sum_univ_succ (n := k + 1), sub_eq_add_neg,
      ← Finset.sum_neg_distrib]
    congr 1
    · simp
    · refine Finset.sum_congr rfl fun j _ => ?_
      conv_rhs => rw [List.ofFn_succ, wedgeL_cons]
      simp only [Fin.succ_succAbove_zero, Fin.succ_succAbove_succ, Fin.val_succ, pow_succ]
      rw [wedge_smul]
      module

/-- Gram determinant. -/
theorem conL_wedgeL {k : ℕ} (v w : Fin k → Fin n → R) :
    conL g (List.ofFn v) (wedgeL g (List.ofFn w)) =
      algebraMap R _ ((-1) ^ (k * (k - 1) / 2) * (Matrix.of fun i j => ip g (v i) (w j)).det) := by
  induction k with
  | zero => simp
  | succ k ih =>
    have hv : List.ofFn v = List.ofFn (fun i : Fin k => v i.castSucc) ++ [v (Fin.last k)] := by
      rw [List.ofFn_succ']; simp [List.concat_eq_append]
    rw [hv, conL_append, conL_cons, conL_nil, con_wedgeL, conL_sum,
      Matrix.det_succ_row _ (Fin.last k), Finset.mul_sum, map_sum]
    refine Finset.sum_congr rfl fun j _ => ?_
    rw [conL_smul, ih, Algebra.smul_def, ← map_mul]
    congr 1
    have hk : (k + 1) * (k + 1 - 1) / 2 = k * (k - 1) / 2 + k := by
      cases k with
      | zero => rfl
      | succ m =>
        simp only [Nat.add_sub_cancel]
        have : (m + 1 + 1) * (m + 1) = (m + 1) * m + (m + 1) * 2 := by ring
        rw [this, Nat.add_mul_div_right _ _ (by norm_num)]
    rw [hk, pow_add]
    have hm : (Matrix.of fun i j => ip g (v i) (w j)).submatrix (Fin.last k).succAbove j.succAbove =
        Matrix.of fun i i' => ip g (v i.castSucc) (w (j.succAbove i')) := by
      ext a b; simp [Fin.succAbove_last]
    rw [hm, Matrix.of_apply, Fin.val_last, pow_add]
    have h1 : ((-1 : R) ^ k * (-1) ^ k) = 1 := by rw [← mul_pow]; simp
    linear_combination (-(-1 : R) ^ (k * (k - 1) / 2) * (-1) ^ (j : ℕ) * ip g (v (Fin.last k)) (w j) *
      (Matrix.of fun i i' => ip g (v i.castSucc) (w (j.succAbove i'))).det) * h1

end Spec
