import Verif.Model.Operands
import Verif.Proofs.Project
import Verif.Proofs.Flags
import Verif.Props.C23
import Verif.Spec.Witness

/-!
# C73: scalars as operands
-/

set_option linter.unusedSectionVars false
set_option maxRecDepth 10000

namespace GA
variable {n : ℕ} {R : Type*} [CommRing R] [DecidableEq R] [Invertible (2 : R)]
  {g : Matrix (Fin n) (Fin n) R}

/-! ### Products with scalars in the Clifford algebra -/

theorem grade_algebraMap_ite (c : R) (r : ℕ) :
    Spec.grade g r (algebraMap R _ c) = if r = 0 then algebraMap R _ c else 0 := by
  split_ifs with h
  · subst h; exact grade_zero_algebraMap g c
  · exact grade_algebraMap g c h

theorem gradedProduct_scalar_left (f : ℕ → ℕ → Option ℕ) (c : R) (x : Spec.Cl g) :
    Spec.gradedProduct g f (algebraMap R _ c) x = ∑ s ∈ Finset.range (n + 1),
      match f 0 s with
      | none => 0
      | some t => c • Spec.grade g t (Spec.grade g s x) := by
  rw [Spec.gradedProduct, Finset.sum_eq_single 0]
  · refine Finset.sum_congr rfl fun s _ => ?_
    cases f 0 s with
    | none => rfl
    | some t =>
      show Spec.grade g t (Spec.grade g 0 (algebraMap R _ c) * Spec.grade g s x) = _
      rw [grade_zero_algebraMap, ← Algebra.smul_def, map_smul]
  · intro r _ hr
    refine Finset.sum_eq_zero fun s _ => ?_
    cases f r s with
    | none => rfl
    | some t =>
      show Spec.grade g t (Spec.grade g r (algebraMap R _ c) * Spec.grade g s x) = 0
      rw [grade_algebraMap g c hr, zero_mul, map_zero]
  · intro h; simp at h

theorem gradedProduct_scalar_right (f : ℕ → ℕ → Option ℕ) (c : R) (x : Spec.Cl g) :
    Spec.gradedProduct g f x (algebraMap R _ c) = ∑ r ∈ Finset.range (n + 1),
      match f r 0 with
      | none => 0
      | some t => c • Spec.grade g t (Spec.grade g r x) := by
  rw [Spec.gradedProduct]
  refine Finset.sum_congr rfl fun r _ => ?_
  rw [Finset.sum_eq_single 0]
  · cases f r 0 with
    | none => rfl
    | some t =>
      show Spec.grade g t (Spec.grade g r x * Spec.grade g 0 (algebraMap R _ c)) = _
      rw [grade_zero_algebraMap, ← Algebra.commutes, ← Algebra.smul_def, map_smul]
  · intro s _ hs
    cases f r s with
    | none => rfl
    | some t =>
      show Spec.grade g t (Spec.grade g r x * Spec.grade g s (algebraMap R _ c)) = 0
      rw [grade_algebraMap g c hs, mul_zero, map_zero]
  · intro h; simp at h

theorem lc_scalar (c : R) (x : Spec.Cl g) :
    Spec.leftContraction g (algebraMap R _ c) x = c • x := by
  rw [Spec.leftContraction, gradedProduct_scalar_left]
  conv_rhs => rw [← sum_grade g x, Finset.smul_sum]
  refine Finset.sum_congr rfl fun s _ => ?_
  simp [Spec.grade_grade]

theorem rc_scalar (c : R) (x : Spec.Cl g) :
    Spec.rightContraction g x (algebraMap R _ c) = c • x := by
  rw [Spec.rightContraction, gradedProduct_scalar_right]
  conv_rhs => rw [← sum_grade g x, Finset.smul_sum]
  refine Finset.sum_congr rfl fun s _ => ?_
  simp [Spec.grade_grade]

theorem lc_scalar_right (c : R) (x : Spec.Cl g) :
    Spec.leftContraction g x (algebraMap R _ c) = c • Spec.grade g 0 x := by
  rw [Spec.leftContraction, gradedProduct_scalar_right, Finset.sum_eq_single 0]
  · simp [Spec.grade_grade]
  · intro r _ hr; simp [hr]
  · intro h; simp at h

theorem rc_scalar_left (c : R) (x : Spec.Cl g) :
    Spec.rightContraction g (algebraMap R _ c) x = c • Spec.grade g 0 x := by
  rw [Spec.rightContraction, gradedProduct_scalar_left, Finset.sum_eq_single 0]
  · simp [Spec.grade_grade]
  · intro r _ hr; simp [hr]
  · intro h; simp at h

theorem hestenesDot_scalar (c : R) (x : Spec.Cl g) :
    Spec.hestenesDot g x (algebraMap R _ c) = 0 ∧ Spec.hestenesDot g (algebraMap R _ c) x = 0 := by
  rw [Spec.hestenesDot, gradedProduct_scalar_right, gradedProduct_scalar_left]
  simp

theorem wedge_algebraMap_right (c : R) (x : Spec.Cl g) :
    Spec.wedge g x (algebraMap R _ c) = c • x := by
  rw [Spec.wedge, Spec.toExt_algebraMap, ← Algebra.commutes, ← Algebra.smul_def, map_smul,
    LinearEquiv.symm_apply_apply]

/-! ### The operators -/

theorem timesScalar_spec {A : Mv R n} (hA : A.WF g) (c : R) :
    (A.timesScalar c).WF g ∧ (A.timesScalar c).val g = c • A.val g := by
  refine ⟨ofExpr_rep (hA.syms.smulE c), ?_⟩
  rw [Mv.timesScalar, ofExpr_val, den_smulE]; rfl

theorem leftScalar_spec {A : Mv R n} (hA : A.WF g) (hb : A.isBladeRep = true ∨ isOrtho g = true)
    (c : R) : (A.leftScalar c).WF g ∧ (A.leftScalar c).val g = c • Spec.grade g 0 (A.val g) := by
  have h := scalarMv_spec (g := g) (n := n) (c * A.scalar)
  refine ⟨h.1, ?_⟩
  rw [← scalar_spec hA hb]
  exact h.2.2.trans (by rw [map_mul, Algebra.smul_def])

theorem subScalar_spec {A : Mv R n} (hA : A.WF g) (c : R) :
    (Mv.ofExpr (subE A.obj (scalarE c))).WF g ∧
      (Mv.ofExpr (subE A.obj (scalarE c))).val g = A.val g - algebraMap R _ c :=
  ⟨ofExpr_rep (hA.syms.subE (allSyms_scalarE (repSym_one _) c)),
    by rw [ofExpr_val, den_subE, den_scalarE]; rfl⟩

theorem onMvs_wf (hs : g.IsSymm) (op : BinOp) {A B : Mv R n} (hA : A.WF g) (hB : B.WF g) :
    (op.onMvs g A B).WF g := by
  cases op
  · exact (add_spec hs hA hB).1
  · exact (sub_spec hs hA hB).1
  · exact (mul_spec' hs hA hB).1
  · exact (wedge_spec' hs hA hB).1
  · exact (dot_spec hs hA hB).1
  · exact (left_spec hs hA hB).1
  · exact (right_spec hs hA hB).1
  · exact (antiComm_spec hs hA hB).1
  · exact (comm_spec hs hA hB).1

/-- C73: `A op c` is `A op Mv(c)` for every operator; for `<` the multivector must be in blade
representation. -/
theorem C73_scalar_right (hs : g.IsSymm) (op : BinOp) {A : Mv R n} (hA : A.WF g) (c : R)
    (hb : op = .left → A.isBladeRep = true ∨ isOrtho g = true) :
    ∃ B, op.apply g (.mv A) (.scalar c) = some B ∧ B.WF g ∧
      B.eq g (op.onMvs g A (Mv.scalarMv c)) = true := by
  have hc := scalarMv_spec (g := g) (n := n) c
  refine ⟨_, rfl, ?_⟩
  suffices h : (op.mvScalar g A c).WF g ∧
      (op.mvScalar g A c).val g = (op.onMvs g A (Mv.scalarMv c)).val g from
    ⟨h.1, (eq_spec hs h.1 (onMvs_wf hs op hA hc.1)).mpr h.2⟩
  have hm := smul_spec (g := g) c hA
  cases op
  · exact ⟨(addScalar_spec hA c).1,
      (addScalar_spec hA c).2.trans (by rw [BinOp.onMvs, (add_spec hs hA hc.1).2, hc.2.2])⟩
  · exact ⟨(subScalar_spec hA c).1,
      (subScalar_spec hA c).2.trans (by rw [BinOp.onMvs, (sub_spec hs hA hc.1).2, hc.2.2])⟩
  · exact ⟨hm.1, hm.2.trans
      (by rw [BinOp.onMvs, (mul_spec' hs hA hc.1).2, hc.2.2, ← Algebra.commutes, Algebra.smul_def])⟩
  · exact ⟨(timesScalar_spec hA c).1, (timesScalar_spec hA c).2.trans
      (by rw [BinOp.onMvs, (wedge_spec' hs hA hc.1).2, hc.2.2, wedge_algebraMap_right])⟩
  · exact ⟨zero_spec.1, zero_spec.2.trans
      (by rw [BinOp.onMvs, (dot_spec hs hA hc.1).2, hc.2.2, (hestenesDot_scalar c _).1])⟩
  · exact ⟨(leftScalar_spec hA (hb rfl) c).1, (leftScalar_spec hA (hb rfl) c).2.trans
      (by rw [BinOp.onMvs, (left_spec hs hA hc.1).2, hc.2.2, lc_scalar_right])⟩
  · exact ⟨(timesScalar_spec hA c).1, (timesScalar_spec hA c).2.trans
      (by rw [BinOp.onMvs, (right_spec hs hA hc.1).2, hc.2.2, rc_scalar])⟩
  · have h1 := add_spec hs hm.1 hm.1
    have h2 := smul_spec ⅟(2 : R) h1.1
    exact ⟨h2.1, h2.2.trans (by
      rw [BinOp.onMvs, (antiComm_spec hs hA hc.1).2, hc.2.2, h1.2, hm.2, ← Algebra.commutes,
        Algebra.smul_def c])⟩
  · have h1 := sub_spec hs hm.1 hm.1
    have h2 := smul_spec ⅟(2 : R) h1.1
    exact ⟨h2.1, h2.2.trans (by
      rw [BinOp.onMvs, (comm_spec hs hA hc.1).2, hc.2.2, h1.2, hm.2, ← Algebra.commutes,
        Algebra.smul_def c])⟩

/-- C73: `c op A` is `Mv(c) op A` for every operator; for `>` the multivector must be in blade
representation. -/
theorem C73_scalar_left (hs : g.IsSymm) (op : BinOp) {A : Mv R n} (hA : A.WF g) (c : R)
    (hb : op = .right → A.isBladeRep = true ∨ isOrtho g = true) :
    ∃ B, op.apply g (.scalar c) (.mv A) = some B ∧ B.WF g ∧
      B.eq g (op.onMvs g (Mv.scalarMv c) A) = true := by
  have hc := scalarMv_spec (g := g) (n := n) c
  refine ⟨_, rfl, ?_⟩
  suffices h : (op.scalarMv g c A).WF g ∧
      (op.scalarMv g c A).val g = (op.onMvs g (Mv.scalarMv c) A).val g from
    ⟨h.1, (eq_spec hs h.1 (onMvs_wf hs op hc.1 hA)).mpr h.2⟩
  have hm := smul_spec (g := g) c hA
  cases op
  · exact ⟨(addScalar_spec hA c).1, (addScalar_spec hA c).2.trans
      (by rw [BinOp.onMvs, (add_spec hs hc.1 hA).2, hc.2.2, add_comm])⟩
  · exact ⟨(scalarSub_spec hA c).1, (scalarSub_spec hA c).2.trans
      (by rw [BinOp.onMvs, (sub_spec hs hc.1 hA).2, hc.2.2])⟩
  · exact ⟨hm.1, hm.2.trans
      (by rw [BinOp.onMvs, (mul_spec' hs hc.1 hA).2, hc.2.2, Algebra.smul_def])⟩
  · exact ⟨(timesScalar_spec hA c).1, (timesScalar_spec hA c).2.trans
      (by rw [BinOp.onMvs, (wedge_spec' hs hc.1 hA).2, hc.2.2, wedge_algebraMap, Algebra.smul_def])⟩
  · exact ⟨zero_spec.1, zero_spec.2.trans
      (by rw [BinOp.onMvs, (dot_spec hs hc.1 hA).2, hc.2.2, (hestenesDot_scalar c _).2])⟩
  · exact ⟨(timesScalar_spec hA c).1, (timesScalar_spec hA c).2.trans
      (by rw [BinOp.onMvs, (left_spec hs hc.1 hA).2, hc.2.2, lc_scalar])⟩
  · exact ⟨(leftScalar_spec hA (hb rfl) c).1, (leftScalar_spec hA (hb rfl) c).2.trans
      (by rw [BinOp.onMvs, (right_spec hs hc.1 hA).2, hc.2.2, rc_scalar_left])⟩
  · have h1 := add_spec hs hm.1 hm.1
    have h2 := smul_spec ⅟(2 : R) h1.1
    exact ⟨h2.1, h2.2.trans (by
      rw [BinOp.onMvs, (antiComm_spec hs hc.1 hA).2, hc.2.2, h1.2, hm.2, ← Algebra.commutes,
        Algebra.smul_def c])⟩
  · have h1 := sub_spec hs hm.1 hm.1
    have h2 := smul_spec ⅟(2 : R) h1.1
    exact ⟨h2.1, h2.2.trans (by
      rw [BinOp.onMvs, (comm_spec hs hc.1 hA).2, hc.2.2, h1.2, hm.2, ← Algebra.commutes,
        Algebra.smul_def c])⟩

/-- C73: for a multivector in base representation `A < c` may be wrong. -/
theorem C73_base_rep_counterexample :
    ∃ A B : Mv ℚ 3, A.WF Ex.gN ∧ BinOp.left.apply Ex.gN (.mv A) (.scalar 1) = some B ∧
      B.eq Ex.gN (A.left Ex.gN (Mv.scalarMv 1)) = false := by
  refine ⟨(Mv.ofExpr [(1, .blade [0, 1])]).baseRep Ex.gN, _, ?_, rfl, by decide +kernel⟩
  exact (baseRep_spec Ex.gN_symm (ofExpr_valid (by
    intro t ht; rw [List.mem_singleton] at ht; subst ht; exact ⟨[0, 1], rfl, by decide⟩)).1).1

section field
variable {K : Type*} [Field K] [DecidableEq K] [Invertible (2 : K)]
  {g : Matrix (Fin n) (Fin n) K}

/-- C73: when `x / y` returns, `(x / y) * y = x`, for scalars and multivectors on either side. -/
theorem C73_divide (hs : g.IsSymm) {x y : Operand K n} (hx : x.toMv.WF g) (hy : y.toMv.WF g)
    {q : Mv K n} (h : divide g x y = some q) :
    q.WF g ∧ (q.mul g y.toMv).eq g x.toMv = true := by
  suffices hh : q.WF g ∧ q.val g * y.toMv.val g = x.toMv.val g by
    have hq := mul_spec' hs hh.1 hy
    exact ⟨hh.1, (eq_spec hs hq.1 hx).mpr (hq.2.trans hh.2)⟩
  have key : ∀ {A B I : Mv K n}, A.WF g → B.WF g → B.inv g = some I →
      (A.mul g I).WF g ∧ (A.mul g I).val g * B.val g = A.val g := by
    intro A B I hA hB hI
    obtain ⟨h1, -, h3⟩ := inv_spec hs hB hI
    have h4 := mul_spec' hs hA h1
    exact ⟨h4.1, by rw [h4.2, mul_assoc, h3, mul_one]⟩
  cases x with
  | scalar c =>
    cases y with
    | scalar d => exact absurd h (by simp [divide])
    | mv B =>
      obtain ⟨I, hI, rfl⟩ := Option.map_eq_some_iff.mp h
      exact key hx hy hI
  | mv A =>
    cases y with
    | scalar d =>
      have h' : A.divScalar d = some q := h
      rw [Mv.divScalar] at h'
      split_ifs at h' with hd
      cases h'
      have hm := smul_spec (g := g) d⁻¹ hx
      refine ⟨hm.1, ?_⟩
      have hsc := (scalarMv_spec (g := g) (n := n) d).2.2
      show (A.smul d⁻¹).val g * (Mv.scalarMv d : Mv K n).val g = A.val g
      rw [show (A.smul d⁻¹).val g = _ from hm.2, hsc, ← Algebra.commutes, ← Algebra.smul_def, smul_smul,
        mul_inv_cancel₀ hd, one_smul]
      rfl
    | mv B =>
      obtain ⟨I, hI, rfl⟩ := Option.map_eq_some_iff.mp h
      exact key hx hy hI

end field

example : (divide Ex.gN (.scalar 3) (.mv (Mv.vector ![1, 2, 1]))).isSome = true := by decide +kernel
example : (divide Ex.gN (.mv Ex.A) (.scalar 3)).isSome = true := by decide +kernel
example : (BinOp.left.apply Ex.gN (.scalar 3) (.mv Ex.A)) = some (Ex.A.smul 3) := by decide +kernel

end GA
