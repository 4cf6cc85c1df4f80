import Verif.Proofs.SpecLaws
import Mathlib.LinearAlgebra.CliffordAlgebra.Conjugation

/-! Representation flags of results; multivectors in blade representation with a known meaning. -/

set_option linter.unusedSectionVars false

namespace GA
variable {n : ℕ} {R : Type*} [CommRing R] [DecidableEq R] [Invertible (2 : R)]
  {g : Matrix (Fin n) (Fin n) R}

/-- `*` returns a multivector in blade representation if `B` is in blade representation. -/
theorem mul_blade_flag (hs : g.IsSymm) {A B : Mv R n} (hA : A.WF g) (hB : B.WF g)
    (hB' : B.isBladeRep = true) : (A.mul g B).isBladeRep = true := by
  have hbr : ∀ E : Expr R n, (Mv.bladeRep g ⟨E, false⟩).isBladeRep = true := by
    intro E; rw [Mv.bladeRep, if_neg (by simp)]
  rw [Mv.mul]
  split_ifs with h
  · rw [Mv.scalarTimes]
    obtain ⟨c, hc⟩ := (isScalar_iff hs hA).mp h
    have h1 : ∀ t ∈ A.obj, t.2 = .blade [] := len_zero_of_scalar hA fun r hr => by
      rw [hc, grade_algebraMap g c hr]
    refine ofExpr_flag.mpr (AllSyms.expand (AllSyms.expand (allSyms_flatMap fun t ht => ?_)))
    rw [if_pos (h1 t ht)]
    exact (hB.valid (Or.inl hB')).syms.smulE _
  all_goals exact hbr _

theorem sub_blade_flag (hs : g.IsSymm) {A B : Mv R n} (hA : A.WF g) (hB : B.WF g)
    (hA' : A.isBladeRep = true) : (A.sub g B).isBladeRep = true := by
  rw [Mv.sub, Mv.arith]
  split_ifs with h
  · exact (ofExpr_valid (g := g) (valid_subE (hA.valid (Or.inl hA'))
      (hB.valid (Or.inl (h.symm.trans hA'))))).2
  · exact (ofExpr_valid (g := g) (valid_subE (hA.valid (Or.inl hA')) (bladeRep_valid hs hB))).2

theorem add_blade_flag (hs : g.IsSymm) {A B : Mv R n} (hA : A.WF g) (hB : B.WF g)
    (hA' : A.isBladeRep = true) : (A.add g B).isBladeRep = true := by
  rw [Mv.add, Mv.arith]
  split_ifs with h
  · exact (ofExpr_valid (g := g) (valid_addE (hA.valid (Or.inl hA'))
      (hB.valid (Or.inl (h.symm.trans hA'))))).2
  · exact (ofExpr_valid (g := g) (valid_addE (hA.valid (Or.inl hA')) (bladeRep_valid hs hB))).2

theorem gInvol_blade_flag (hs : g.IsSymm) {A : Mv R n} (hA : A.WF g) (hA' : A.isBladeRep = true) :
    (A.gInvol g).isBladeRep = true :=
  sub_blade_flag hs (even_spec hA (Or.inl hA')).1 (odd_spec hA (Or.inl hA')).1
    (even_spec hA (Or.inl hA')).2.1


/-- `A` is a well-formed multivector in blade representation with the meaning `x`. -/
def Rep (g : Matrix (Fin n) (Fin n) R) (A : Mv R n) (x : Spec.Cl g) : Prop :=
  A.WF g ∧ A.isBladeRep = true ∧ A.val g = x

namespace Rep
variable {A B : Mv R n} {x y : Spec.Cl g}

theorem of_wf (hA : A.WF g) (hb : A.isBladeRep = true) : Rep g A (A.val g) := ⟨hA, hb, rfl⟩
theorem wf (h : Rep g A x) : A.WF g := h.1
theorem flag (h : Rep g A x) : A.isBladeRep = true := h.2.1
theorem val (h : Rep g A x) : A.val g = x := h.2.2
theorem valid (h : Rep g A x) : Valid A.obj := h.wf.valid (Or.inl h.flag)
theorem den (h : Rep g A x) : GA.den g A.obj = x := h.val
theorem congr (h : Rep g A x) (e : x = y) : Rep g A y := e ▸ h

theorem ofExpr {E : Expr R n} (hE : Valid E) : Rep g (Mv.ofExpr E) (GA.den g E) :=
  ⟨(ofExpr_valid hE).1, (ofExpr_valid (g := g) hE).2, ofExpr_val E⟩
theorem scalarMv (c : R) : Rep g (Mv.scalarMv c) (algebraMap R _ c) := scalarMv_spec c
theorem vector (v : Fin n → R) : Rep g (Mv.vector v) (Spec.vec g v) := vector_spec v
theorem zero : Rep g Mv.zero 0 := ⟨zero_spec.1, rfl, zero_spec.2⟩

theorem bladeRep (hs : g.IsSymm) (hA : A.WF g) : Rep g (A.bladeRep g) (A.val g) := bladeRep_spec hs hA

theorem neg (h : Rep g A x) : Rep g A.neg (-x) :=
  ⟨(neg_spec h.wf).1, (ofExpr_valid (g := g) (valid_negE h.valid)).2, by rw [(neg_spec h.wf).2, h.val]⟩
theorem smul (c : R) (h : Rep g A x) : Rep g (A.smul c) (c • x) :=
  ⟨(smul_spec c h.wf).1, (ofExpr_valid (g := g) (valid_smulE c h.valid).expand).2,
    by rw [(smul_spec c h.wf).2, h.val]⟩
theorem addScalar (h : Rep g A x) (c : R) : Rep g (A.addScalar c) (x + algebraMap R _ c) :=
  ⟨(addScalar_spec h.wf c).1, (ofExpr_valid (g := g) (valid_addE h.valid (valid_scalarE c))).2,
    by rw [(addScalar_spec h.wf c).2, h.val]⟩
theorem scalarSub (h : Rep g A x) (c : R) : Rep g (Mv.scalarSub c A) (algebraMap R _ c - x) :=
  ⟨(scalarSub_spec h.wf c).1, (ofExpr_valid (g := g) (valid_subE (valid_scalarE c) h.valid)).2,
    by rw [(scalarSub_spec h.wf c).2, h.val]⟩
theorem getGrade (h : Rep g A x) (r : ℕ) : Rep g (A.getGrade r) (Spec.grade g r x) := by
  have := getGrade_spec h.wf (Or.inl h.flag) r
  rwa [h.val] at this

variable (hs : g.IsSymm)
include hs
theorem add (h : Rep g A x) (h' : Rep g B y) : Rep g (A.add g B) (x + y) :=
  ⟨(add_spec hs h.wf h'.wf).1, add_blade_flag hs h.wf h'.wf h.flag,
    by rw [(add_spec hs h.wf h'.wf).2, h.val, h'.val]⟩
theorem sub (h : Rep g A x) (h' : Rep g B y) : Rep g (A.sub g B) (x - y) :=
  ⟨(sub_spec hs h.wf h'.wf).1, sub_blade_flag hs h.wf h'.wf h.flag,
    by rw [(sub_spec hs h.wf h'.wf).2, h.val, h'.val]⟩
theorem mul (h : Rep g A x) (h' : Rep g B y) : Rep g (A.mul g B) (x * y) :=
  ⟨(mul_spec' hs h.wf h'.wf).1, mul_blade_flag hs h.wf h'.wf h'.flag,
    by rw [(mul_spec' hs h.wf h'.wf).2, h.val, h'.val]⟩
theorem wedge (h : Rep g A x) (h' : Rep g B y) : Rep g (A.wedge g B) (Spec.wedge g x y) := by
  have h1 := wedge_spec' hs h.wf h'.wf
  refine ⟨h1.1, ?_, by rw [h1.2, h.val, h'.val]⟩
  rw [Mv.wedge]
  split_ifs with h2
  · exact mul_blade_flag hs h.wf h'.wf h'.flag
  · exact (ofExpr_valid (g := g) (wedge_valid (bladeRep_valid hs h.wf) (bladeRep_valid hs h'.wf))).2
theorem dot (h : Rep g A x) (h' : Rep g B y) : Rep g (A.dot g B) (Spec.hestenesDot g x y) := by
  have h1 := dot_spec hs h.wf h'.wf
  rw [h.val, h'.val] at h1
  exact ⟨h1.1, (ofExpr_valid (g := g)
    (hestenesDot_spec g hs (bladeRep_valid hs h.wf) (bladeRep_valid hs h'.wf)).1).2, h1.2⟩
theorem left (h : Rep g A x) (h' : Rep g B y) : Rep g (A.left g B) (Spec.leftContraction g x y) := by
  have h1 := left_spec hs h.wf h'.wf
  rw [h.val, h'.val] at h1
  exact ⟨h1.1, (ofExpr_valid (g := g)
    (leftContract_spec g hs (bladeRep_valid hs h.wf) (bladeRep_valid hs h'.wf)).1).2, h1.2⟩
theorem right (h : Rep g A x) (h' : Rep g B y) : Rep g (A.right g B) (Spec.rightContraction g x y) := by
  have h1 := right_spec hs h.wf h'.wf
  rw [h.val, h'.val] at h1
  exact ⟨h1.1, (ofExpr_valid (g := g)
    (rightContract_spec g hs (bladeRep_valid hs h.wf) (bladeRep_valid hs h'.wf)).1).2, h1.2⟩
theorem pow (h : Rep g A x) (k : ℕ) : Rep g (A.pow g k) (x ^ k) := by
  induction k with
  | zero => exact (Rep.scalarMv 1).congr (by simp)
  | succ k ih => exact (Rep.mul hs ih h).congr (pow_succ x k).symm
theorem rev (h : Rep g A x) : Rep g (A.rev g) (CliffordAlgebra.reverse x) := by
  have := rev_spec hs h.wf; rwa [h.val] at this
theorem gInvol (h : Rep g A x) : Rep g (A.gInvol g) (CliffordAlgebra.involute x) :=
  ⟨(gInvol_spec hs h.wf (Or.inl h.flag)).1, gInvol_blade_flag hs h.wf h.flag,
    by rw [(gInvol_spec hs h.wf (Or.inl h.flag)).2, h.val]⟩
theorem ccon (h : Rep g A x) :
    Rep g (A.ccon g) (CliffordAlgebra.reverse (CliffordAlgebra.involute x)) := by
  have := ccon_spec hs h.wf (Or.inl h.flag); rwa [h.val] at this
theorem eq_iff (h : Rep g A x) (h' : Rep g B y) : A.eq g B = true ↔ x = y := by
  rw [eq_spec hs h.wf h'.wf, h.val, h'.val]
omit hs
theorem scalar (h : Rep g A x) : algebraMap R _ A.scalar = Spec.grade g 0 x := by
  have := scalar_spec h.wf (Or.inl h.flag); rw [h.val] at this; exact this
theorem scalar_of [Nontrivial R] (h : Rep g A x) {c : R}
    (hc : Spec.grade g 0 x = algebraMap R _ c) : A.scalar = c :=
  algebraMap_inj g (by rw [h.scalar, hc])
end Rep

end GA
