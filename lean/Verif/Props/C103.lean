import Verif.Props.C18
import Verif.Proofs.InnerLaws

/-!
# C103: laws that relate the products

`A.wedge g B`, `A.left g B`, `A.right g B`, `A.dot g B`, `A.mul g B` model `A ^ B`, `A < B`, `A > B`, `A | B`, `A * B`
for every symmetric metric tensor, degenerate ones included, and `A.eq g B` models `A == B`.
-/

set_option linter.unusedSectionVars false
set_option maxRecDepth 10000

namespace GA
variable {n : ℕ} {R : Type*} [CommRing R] [DecidableEq R] [Invertible (2 : R)]
  {g : Matrix (Fin n) (Fin n) R}

/-- C103: `(A ^ B) < C == A < (B < C)`, `A > (B ^ C) == (A > B) > C` and `(A < B) > C == A < (B > C)`. -/
theorem C103_contractions (hs : g.IsSymm) {A B C : Mv R n} (hA : A.WF g) (hB : B.WF g) (hC : C.WF g) :
    ((A.wedge g B).left g C).eq g (A.left g (B.left g C)) = true ∧
    (A.right g (B.wedge g C)).eq g ((A.right g B).right g C) = true ∧
    ((A.left g B).right g C).eq g (A.left g (B.right g C)) = true := by
  have hAB := wedge_spec' hs hA hB
  have hBC := wedge_spec' hs hB hC
  have l1 := left_spec hs hB hC
  have l2 := left_spec hs hA hB
  have r1 := right_spec hs hA hB
  have r2 := right_spec hs hB hC
  refine ⟨?_, ?_, ?_⟩
  · have h1 := left_spec hs hAB.1 hC
    have h2 := left_spec hs hA l1.1
    rw [eq_spec hs h1.1 h2.1, h1.2, h2.2, hAB.2, l1.2, Spec.lc_wedge]
  · have h1 := right_spec hs hA hBC.1
    have h2 := right_spec hs r1.1 hC
    rw [eq_spec hs h1.1 h2.1, h1.2, h2.2, hBC.2, r1.2, Spec.rc_wedge]
  · have h1 := right_spec hs l2.1 hC
    have h2 := left_spec hs hA r2.1
    rw [eq_spec hs h1.1 h2.1, h1.2, h2.2, l2.2, r2.2, Spec.lc_rc]

/-- C103: reversion exchanges the operands of `^` and `|`, and exchanges the contractions. -/
theorem C103_reverse (hs : g.IsSymm) {A B : Mv R n} (hA : A.WF g) (hB : B.WF g) :
    ((A.wedge g B).rev g).eq g ((B.rev g).wedge g (A.rev g)) = true ∧
    ((A.dot g B).rev g).eq g ((B.rev g).dot g (A.rev g)) = true ∧
    ((A.left g B).rev g).eq g ((B.rev g).right g (A.rev g)) = true ∧
    ((A.right g B).rev g).eq g ((B.rev g).left g (A.rev g)) = true := by
  have rA := rev_spec hs hA
  have rB := rev_spec hs hB
  refine ⟨?_, ?_, ?_, ?_⟩
  · have h1 := wedge_spec' hs hA hB
    have h2 := rev_spec hs h1.1
    have h3 := wedge_spec' hs rB.1 rA.1
    rw [eq_spec hs h2.1 h3.1, h2.2.2, h3.2, h1.2, rA.2.2, rB.2.2, Spec.reverse_wedge]
  · have h1 := dot_spec hs hA hB
    have h2 := rev_spec hs h1.1
    have h3 := dot_spec hs rB.1 rA.1
    rw [eq_spec hs h2.1 h3.1, h2.2.2, h3.2, h1.2, rA.2.2, rB.2.2, Spec.reverse_dot]
  · have h1 := left_spec hs hA hB
    have h2 := rev_spec hs h1.1
    have h3 := right_spec hs rB.1 rA.1
    rw [eq_spec hs h2.1 h3.1, h2.2.2, h3.2, h1.2, rA.2.2, rB.2.2, Spec.reverse_lc]
  · have h1 := right_spec hs hA hB
    have h2 := rev_spec hs h1.1
    have h3 := left_spec hs rB.1 rA.1
    rw [eq_spec hs h2.1 h3.1, h2.2.2, h3.2, h1.2, rA.2.2, rB.2.2, Spec.reverse_rc]

/-- C103: for a vector `a`, `a * B == (a < B) + (a ^ B)` and `B * a == (B > a) + (B ^ a)`, and contracting or
wedging twice with it gives zero. -/
theorem C103_vector (hs : g.IsSymm) {a B : Mv R n} (ha : a.WF g) (h1 : Spec.Homogeneous g 1 (a.val g))
    (hB : B.WF g) :
    (a.mul g B).eq g ((a.left g B).add g (a.wedge g B)) = true ∧
    (B.mul g a).eq g ((B.right g a).add g (B.wedge g a)) = true ∧
    (a.left g (a.left g B)).eq g Mv.zero = true ∧ (a.wedge g (a.wedge g B)).eq g Mv.zero = true := by
  obtain ⟨v, hv⟩ := Spec.homogeneous_one h1
  have m1 := mul_spec' hs ha hB
  have m2 := mul_spec' hs hB ha
  have l := left_spec hs ha hB
  have r := right_spec hs hB ha
  have w1 := wedge_spec' hs ha hB
  have w2 := wedge_spec' hs hB ha
  have s1 := add_spec hs l.1 w1.1
  have s2 := add_spec hs r.1 w2.1
  have ll := left_spec hs ha l.1
  have ww := wedge_spec' hs ha w1.1
  refine ⟨?_, ?_, ?_, ?_⟩
  · rw [eq_spec hs m1.1 s1.1, m1.2, s1.2, l.2, w1.2, hv, Spec.lc_vec, Spec.vec_mul]
  · rw [eq_spec hs m2.1 s2.1, m2.2, s2.2, r.2, w2.2, hv, Spec.mul_vec']
  · rw [eq_spec hs ll.1 zero_spec.1, zero_spec.2, ll.2, l.2, hv, Spec.lc_vec, Spec.lc_vec, Spec.con_con]
  · rw [eq_spec hs ww.1 zero_spec.1, zero_spec.2, ww.2, w1.2, hv, ← Spec.wedge_assoc, Spec.vec_wedge_self,
      Spec.zero_wedge]

/-- C103: the product rule of contraction by a vector `a`, for `*` and for `^`:
`a < (B * C) == (a < B) * C + B.g_invol() * (a < C)`. -/
theorem C103_antiderivation (hs : g.IsSymm) {a B C : Mv R n} (ha : a.WF g) (h1 : Spec.Homogeneous g 1 (a.val g))
    (hB : B.WF g) (hb : B.isBladeRep = true ∨ isOrtho g = true) (hC : C.WF g) :
    (a.left g (B.mul g C)).eq g (((a.left g B).mul g C).add g ((B.gInvol g).mul g (a.left g C))) = true ∧
    (a.left g (B.wedge g C)).eq g (((a.left g B).wedge g C).add g ((B.gInvol g).wedge g (a.left g C))) = true := by
  obtain ⟨v, hv⟩ := Spec.homogeneous_one h1
  have lB := left_spec hs ha hB
  have lC := left_spec hs ha hC
  have i := gInvol_spec hs hB hb
  constructor
  · have m := mul_spec' hs hB hC
    have x := left_spec hs ha m.1
    have y1 := mul_spec' hs lB.1 hC
    have y2 := mul_spec' hs i.1 lC.1
    have y := add_spec hs y1.1 y2.1
    rw [eq_spec hs x.1 y.1, x.2, m.2, y.2, y1.2, y2.2, lB.2, lC.2, i.2, hv, Spec.lc_vec, Spec.lc_vec, Spec.lc_vec,
      Spec.con_mul]
  · have m := wedge_spec' hs hB hC
    have x := left_spec hs ha m.1
    have y1 := wedge_spec' hs lB.1 hC
    have y2 := wedge_spec' hs i.1 lC.1
    have y := add_spec hs y1.1 y2.1
    rw [eq_spec hs x.1 y.1, x.2, m.2, y.2, y1.2, y2.2, lB.2, lC.2, i.2, hv, Spec.lc_vec, Spec.lc_vec, Spec.lc_vec,
      Spec.con_wedge]

/-- C103: multiplication by the product `E` of all basis vectors exchanges wedge product and contraction, also if
the metric tensor is degenerate. -/
theorem C103_pseudoscalar (hs : g.IsSymm) {A B : Mv R n} (hA : A.WF g) (hB : B.WF g) :
    ((A.wedge g B).mul g pseudoE).eq g (A.left g (B.mul g pseudoE)) = true ∧
    ((A.left g B).mul g pseudoE).eq g (A.wedge g (B.mul g pseudoE)) = true ∧
    ((pseudoE : Mv R n).mul g (A.wedge g B)).eq g (((pseudoE : Mv R n).mul g A).right g B) = true ∧
    ((pseudoE : Mv R n).mul g (A.right g B)).eq g (((pseudoE : Mv R n).mul g A).wedge g B) = true := by
  have hE := pseudoE_rep (g := g)
  have w := wedge_spec' hs hA hB
  have l := left_spec hs hA hB
  have r := right_spec hs hA hB
  have bE := mul_spec' hs hB hE.wf
  have eA := mul_spec' hs hE.wf hA
  refine ⟨?_, ?_, ?_, ?_⟩
  · have h1 := mul_spec' hs w.1 hE.wf
    have h2 := left_spec hs hA bE.1
    rw [eq_spec hs h1.1 h2.1, h1.2, h2.2, w.2, bE.2, hE.val, Spec.wedge_mul_pseudo_lc]
  · have h1 := mul_spec' hs l.1 hE.wf
    have h2 := wedge_spec' hs hA bE.1
    rw [eq_spec hs h1.1 h2.1, h1.2, h2.2, l.2, bE.2, hE.val, Spec.lc_mul_pseudo]
  · have h1 := mul_spec' hs hE.wf w.1
    have h2 := right_spec hs eA.1 hB
    rw [eq_spec hs h1.1 h2.1, h1.2, h2.2, w.2, eA.2, hE.val, Spec.pseudo_mul_wedge]
  · have h1 := mul_spec' hs hE.wf r.1
    have h2 := wedge_spec' hs eA.1 hB
    rw [eq_spec hs h1.1 h2.1, h1.2, h2.2, r.2, eA.2, hE.val, Spec.pseudo_mul_rc]

/-- C103: `(A * B).scalar() == (B * A).scalar()` and `((A ^ B) * C).scalar() == (A * (B < C)).scalar()`. -/
theorem C103_scalar (hs : g.IsSymm) {A B C : Mv R n} (hA : A.WF g) (hB : B.WF g) (hC : C.WF g)
    (hA' : A.isBladeRep = true) (hB' : B.isBladeRep = true) (hC' : C.isBladeRep = true) :
    (A.mul g B).scalar = (B.mul g A).scalar ∧
    ((A.wedge g B).mul g C).scalar = (A.mul g (B.left g C)).scalar := by
  have rA := Rep.of_wf hA hA'
  have rB := Rep.of_wf hB hB'
  have rC := Rep.of_wf hC hC'
  rcases subsingleton_or_nontrivial R with h | h
  · exact ⟨Subsingleton.elim _ _, Subsingleton.elim _ _⟩
  constructor
  · refine algebraMap_inj (g := g) ?_
    rw [(Rep.mul hs rA rB).scalar, (Rep.mul hs rB rA).scalar, Spec.grade_zero_mul_comm]
  · refine algebraMap_inj (g := g) ?_
    rw [(Rep.mul hs (Rep.wedge hs rA rB) rC).scalar, (Rep.mul hs rA (Rep.left hs rB rC)).scalar,
      Spec.grade_zero_wedge_mul]

/-- `v_1 ^ v_2 ^ ... ^ v_k`. -/
def vecWedge (g : Matrix (Fin n) (Fin n) R) : List (Fin n → R) → Mv R n
  | [] => Mv.scalarMv 1
  | v :: L => (Mv.vector v).wedge g (vecWedge g L)

theorem vecWedge_rep (hs : g.IsSymm) (L : List (Fin n → R)) : Rep g (vecWedge g L) (Spec.wedgeL g L) := by
  induction L with
  | nil => exact (Rep.scalarMv (g := g) 1).congr (by rw [map_one, Spec.wedgeL_nil])
  | cons v L ih => exact (Rep.wedge hs (Rep.vector v) ih).congr (by rw [Spec.wedgeL_cons])

/-- C103: the contraction of a blade on the reverse of a blade of the same grade is the determinant of the inner
products of their vectors, and so is the scalar part of their product. -/
theorem C103_gram (hs : g.IsSymm) {k : ℕ} (v w : Fin k → Fin n → R) :
    ((vecWedge g (List.ofFn v)).left g ((vecWedge g (List.ofFn w)).rev g)).eq g
      (Mv.scalarMv (Matrix.of fun i j => ∑ a, ∑ b, g a b * v i a * w j b).det) = true ∧
    ((vecWedge g (List.ofFn v)).mul g ((vecWedge g (List.ofFn w)).rev g)).scalar =
      (Matrix.of fun i j => ∑ a, ∑ b, g a b * v i a * w j b).det := by
  have hv := vecWedge_rep hs (List.ofFn v)
  have hw := vecWedge_rep hs (List.ofFn w)
  have hr := Rep.rev hs hw
  have hl := Rep.left hs hv hr
  have key : Spec.leftContraction g (Spec.wedgeL g (List.ofFn v)) (CliffordAlgebra.reverse (Spec.wedgeL g (List.ofFn w))) =
      algebraMap R _ (Matrix.of fun i j => ∑ a, ∑ b, g a b * v i a * w j b).det := by
    rw [Spec.lc_wedgeL, Spec.reverse_wedgeL, Spec.conL_smul, Spec.conL_wedgeL, List.length_ofFn, Algebra.smul_def,
      ← map_mul, ← mul_assoc, ← mul_pow, neg_one_mul, neg_neg, one_pow, one_mul]
    congr 3
    funext i j
    exact Spec.associated_vec hs _ _
  constructor
  · rw [hl.eq_iff hs (Rep.scalarMv _), key]
  · rcases subsingleton_or_nontrivial R with h | h
    · exact Subsingleton.elim _ _
    refine algebraMap_inj (g := g) ?_
    rw [(Rep.mul hs hv hr).scalar, ← Spec.grade_zero_lc, key, grade_zero_algebraMap]

section field
variable {K : Type*} [Field K] [DecidableEq K] [Invertible (2 : K)] {g : Matrix (Fin n) (Fin n) K}

/-- C103: in the dual modes that multiply by the pseudoscalar on the right, `(A ^ B).dual() == A < B.dual()` and
`(A < B).dual() == A ^ B.dual()`; in those that multiply on the left, `(A ^ B).dual() == A.dual() > B` and
`(A > B).dual() == A.dual() ^ B`. -/
theorem C103_dual (hs : g.IsSymm) {sqrt : K → K} {plus : Bool} {i iInv : Mv K n}
    (hI : normI g sqrt plus = some (i, iInv))
    (hsq : sqrt (if plus then eSq g else -eSq g) * sqrt (if plus then eSq g else -eSq g) =
      if plus then eSq g else -eSq g)
    {mode : String} (hm : mode ∈ dualModeLst) {A B : Mv K n} (hA : A.WF g) (hB : B.WF g) :
    (mode ∈ ["I+", "I-", "Iinv+", "Iinv-"] →
      ((A.wedge g B).dual g i iInv mode).eq g (A.left g (B.dual g i iInv mode)) = true ∧
      ((A.left g B).dual g i iInv mode).eq g (A.wedge g (B.dual g i iInv mode)) = true) ∧
    (mode ∈ ["+I", "-I", "+Iinv", "-Iinv"] →
      ((A.wedge g B).dual g i iInv mode).eq g ((A.dual g i iInv mode).right g B) = true ∧
      ((A.right g B).dual g i iInv mode).eq g ((A.dual g i iInv mode).wedge g B) = true) := by
  obtain ⟨c, hi, hj, -⟩ := normI_spec hs hI hsq
  have hR : mode ∈ ["I+", "I-", "Iinv+", "Iinv-"] → ∃ k : K, ∀ X : Mv K n, X.WF g →
      (X.dual g i iInv mode).WF g ∧ (X.dual g i iInv mode).val g = k • (X.val g * Spec.pseudo g) := by
    have : ∀ {I : Mv K n} {c : K} (s : K), Rep g I (c • Spec.pseudo g) → ∀ X : Mv K n, X.WF g →
        ((X.smul s).mul g I).WF g ∧ ((X.smul s).mul g I).val g = (s * c) • (X.val g * Spec.pseudo g) := by
      intro I c s hI X hX
      have h1 := smul_spec s hX
      have h2 := mul_spec' hs h1.1 hI.wf
      exact ⟨h2.1, by rw [h2.2, h1.2, hI.val, smul_mul_smul_comm]⟩
    intro h
    simp only [List.mem_cons, List.not_mem_nil, or_false] at h
    rcases h with rfl | rfl | rfl | rfl
    exacts [⟨_, this 1 hi⟩, ⟨_, this (-1) hi⟩, ⟨_, this 1 hj⟩, ⟨_, this (-1) hj⟩]
  have hL : mode ∈ ["+I", "-I", "+Iinv", "-Iinv"] → ∃ k : K, ∀ X : Mv K n, X.WF g →
      (X.dual g i iInv mode).WF g ∧ (X.dual g i iInv mode).val g = k • (Spec.pseudo g * X.val g) := by
    have : ∀ {I : Mv K n} {c : K} (s : K), Rep g I (c • Spec.pseudo g) → ∀ X : Mv K n, X.WF g →
        ((I.smul s).mul g X).WF g ∧ ((I.smul s).mul g X).val g = (s * c) • (Spec.pseudo g * X.val g) := by
      intro I c s hI X hX
      have h1 := smul_spec s hI.wf
      have h2 := mul_spec' hs h1.1 hX
      exact ⟨h2.1, by rw [h2.2, h1.2, hI.val, smul_smul, smul_mul_assoc]⟩
    intro h
    simp only [List.mem_cons, List.not_mem_nil, or_false] at h
    rcases h with rfl | rfl | rfl | rfl
    exacts [⟨_, this 1 hi⟩, ⟨_, this (-1) hi⟩, ⟨_, this 1 hj⟩, ⟨_, this (-1) hj⟩]
  have w := wedge_spec' hs hA hB
  have l := left_spec hs hA hB
  have r := right_spec hs hA hB
  constructor
  · intro h
    obtain ⟨k, hk⟩ := hR h
    constructor
    · have h1 := hk _ w.1
      have h2 := left_spec hs hA (hk _ hB).1
      rw [eq_spec hs h1.1 h2.1, h1.2, h2.2, w.2, (hk _ hB).2, Spec.lc_smul_right, Spec.wedge_mul_pseudo_lc]
    · have h1 := hk _ l.1
      have h2 := wedge_spec' hs hA (hk _ hB).1
      rw [eq_spec hs h1.1 h2.1, h1.2, h2.2, l.2, (hk _ hB).2, Spec.wedge_smul, Spec.lc_mul_pseudo]
  · intro h
    obtain ⟨k, hk⟩ := hL h
    constructor
    · have h1 := hk _ w.1
      have h2 := right_spec hs (hk _ hA).1 hB
      rw [eq_spec hs h1.1 h2.1, h1.2, h2.2, w.2, (hk _ hA).2, Spec.pseudo_mul_wedge, Spec.rc_eq, Spec.rc_eq, map_smul,
        Spec.lc_smul_right, map_smul]
    · have h1 := hk _ r.1
      have h2 := wedge_spec' hs (hk _ hA).1 hB
      rw [eq_spec hs h1.1 h2.1, h1.2, h2.2, r.2, (hk _ hA).2, Spec.smul_wedge, Spec.pseudo_mul_rc]

end field

namespace Ex

example : isOrtho gN = false ∧ ((A.wedge gN B).left gN C).eq gN (A.left gN (B.left gN C)) = true ∧
    ((A.left gN B).right gN C).eq gN (A.left gN (B.right gN C)) = true ∧ (A.left gN (B.left gN C)).isZero = false :=
  ⟨by decide +kernel, (C103_contractions gN_symm (A_wf gN) (wf_of _ (by decide)) (wf_of _ (by decide))).1,
    (C103_contractions gN_symm (A_wf gN) (wf_of _ (by decide)) (wf_of _ (by decide))).2.2, by decide +kernel⟩

/-- The Gram determinant of two pairs of vectors, which is not zero. -/
example : ((vecWedge gN [![1, 2, 0], ![0, 1, 1]]).mul gN ((vecWedge gN [![1, 0, 1], ![2, 1, 0]]).rev gN)).scalar =
    (Matrix.of fun i j => ∑ a, ∑ b, gN a b * (![![1, 2, 0], ![0, 1, 1]] : Fin 2 → Fin 3 → ℚ) i a *
      (![![1, 0, 1], ![2, 1, 0]] : Fin 2 → Fin 3 → ℚ) j b).det ∧
    ((vecWedge gN [![1, 2, 0], ![0, 1, 1]]).mul gN ((vecWedge gN [![1, 0, 1], ![2, 1, 0]]).rev gN)).scalar ≠ 0 :=
  ⟨(C103_gram gN_symm (k := 2) ![![1, 2, 0], ![0, 1, 1]] ![![1, 0, 1], ![2, 1, 0]]).2, by decide +kernel⟩

/-- `(A ^ B).dual() == A < B.dual()` in mode `I+`, with a multivector that is not zero. -/
example : ((A.wedge gN B).dual gN (Mv.ofExpr [(1/3, .blade [0, 1, 2])]) (Mv.ofExpr [(1/3, .blade [0, 1, 2])]) "I+").eq gN
      (A.left gN (B.dual gN (Mv.ofExpr [(1/3, .blade [0, 1, 2])]) (Mv.ofExpr [(1/3, .blade [0, 1, 2])]) "I+")) = true ∧
    (A.wedge gN B).isZero = false :=
  ⟨((C103_dual gN_symm normI_gN sqrt9_ok (mode := "I+") (by decide) (A_wf gN) (B_wf gN)).1 (by decide)).1,
    by decide +kernel⟩

end Ex

end GA
