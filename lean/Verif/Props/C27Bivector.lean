import Verif.Proofs.Dop
import Verif.Proofs.InnerLaws
import Verif.Proofs.GradeBound
import Verif.Props.C23

/-!
# C27: the commutator with a bivector

`B.comm g A` models `B >> A`, `Mv.mulOp g op` the products `*`, `^`, `|`, `<`, `>`.
-/

set_option linter.unusedSectionVars false
set_option maxRecDepth 10000

namespace Spec
open CliffordAlgebra
variable {n : ℕ} {R : Type*} [CommRing R] [Invertible (2 : R)] {g : Matrix (Fin n) (Fin n) R}

/-- For a bivector `b` and a vector `w`, `(b w - w b) / 2 = -(w ⌋ b)`. -/
theorem comm_bivector_vec {b : Cl g} (hb : Homogeneous g 2 b) (w : Fin n → R) :
    (⅟2 : R) • (b * vec g w - vec g w * b) = -con g w b := by
  have h1 : involute b = b := by rw [homogeneous_involute hb]; norm_num
  rw [mul_vec, h1, sub_sub_cancel_left, smul_neg, smul_smul, invOf_mul_self, one_smul]

/-- The commutator with a bivector is the extension, as a derivation, of an antisymmetric map of the vectors. -/
theorem comm_bivector [Nontrivial R] [DecidableEq R] (hs : g.IsSymm) {b : Cl g} (hb : Homogeneous g 2 b) :
    ∃ Γ : Matrix (Fin n) (Fin n) R, Compatible g 0 Γ ∧
      ∀ x : Cl g, (⅟2 : R) • (b * x - x * b) = deriv g 0 Γ x := by
  have hv : ∀ i : Fin n, ∃ v, -con g (Pi.single i 1) b = vec g v := fun i =>
    homogeneous_one (by
      have := (homogeneous_con (k := 1) (Pi.single i 1) hb).smul (-1)
      rwa [neg_one_smul] at this)
  choose v hv using hv
  let Γ : Matrix (Fin n) (Fin n) R := fun k i => v i k
  have hΓ : ∀ w : Fin n → R, vec g (Γ.mulVec w) = -con g w b := by
    intro w
    have e1 : Γ.mulVec w = ∑ i, w i • v i := by
      funext k
      simp only [Matrix.mulVec, dotProduct, Finset.sum_apply, Pi.smul_apply, smul_eq_mul]
      exact Finset.sum_congr rfl fun i _ => mul_comm _ _
    have e2 : w = ∑ i, w i • (Pi.single i 1 : Fin n → R) := by
      funext k
      simp [Finset.sum_apply, Pi.single_apply]
    rw [e1, vec, map_sum]
    conv_rhs => rw [e2]
    have e3 : con g (∑ i, w i • (Pi.single i 1 : Fin n → R)) b = ∑ i, w i • con g (Pi.single i 1) b := by
      simp only [con, map_sum, map_smul, LinearMap.sum_apply, LinearMap.smul_apply]
    rw [e3, ← Finset.sum_neg_distrib]
    refine Finset.sum_congr rfl fun i _ => ?_
    rw [map_smul, ← smul_neg, hv]
    rfl
  have hip : ∀ i j, ip g (v i) (Pi.single j 1) = ∑ k, Γ k i * g k j := by
    intro i j
    rw [ip_dot hs, dotProduct]
    refine Finset.sum_congr rfl fun k _ => ?_
    simp [Γ, Matrix.mulVec_single]
  have hcomp : Compatible g 0 Γ := by
    intro i j
    have e1 := hip i j
    have e2 : ip g (v j) (Pi.single i 1) = ∑ k, g i k * Γ k j := by
      rw [hip]
      refine Finset.sum_congr rfl fun k _ => ?_
      rw [mul_comm, ← hs.apply]
    rw [← e1, ← e2, Derivation.zero_apply]
    apply GA.algebraMap_inj (g := g)
    have c1 : ∀ a b : Fin n → R, algebraMap R (Cl g) (ip g a b) = con g b (vec g a) := by
      intro a b
      rw [con_vec, ← ip, ip_comm]
    rw [map_zero, map_add, c1, c1, ← hv, ← hv, map_neg, map_neg, con_comm]
    abel
  refine ⟨Γ, hcomp, fun x => ?_⟩
  induction x using CliffordAlgebra.left_induction with
  | algebraMap c => rw [Algebra.commutes, sub_self, smul_zero, deriv_algebraMap, Derivation.zero_apply, map_zero]
  | add x y hx hy => rw [deriv_add, ← hx, ← hy, mul_add, add_mul, ← smul_add]; congr 1; abel
  | ι_mul x w hx =>
    change _ = deriv g 0 Γ (vec g w * x)
    rw [deriv_mul hs hcomp, deriv_vec, ← hx]
    have e : dvec 0 Γ w = Γ.mulVec w := by funext k; simp [dvec, Matrix.mulVec, dotProduct]
    rw [e, hΓ, ← comm_bivector_vec hb, smul_mul_assoc, mul_smul_comm, ← smul_add]
    congr 1
    change b * (vec g w * x) - vec g w * x * b = _
    noncomm_ring

end Spec

namespace GA
variable {n : ℕ} {K : Type*} [Field K] [DecidableEq K] [Invertible (2 : K)]
  {g : Matrix (Fin n) (Fin n) K}

theorem Rep.commProd (hs : g.IsSymm) {A B : Mv K n} {x y : Spec.Cl g} (hA : Rep g A x) (hB : Rep g B y) :
    Rep g (A.comm g B) ((⅟2 : K) • (x * y - y * x)) :=
  (Rep.sub hs (Rep.mul hs hA hB) (Rep.mul hs hB hA)).smul _

theorem homogeneous_of_getGrade (hs : g.IsSymm) {A : Mv K n} {x : Spec.Cl g} (hA : Rep g A x) {r : ℕ}
    (h : (A.getGrade r).eq g A = true) : Spec.Homogeneous g r x := by
  rw [(hA.getGrade r).eq_iff hs hA] at h
  rw [← h]
  exact Spec.homogeneous_grade _ _

/-- C27: the commutator with a bivector keeps the grade, `(B >> A).get_grade(r) == B >> A.get_grade(r)`; so the
bivectors are closed under `>>`, and it maps scalars to zero. -/
theorem C27_bivector_grade (hs : g.IsSymm) {A B : Mv K n} (hB : B.WF g) (hB' : B.isBladeRep = true)
    (h2 : (B.getGrade 2).eq g B = true) (hA : A.WF g) (hA' : A.isBladeRep = true) (r : ℕ) :
    ((B.comm g A).getGrade r).eq g (B.comm g (A.getGrade r)) = true ∧
    (B.comm g (A.getGrade 0)).eq g Mv.zero = true := by
  have rA := Rep.of_wf hA hA'
  have rB := Rep.of_wf hB hB'
  replace h2 := homogeneous_of_getGrade hs rB h2
  obtain ⟨Γ, -, h⟩ := Spec.comm_bivector hs h2
  refine ⟨?_, ?_⟩
  · rw [(Rep.getGrade (Rep.commProd hs rB rA) r).eq_iff hs (Rep.commProd hs rB (Rep.getGrade rA r)), h, h,
      Spec.deriv_grade]
  · rw [(Rep.commProd hs rB (Rep.getGrade rA 0)).eq_iff hs Rep.zero]
    obtain ⟨c, hc⟩ := Spec.homogeneous_zero_iff.mp (Spec.homogeneous_grade (g := g) 0 (A.val g))
    rw [hc, Algebra.commutes, sub_self, smul_zero]

/-- C27: the commutator with a bivector is a derivation of each of the products `*`, `^`, `|`, `<`, `>`:
`B >> (A op C) == ((B >> A) op C) + (A op (B >> C))`. -/
theorem C27_bivector_derivation (hs : g.IsSymm) {A B C : Mv K n} (hB : B.WF g) (hB' : B.isBladeRep = true)
    (h2 : (B.getGrade 2).eq g B = true) (hA : A.WF g) (hA' : A.isBladeRep = true) (hC : C.WF g)
    (hC' : C.isBladeRep = true) (op : ProdOp) :
    (B.comm g (Mv.mulOp g op A C)).eq g
      ((Mv.mulOp g op (B.comm g A) C).add g (Mv.mulOp g op A (B.comm g C))) = true := by
  have rA := Rep.of_wf hA hA'
  have rB := Rep.of_wf hB hB'
  replace h2 := homogeneous_of_getGrade hs rB h2
  have rC := Rep.of_wf hC hC'
  obtain ⟨Γ, hc, h⟩ := Spec.comm_bivector hs h2
  rw [(Rep.commProd hs rB (mulOp_rep hs op rA rC)).eq_iff hs (Rep.add hs (mulOp_rep hs op (Rep.commProd hs rB rA) rC)
    (mulOp_rep hs op rA (Rep.commProd hs rB rC))), h, h, h]
  exact opS_deriv hs hc op _ _

/-- C27: on vectors, `B >> v == -(v < B) == B > v` for a bivector `B`. -/
theorem C27_bivector_vector (hs : g.IsSymm) {B v : Mv K n} (hB : B.WF g) (hB' : B.isBladeRep = true)
    (h2 : (B.getGrade 2).eq g B = true) (hv : v.WF g) (hv' : v.isBladeRep = true)
    (h1 : (v.getGrade 1).eq g v = true) :
    (B.comm g v).eq g (v.left g B).neg = true ∧ (B.comm g v).eq g (B.right g v) = true := by
  have rv := Rep.of_wf hv hv'
  replace h1 := homogeneous_of_getGrade hs rv h1
  have rB := Rep.of_wf hB hB'
  replace h2 := homogeneous_of_getGrade hs rB h2
  obtain ⟨w, hw⟩ := Spec.homogeneous_one h1
  rw [hw] at rv
  refine ⟨?_, ?_⟩
  · rw [(Rep.commProd hs rB rv).eq_iff hs (Rep.left hs rv rB).neg, Spec.comm_bivector_vec h2, Spec.lc_vec]
  · have h3 : CliffordAlgebra.involute (B.val g) = B.val g := by
      rw [Spec.homogeneous_involute h2]; norm_num
    rw [(Rep.commProd hs rB rv).eq_iff hs (Rep.right hs rB rv), Spec.comm_bivector_vec h2, Spec.rc_vec, h3]

/-! ### Concrete case -/

/-- The bivector `2*e_0^e_1 - e_1^e_2` and a mixed multivector in a non-orthogonal algebra. -/
example : (Mv.comm Ex.gN (Mv.ofExpr [(2, .blade [0, 1]), (-1, .blade [1, 2])])
      (Mv.mulOp Ex.gN .inner Ex.A Ex.B)).eq Ex.gN
    ((Mv.mulOp Ex.gN .inner (Mv.comm Ex.gN (Mv.ofExpr [(2, .blade [0, 1]), (-1, .blade [1, 2])]) Ex.A) Ex.B).add
      Ex.gN (Mv.mulOp Ex.gN .inner Ex.A
        (Mv.comm Ex.gN (Mv.ofExpr [(2, .blade [0, 1]), (-1, .blade [1, 2])]) Ex.B))) = true := by
  exact C27_bivector_derivation Ex.gN_symm (Ex.wf_of _ (by decide)) rfl (by decide +kernel) (Ex.A_wf _) (by decide)
    (Ex.B_wf _) Ex.B_blade .inner

end GA
