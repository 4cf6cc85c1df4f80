import Verif.Model.Functions
import Verif.Proofs.Project
import Verif.Proofs.Recip
import Verif.Proofs.Blade
import Verif.Proofs.Examples
import Verif.Proofs.Det
import Verif.Props.C18
import Mathlib.LinearAlgebra.CrossProduct

/-!
# C53: cross product

`normI g sqrt plus = some (i, iInv)` says that `i` is the pseudoscalar `Ga.I()` of the algebra (see C20).
-/

set_option linter.unusedSectionVars false
set_option maxRecDepth 10000

namespace Spec
open GA CliffordAlgebra
variable {R : Type*} [CommRing R] [Invertible (2 : R)] {g : Matrix (Fin 3) (Fin 3) R}

theorem pseudo_comm3 (v : Fin 3 → R) : pseudo g * vec g v = vec g v * pseudo g := by
  have h1 : involute (pseudo g) = -pseudo g := by
    rw [homogeneous_involute homogeneous_pseudo]; norm_num
  have h2 : vec g v * pseudo g = con g v (pseudo g) := by
    rw [vec_mul, wedge_pseudo, add_zero]
  rw [mul_vec, h1, mul_neg, h2, con, map_neg, smul_neg, two_smul]
  abel

theorem vec_mul_pseudo_wedge (c a b : Fin 3 → R) :
    grade g 0 (vec g c * (pseudo g * wedge g (vec g a) (vec g b))) =
      (Matrix.of ![c, a, b]).det • grade g 0 (pseudo g * pseudo g) := by
  rw [← mul_assoc, ← pseudo_comm3, mul_assoc, vec_mul, mul_add, map_add]
  have hab : Homogeneous g 2 (wedge g (vec g a) (vec g b)) :=
    homogeneous_wedge (homogeneous_vec a) (homogeneous_vec b)
  rw [grade_zero_mul_of_ne homogeneous_pseudo (homogeneous_con c hab) (by norm_num), zero_add]
  have h := wedgeL_ofFn_det (g := g) ![c, a, b]
  have h2 : wedgeL g (List.ofFn ![c, a, b]) =
      wedge g (vec g c) (wedge g (vec g a) (vec g b)) := by
    simp [List.ofFn_succ, wedge_one]
  rw [← h2, h, mul_smul_comm, map_smul]

end Spec

namespace GA
variable {n : ℕ} {K : Type*} [Field K] [DecidableEq K] [Invertible (2 : K)]

/-- C53: `cross` returns exactly when both arguments are (non-zero) vectors of a 3-dimensional
algebra. -/
theorem C53_defined {g : Matrix (Fin n) (Fin n) K} (hs : g.IsSymm) (i : Mv K n) {v w : Mv K n}
    (hv : v.WF g) (hw : w.WF g) :
    (cross g i v w).isSome = true ↔
      (v.val g ≠ 0 ∧ Spec.Homogeneous g 1 (v.val g)) ∧ (w.val g ≠ 0 ∧ Spec.Homogeneous g 1 (w.val g)) ∧
        n = 3 := by
  have h1 := isVector_iff hs hv
  have h2 := isVector_iff hs hw
  rw [cross]
  split_ifs with h
  · simp only [Option.isSome_some, true_iff]
    exact ⟨h1.mp h.1, h2.mp h.2.1, h.2.2⟩
  · simp only [Option.isSome_none, Bool.false_eq_true, false_iff]
    intro h'
    exact h ⟨h1.mpr h'.1, h2.mpr h'.2.1, h'.2.2⟩

variable {g : Matrix (Fin 3) (Fin 3) K}

theorem cross_spec (hs : g.IsSymm) {i v w X : Mv K 3} {c : K} (hi : Rep g i (c • Spec.pseudo g))
    {x y : Spec.Cl g} (hv : Rep g v x) (hw : Rep g w y) (h : cross g i v w = some X) :
    ∃ a b, x = Spec.vec g a ∧ y = Spec.vec g b ∧
      Rep g X (-(c • (Spec.pseudo g * Spec.wedge g (Spec.vec g a) (Spec.vec g b)))) := by
  rw [cross] at h
  split_ifs at h with hc
  obtain ⟨a, ha⟩ := Spec.homogeneous_one ((isVector_iff hs hv.wf).mp hc.1).2
  obtain ⟨b, hb⟩ := Spec.homogeneous_one ((isVector_iff hs hw.wf).mp hc.2.1).2
  rw [hv.val] at ha
  rw [hw.val] at hb
  refine ⟨a, b, ha, hb, ?_⟩
  rw [← Option.some.inj h]
  refine (hi.neg.mul hs (hv.wedge hs hw)).congr ?_
  rw [ha, hb, neg_mul, smul_mul_assoc]

/-- C53: the cross product is a vector, antisymmetric, and orthogonal to both arguments; in any metric. -/
theorem C53_laws (hs : g.IsSymm) {sqrt : K → K} {plus : Bool} {i iInv : Mv K 3}
    (hI : normI g sqrt plus = some (i, iInv))
    (hsq : sqrt (if plus then eSq g else -eSq g) * sqrt (if plus then eSq g else -eSq g) =
      if plus then eSq g else -eSq g)
    {v w X Y : Mv K 3} (hv : v.WF g) (hvb : v.isBladeRep = true) (hw : w.WF g)
    (hwb : w.isBladeRep = true) (hX : cross g i v w = some X) (hY : cross g i w v = some Y) :
    Spec.Homogeneous g 1 (X.val g) ∧ Y.eq g X.neg = true ∧
      (X.dot g v).isZero = true ∧ (X.dot g w).isZero = true := by
  obtain ⟨c, h1, -, -⟩ := normI_spec hs hI hsq
  have rv := Rep.of_wf hv hvb
  have rw' := Rep.of_wf hw hwb
  obtain ⟨a, b, ha, hb, hXr⟩ := cross_spec hs h1 rv rw' hX
  obtain ⟨b', a', hb', ha', hYr⟩ := cross_spec hs h1 rw' rv hY
  rw [← hb', ← ha', hb, ha] at hYr
  have hsw : Spec.wedge g (Spec.vec g b) (Spec.vec g a) = -Spec.wedge g (Spec.vec g a) (Spec.vec g b) := by
    have := Spec.wedge_vec_swap (g := g) b a 1
    rwa [Spec.wedge_one, Spec.wedge_one] at this
  have hom : Spec.Homogeneous g 1 (X.val g) := by
    rw [hXr.val]
    have hab : Spec.Homogeneous g 2 (Spec.wedge g (Spec.vec g a) (Spec.vec g b)) :=
      Spec.homogeneous_wedge (Spec.homogeneous_vec a) (Spec.homogeneous_vec b)
    exact ((Spec.grade_pseudo_mul hab).smul c).neg
  have key : ∀ d : Fin 3 → K, (d = a ∨ d = b) →
      Spec.hestenesDot g (X.val g) (Spec.vec g d) = 0 := by
    intro d hd
    obtain ⟨u, hu⟩ := Spec.homogeneous_one hom
    have h2 : algebraMap K (Spec.Cl g) (Spec.ip g d u) = 0 := by
      have h3 : Spec.grade g 0 (Spec.vec g d * X.val g) = algebraMap K _ (Spec.ip g d u) := by
        rw [hu, Spec.vec_mul, Spec.con_vec, map_add, grade_zero_algebraMap,
          Spec.homogeneous_wedge (Spec.homogeneous_vec d) (Spec.homogeneous_vec u) 0 (by norm_num),
          add_zero]
      rw [← h3, hXr.val, mul_neg, map_neg, mul_smul_comm, map_smul, Spec.vec_mul_pseudo_wedge]
      have : (Matrix.of ![d, a, b]).det = 0 := by
        rcases hd with rfl | rfl
        · exact Matrix.det_zero_of_row_eq (i := 0) (j := 1) (by decide) rfl
        · exact Matrix.det_zero_of_row_eq (i := 0) (j := 2) (by decide) rfl
      rw [this, zero_smul, smul_zero, neg_zero]
    rw [hu, Spec.hestenesDot_vec_ip, Spec.ip_comm, h2]
  refine ⟨hom, ?_, ?_, ?_⟩
  · rw [hYr.eq_iff hs hXr.neg, hsw, mul_neg, smul_neg]
  · have := Rep.dot hs (Rep.of_wf hXr.wf hXr.flag) rv
    rw [ha, key a (Or.inl rfl)] at this
    exact (isZero_iff this.wf).mpr this.val
  · have := Rep.dot hs (Rep.of_wf hXr.wf hXr.flag) rw'
    rw [hb, key b (Or.inr rfl)] at this
    exact (isZero_iff this.wf).mpr this.val

/-- C53: in an orthonormal Euclidean 3-space the components are the classical ones (`a ×₃ b` is
Mathlib's `crossProduct`).  The pseudoscalar is normalised with `sqrt(1) = 1`. -/
theorem C53_components {sqrt : K → K} (h1 : sqrt 1 = 1) {i iInv : Mv K 3}
    (hI : normI 1 sqrt false = some (i, iInv)) (a b : Fin 3 → K) {X : Mv K 3}
    (hX : cross 1 i (Mv.vector a) (Mv.vector b) = some X) :
    X.eq 1 (Mv.vector (crossProduct a b)) = true := by
  have hs : (1 : Matrix (Fin 3) (Fin 3) K).IsSymm := Matrix.transpose_one
  have he : eSq (1 : Matrix (Fin 3) (Fin 3) K) = -1 := by rw [eSq_eq hs]; norm_num
  have hi : Rep (1 : Matrix (Fin 3) (Fin 3) K) i (Spec.pseudo 1) := by
    simp only [normI, Mv.divScalar, Bool.false_eq_true, if_false] at hI
    rw [he, neg_neg, h1, if_neg one_ne_zero] at hI
    simp only [Option.map_some, Option.some.injEq, Prod.mk.injEq] at hI
    rw [← hI.1]
    refine (pseudoE_rep.smul _).congr ?_
    rw [inv_one, one_smul]
  have hi' : Rep (1 : Matrix (Fin 3) (Fin 3) K) i ((1 : K) • Spec.pseudo 1) := by rwa [one_smul]
  obtain ⟨a', b', ha, hb, hXr⟩ := cross_spec hs hi' (Rep.vector a) (Rep.vector b) hX
  rw [← ha, ← hb, one_smul] at hXr
  rw [hXr.eq_iff hs (Rep.vector _)]
  have hab : Spec.Homogeneous (1 : Matrix (Fin 3) (Fin 3) K) 2
      (Spec.wedge 1 (Spec.vec 1 a) (Spec.vec 1 b)) :=
    Spec.homogeneous_wedge (Spec.homogeneous_vec a) (Spec.homogeneous_vec b)
  obtain ⟨u, hu⟩ := Spec.homogeneous_one (Spec.grade_pseudo_mul hab).neg
  rw [hu]
  congr 1
  have hk : ∀ d : Fin 3 → K, Spec.ip 1 d u = (Matrix.of ![d, a, b]).det := by
    intro d
    apply algebraMap_inj (1 : Matrix (Fin 3) (Fin 3) K)
    have h3 : Spec.grade 1 0 (Spec.vec 1 d * Spec.vec 1 u) =
        algebraMap K (Spec.Cl 1) (Spec.ip 1 d u) := by
      rw [Spec.vec_mul, Spec.con_vec, map_add, grade_zero_algebraMap,
        Spec.homogeneous_wedge (Spec.homogeneous_vec d) (Spec.homogeneous_vec u) 0 (by norm_num),
        add_zero]
    rw [← h3, ← hu, mul_neg, map_neg, Spec.vec_mul_pseudo_wedge, Spec.pseudo_sq hs,
      grade_zero_algebraMap, Algebra.smul_def, ← map_mul]
    norm_num
  ext k
  have h4 : Spec.ip 1 (Pi.single k 1) u = u k := by
    rw [Spec.ip_single hs]
    simp [Matrix.one_apply]
  rw [← h4, hk, Matrix.det_fin_three, cross_apply]
  fin_cases k <;> simp <;> ring

/-- The hypotheses are met: Euclidean 3-space over the rationals. -/
example : ∃ i iInv X : Mv ℚ 3, normI 1 (fun _ => 1) false = some (i, iInv) ∧
    cross 1 i (Mv.vector ![1, 2, 3]) (Mv.vector ![0, 1, -1]) = some X ∧
    X.eq 1 (Mv.vector ![-5, 1, 1]) = true := by
  refine ⟨_, _, _, rfl, rfl, ?_⟩
  decide +kernel

end GA
