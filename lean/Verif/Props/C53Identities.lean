import Verif.Props.C53
import Verif.Props.C108Gram

/-!
# C53, continued: identities of the cross product

`normI g sqrt plus = some (i, iInv)` says that `i` is the pseudoscalar `Ga.I()` of the algebra, and `inner g v w` is the inner
product of the vectors with the components `v`, `w` (`Props/C108Gram`).  The metric is any symmetric metric of a 3-dimensional
algebra, and `q = I*I` is 1 or -1 (C20); it is -1 in Euclidean space.
-/

set_option linter.unusedSectionVars false
set_option maxRecDepth 10000

namespace Spec
open GA CliffordAlgebra
variable {K : Type*} [Field K] [DecidableEq K] [Invertible (2 : K)] {g : Matrix (Fin 3) (Fin 3) K}

theorem exists_cr (g : Matrix (Fin 3) (Fin 3) K) (c : K) (a b : Fin 3 → K) :
    ∃ u, -(c • (pseudo g * wedge g (vec g a) (vec g b))) = vec g u :=
  homogeneous_one ((grade_pseudo_mul (homogeneous_wedge (homogeneous_vec a) (homogeneous_vec b))).smul c).neg

/-- The components of the cross product, where the pseudoscalar is `c` times the product of the basis vectors. -/
noncomputable def cr (g : Matrix (Fin 3) (Fin 3) K) (c : K) (a b : Fin 3 → K) : Fin 3 → K := (exists_cr g c a b).choose

theorem vec_cr (c : K) (a b : Fin 3 → K) :
    vec g (cr g c a b) = -(c • (pseudo g * wedge g (vec g a) (vec g b))) := (exists_cr g c a b).choose_spec.symm

theorem ip_cr (c : K) (d a b : Fin 3 → K) : algebraMap K (Cl g) (ip g d (cr g c a b)) =
    -(c • ((Matrix.of ![d, a, b]).det • grade g 0 (pseudo g * pseudo g))) := by
  have h3 : grade g 0 (vec g d * vec g (cr g c a b)) = algebraMap K _ (ip g d (cr g c a b)) := by
    rw [vec_mul, con_vec, map_add, grade_zero_algebraMap, homogeneous_wedge (homogeneous_vec d) (homogeneous_vec _) 0 (by norm_num),
      add_zero]
  rw [← h3, vec_cr, mul_neg, map_neg, mul_smul_comm, map_smul, vec_mul_pseudo_wedge]

theorem ip_cr_cyclic (c : K) (d a b : Fin 3 → K) : ip g d (cr g c a b) = ip g a (cr g c b d) := by
  apply algebraMap_inj g
  rw [ip_cr, ip_cr]
  have e : (Matrix.of ![d, a, b]).det = (Matrix.of ![a, b, d]).det := by
    rw [Matrix.det_fin_three, Matrix.det_fin_three]
    simp
    ring
  rw [e]

theorem two_wedge (a b : Fin 3 → K) :
    (2 : K) • wedge g (vec g a) (vec g b) = vec g a * vec g b - vec g b * vec g a := by
  have h1 := vec_mul (g := g) a (vec g b)
  have h2 := vec_mul (g := g) b (vec g a)
  have h3 : wedge g (vec g b) (vec g a) = -wedge g (vec g a) (vec g b) := by
    have := wedge_vec_swap (g := g) b a 1
    rwa [wedge_one, wedge_one] at this
  rw [con_vec] at h1 h2
  change _ = algebraMap K (Cl g) (ip g a b) + _ at h1
  change _ = algebraMap K (Cl g) (ip g b a) + _ at h2
  rw [h1, h2, h3, ip_comm b a]
  module

theorem two_ip (a b : Fin 3 → K) : vec g a * vec g b + vec g b * vec g a = algebraMap K (Cl g) (2 * ip g a b) := by
  have h1 := vec_mul (g := g) a (vec g b)
  have h2 := vec_mul (g := g) b (vec g a)
  have h3 : wedge g (vec g b) (vec g a) = -wedge g (vec g a) (vec g b) := by
    have := wedge_vec_swap (g := g) b a 1
    rwa [wedge_one, wedge_one] at this
  rw [con_vec] at h1 h2
  change _ = algebraMap K (Cl g) (ip g a b) + _ at h1
  change _ = algebraMap K (Cl g) (ip g b a) + _ at h2
  rw [h1, h2, h3, ip_comm b a, two_mul, map_add]
  abel

theorem pseudo_central (x : Cl g) : pseudo g * x = x * pseudo g := by
  induction x using CliffordAlgebra.induction with
  | algebraMap r => exact (Algebra.commutes r _).symm
  | ι v => exact pseudo_comm3 v
  | mul a b ha hb => rw [← mul_assoc, ha, mul_assoc, hb, mul_assoc]
  | add a b ha hb => rw [mul_add, add_mul, ha, hb]

/-- `(a×b)×d = I² (a (b|d) - b (a|d))`. -/
theorem cr_cr {c q : K} (hq : (c • pseudo g) * (c • pseudo g) = algebraMap K (Cl g) q) (a b d : Fin 3 → K) :
    vec g (cr g c (cr g c a b) d) = (q * ip g b d) • vec g a - (q * ip g a d) • vec g b := by
  set I := c • pseudo g with hI
  have cen : ∀ x : Cl g, I * x = x * I := fun x => by rw [hI, smul_mul_assoc, pseudo_central, mul_smul_comm]
  have e : ∀ a b, vec g (cr g c a b) = -(I * wedge g (vec g a) (vec g b)) := fun a b => by rw [vec_cr, hI, smul_mul_assoc]
  have h2 : (2 : K) ≠ 0 := (isUnit_of_invertible (2 : K)).ne_zero
  refine smul_right_injective (Cl g) (mul_ne_zero h2 h2) ?_
  show (2 * 2 : K) • _ = (2 * 2 : K) • _
  have k1 : (2 : K) • vec g (cr g c (cr g c a b) d) =
      -(I * (vec g (cr g c a b) * vec g d - vec g d * vec g (cr g c a b))) := by
    rw [e, smul_neg, ← mul_smul_comm, two_wedge]
  have k2 : (2 : K) • vec g (cr g c a b) = -(I * (vec g a * vec g b - vec g b * vec g a)) := by
    rw [e, smul_neg, ← mul_smul_comm, two_wedge]
  rw [mul_smul, k1, smul_neg, ← mul_smul_comm, smul_sub, ← smul_mul_assoc, ← mul_smul_comm 2 (vec g d), k2]
  have cd : vec g d * -(I * (vec g a * vec g b - vec g b * vec g a)) =
      -(I * (vec g d * (vec g a * vec g b - vec g b * vec g a))) := by
    rw [mul_neg, ← mul_assoc, ← cen, mul_assoc]
  rw [cd, neg_mul, mul_assoc I, ← neg_sub_neg, neg_neg, neg_neg, ← mul_sub, ← mul_neg, ← mul_neg, neg_sub, ← mul_assoc, hq,
    ← Algebra.smul_def, mul_smul, mul_smul]
  have key : (vec g a * vec g b - vec g b * vec g a) * vec g d - vec g d * (vec g a * vec g b - vec g b * vec g a) =
      (4 * ip g b d) • vec g a - (4 * ip g a d) • vec g b := by
    have s1 : vec g a * vec g b * vec g d - vec g d * (vec g a * vec g b) = (2 * ip g b d) • vec g a - (2 * ip g a d) • vec g b := by
      have : vec g a * vec g b * vec g d - vec g d * (vec g a * vec g b) =
          vec g a * (vec g b * vec g d + vec g d * vec g b) - (vec g a * vec g d + vec g d * vec g a) * vec g b := by
        noncomm_ring
      rw [this, two_ip, two_ip, ← Algebra.commutes, ← Algebra.smul_def, ← Algebra.smul_def]
    have s2 : vec g b * vec g a * vec g d - vec g d * (vec g b * vec g a) = (2 * ip g a d) • vec g b - (2 * ip g b d) • vec g a := by
      have : vec g b * vec g a * vec g d - vec g d * (vec g b * vec g a) =
          vec g b * (vec g a * vec g d + vec g d * vec g a) - (vec g b * vec g d + vec g d * vec g b) * vec g a := by
        noncomm_ring
      rw [this, two_ip, two_ip, ← Algebra.commutes, ← Algebra.smul_def, ← Algebra.smul_def]
    rw [sub_mul, mul_sub, sub_sub_sub_comm, s1, s2]
    module
  rw [key]
  module

/-- `(a×b)|(d×e) = -I² ((a|d) (b|e) - (a|e) (b|d))`. -/
theorem ip_cr_cr {c q : K} (hq : (c • pseudo g) * (c • pseudo g) = algebraMap K (Cl g) q) (a b d e : Fin 3 → K) :
    ip g (cr g c a b) (cr g c d e) = -(q * (ip g a d * ip g b e - ip g a e * ip g b d)) := by
  rw [ip_cr_cyclic, ip_cr_cyclic]
  have h := congrArg (fun x => grade g 0 (vec g e * x)) (cr_cr hq a b d)
  have f : ∀ u w, grade g 0 (vec g u * vec g w) = algebraMap K (Cl g) (ip g u w) := fun u w => by
    rw [vec_mul, con_vec, map_add, grade_zero_algebraMap, homogeneous_wedge (homogeneous_vec u) (homogeneous_vec w) 0 (by norm_num),
      add_zero]
  simp only [mul_sub, mul_smul_comm, map_sub, map_smul, f] at h
  rw [Algebra.smul_def, Algebra.smul_def, ← map_mul, ← map_mul, ← map_sub] at h
  rw [algebraMap_inj g h, ip_comm e a, ip_comm e b]
  ring

end Spec

namespace GA
variable {K : Type*} [Field K] [DecidableEq K] [Invertible (2 : K)] {g : Matrix (Fin 3) (Fin 3) K}

theorem cross_rep (hs : g.IsSymm) {i v w X : Mv K 3} {c : K} (hi : Rep g i (c • Spec.pseudo g)) {a b : Fin 3 → K}
    (hv : Rep g v (Spec.vec g a)) (hw : Rep g w (Spec.vec g b)) (h : cross g i v w = some X) :
    Rep g X (Spec.vec g (Spec.cr g c a b)) := by
  obtain ⟨a', b', ha, hb, hX⟩ := cross_spec hs hi hv hw h
  rw [← ha, ← hb] at hX
  exact hX.congr (Spec.vec_cr c a b).symm

theorem dot_rep (hs : g.IsSymm) {v w : Mv K 3} {a b : Fin 3 → K} (hv : Rep g v (Spec.vec g a)) (hw : Rep g w (Spec.vec g b)) :
    Rep g (v.dot g w) (algebraMap K _ (Spec.ip g a b)) :=
  (hv.dot hs hw).congr (Spec.hestenesDot_vec_ip a b)

/-- C53: the triple product is cyclic, `c|(a×b) = a|(b×c)`. -/
theorem C53_triple (hs : g.IsSymm) {sqrt : K → K} {plus : Bool} {i iInv : Mv K 3} (hI : normI g sqrt plus = some (i, iInv))
    (hsq : sqrt (if plus then eSq g else -eSq g) * sqrt (if plus then eSq g else -eSq g) = if plus then eSq g else -eSq g)
    (a b c : Fin 3 → K) {X Y : Mv K 3} (hX : cross g i (Mv.vector a) (Mv.vector b) = some X)
    (hY : cross g i (Mv.vector b) (Mv.vector c) = some Y) :
    ((Mv.vector c).dot g X).eq g ((Mv.vector a).dot g Y) = true := by
  obtain ⟨k, h1, -, -⟩ := normI_spec hs hI hsq
  have rX := cross_rep hs h1 (Rep.vector a) (Rep.vector b) hX
  have rY := cross_rep hs h1 (Rep.vector b) (Rep.vector c) hY
  rw [(dot_rep hs (Rep.vector c) rX).eq_iff hs (dot_rep hs (Rep.vector a) rY), Spec.ip_cr_cyclic]

theorem sq_rep (hs : g.IsSymm) {i : Mv K 3} {k q : K} (h1 : Rep g i (k • Spec.pseudo g))
    (hq : (i.mul g i).eq g (Mv.scalarMv q) = true) :
    (k • Spec.pseudo g) * (k • Spec.pseudo g) = algebraMap K (Spec.Cl g) q :=
  ((h1.mul hs h1).eq_iff hs (Rep.scalarMv q)).mp hq

/-- C53: the double cross product, `(a×b)×c = q ((b|c) a - (a|c) b)` where `q = I*I`. -/
theorem C53_double (hs : g.IsSymm) {sqrt : K → K} {plus : Bool} {i iInv : Mv K 3} (hI : normI g sqrt plus = some (i, iInv))
    (hsq : sqrt (if plus then eSq g else -eSq g) * sqrt (if plus then eSq g else -eSq g) = if plus then eSq g else -eSq g)
    {q : K} (hq : (i.mul g i).eq g (Mv.scalarMv q) = true) (a b c : Fin 3 → K) {X Y : Mv K 3}
    (hX : cross g i (Mv.vector a) (Mv.vector b) = some X) (hY : cross g i X (Mv.vector c) = some Y) :
    Y.eq g (((Mv.vector a).smul (q * inner g b c)).sub g ((Mv.vector b).smul (q * inner g a c))) = true := by
  obtain ⟨k, h1, -, -⟩ := normI_spec hs hI hsq
  have rX := cross_rep hs h1 (Rep.vector a) (Rep.vector b) hX
  have rY := cross_rep hs h1 rX (Rep.vector c) hY
  rw [rY.eq_iff hs (((Rep.vector a).smul _).sub hs ((Rep.vector b).smul _)), Spec.cr_cr (sq_rep hs h1 hq), ip_inner hs,
    ip_inner hs]

/-- C53: the identity of Lagrange, `(a×b)|(c×d) = -q ((a|c)(b|d) - (a|d)(b|c))` where `q = I*I`. -/
theorem C53_lagrange (hs : g.IsSymm) {sqrt : K → K} {plus : Bool} {i iInv : Mv K 3} (hI : normI g sqrt plus = some (i, iInv))
    (hsq : sqrt (if plus then eSq g else -eSq g) * sqrt (if plus then eSq g else -eSq g) = if plus then eSq g else -eSq g)
    {q : K} (hq : (i.mul g i).eq g (Mv.scalarMv q) = true) (a b c d : Fin 3 → K) {X Y : Mv K 3}
    (hX : cross g i (Mv.vector a) (Mv.vector b) = some X) (hY : cross g i (Mv.vector c) (Mv.vector d) = some Y) :
    (X.dot g Y).eq g (Mv.scalarMv (-(q * (inner g a c * inner g b d - inner g a d * inner g b c)))) = true := by
  obtain ⟨k, h1, -, -⟩ := normI_spec hs hI hsq
  have rX := cross_rep hs h1 (Rep.vector a) (Rep.vector b) hX
  have rY := cross_rep hs h1 (Rep.vector c) (Rep.vector d) hY
  rw [(dot_rep hs rX rY).eq_iff hs (Rep.scalarMv _), Spec.ip_cr_cr (sq_rep hs h1 hq)]
  simp only [ip_inner hs]

/-- C53: the identity of Jacobi, `(a×b)×c + (b×c)×a + (c×a)×b = 0`. -/
theorem C53_jacobi (hs : g.IsSymm) {sqrt : K → K} {plus : Bool} {i iInv : Mv K 3} (hI : normI g sqrt plus = some (i, iInv))
    (hsq : sqrt (if plus then eSq g else -eSq g) * sqrt (if plus then eSq g else -eSq g) = if plus then eSq g else -eSq g)
    (a b c : Fin 3 → K) {X Y Z X' Y' Z' : Mv K 3} (hX : cross g i (Mv.vector a) (Mv.vector b) = some X)
    (hY : cross g i (Mv.vector b) (Mv.vector c) = some Y) (hZ : cross g i (Mv.vector c) (Mv.vector a) = some Z)
    (hX' : cross g i X (Mv.vector c) = some X') (hY' : cross g i Y (Mv.vector a) = some Y')
    (hZ' : cross g i Z (Mv.vector b) = some Z') : ((X'.add g Y').add g Z').isZero = true := by
  obtain ⟨k, h1, -, -⟩ := normI_spec hs hI hsq
  have rX := cross_rep hs h1 (cross_rep hs h1 (Rep.vector a) (Rep.vector b) hX) (Rep.vector c) hX'
  have rY := cross_rep hs h1 (cross_rep hs h1 (Rep.vector b) (Rep.vector c) hY) (Rep.vector a) hY'
  have rZ := cross_rep hs h1 (cross_rep hs h1 (Rep.vector c) (Rep.vector a) hZ) (Rep.vector b) hZ'
  have r := (rX.add hs rY).add hs rZ
  have hq : ∃ q, (k • Spec.pseudo g) * (k • Spec.pseudo g) = algebraMap K (Spec.Cl g) q := by
    rw [smul_mul_smul_comm, Spec.pseudo_sq hs, Algebra.smul_def, ← map_mul]
    exact ⟨_, rfl⟩
  obtain ⟨q, hq⟩ := hq
  rw [isZero_iff r.wf, r.val, Spec.cr_cr hq, Spec.cr_cr hq, Spec.cr_cr hq, Spec.ip_comm b a, Spec.ip_comm c a, Spec.ip_comm c b]
  module

/-- Witness: a Euclidean space whose basis is not orthogonal, where `det g = 4` and `I*I = -1`. -/
example : (2 * 2 : ℚ) = -eSq (Ex.gE ℚ) ∧ ((normI (Ex.gE ℚ) (fun _ => 2) false).bind fun p =>
    (cross (Ex.gE ℚ) p.1 (Mv.vector ![1, 2, 3]) (Mv.vector ![0, 1, -1])).bind fun X =>
      (cross (Ex.gE ℚ) p.1 X (Mv.vector ![1, 0, 1])).map fun Y =>
        ((p.1.mul (Ex.gE ℚ) p.1).eq (Ex.gE ℚ) (Mv.scalarMv (-1)), Y.isZero)) = some (true, false) := by
  decide +kernel

end GA
