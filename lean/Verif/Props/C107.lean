import Verif.Proofs.Versor
import Verif.Proofs.Script
import Verif.Proofs.Examples

/-!
# C107: `is_versor` and `is_blade` answer correctly

`V.isVersor g` models `V.is_versor()` and `B.isBlade g` models `B.is_blade()`.
-/

set_option linter.unusedSectionVars false
set_option maxRecDepth 10000

namespace GA
variable {n : ℕ} {K : Type*} [Field K] [DecidableEq K] [Invertible (2 : K)]
  {g : Matrix (Fin n) (Fin n) K}

/-- The geometric product `v_1 * ... * v_k` of vectors, as the code computes it. -/
def productOf (g : Matrix (Fin n) (Fin n) K) (L : List (Fin n → K)) : Mv K n :=
  L.foldr (fun v A => (Mv.vector v).mul g A) (Mv.scalarMv 1)

/-- The exterior product `v_1 ^ ... ^ v_k` of vectors, as the code computes it. -/
def outerOf (g : Matrix (Fin n) (Fin n) K) (L : List (Fin n → K)) : Mv K n :=
  L.foldr (fun v A => (Mv.vector v).wedge g A) (Mv.scalarMv 1)

theorem rep_productOf (hs : g.IsSymm) (L : List (Fin n → K)) : Rep g (productOf g L) (Spec.prodL g L) := by
  induction L with
  | nil =>
    refine (Rep.scalarMv (g := g) (1 : K)).congr ?_
    simp [Spec.prodL]
  | cons v L ih => rw [Spec.prodL_cons]; exact (Rep.vector v).mul hs ih

theorem rep_outerOf (hs : g.IsSymm) (L : List (Fin n → K)) : Rep g (outerOf g L) (Spec.wedgeL g L) := by
  induction L with
  | nil =>
    refine (Rep.scalarMv (g := g) (1 : K)).congr ?_
    simp
  | cons v L ih => rw [Spec.wedgeL_cons]; exact (Rep.vector v).wedge hs ih

/-- The vector `v` is not null: `v * v` is not zero. -/
def NonNull (g : Matrix (Fin n) (Fin n) K) (v : Fin n → K) : Prop :=
  ((Mv.vector v).mul g (Mv.vector v)).isZero = false

theorem nonNull_iff (hs : g.IsSymm) (v : Fin n → K) : NonNull g v ↔ Spec.Q g v ≠ 0 := by
  have r := (Rep.vector (g := g) v).mul hs (Rep.vector v)
  rw [NonNull, ← Bool.not_eq_true, isZero_iff r.wf, r.val, Spec.vec_sq]
  refine not_congr ⟨fun h => algebraMap_inj g (by rw [h, map_zero]), fun h => by rw [h, map_zero]⟩

/-- What `is_versor` tests, as a statement on the Clifford algebra. -/
theorem isVersor_spec (hs : g.IsSymm) {V : Mv K n} {x : Spec.Cl g} (r : Rep g V x) : V.isVersor g = true ↔
    (∃ q : K, q ≠ 0 ∧ x * CliffordAlgebra.reverse x = algebraMap K _ q) ∧
    (∀ v, Spec.Homogeneous g 1 (CliffordAlgebra.involute x * Spec.vec g v * CliffordAlgebra.reverse x)) ∧
    ∃ v, CliffordAlgebra.involute x * Spec.vec g v * CliffordAlgebra.reverse x ≠ 0 := by
  have rm := r.mul hs (r.rev hs)
  rw [isVersor_iff' hs r, isScalar_iff hs rm.wf, ← Bool.not_eq_true, isZero_iff rm.wf, rm.val]
  refine and_congr_left fun _ => ?_
  constructor
  · rintro ⟨⟨q, hq⟩, h0⟩
    exact ⟨q, fun h => h0 (by rw [hq, h, map_zero]), hq⟩
  · rintro ⟨q, hq, h⟩
    exact ⟨⟨q, h⟩, fun h0 => hq (algebraMap_inj g (by rw [← h, h0, map_zero]))⟩

/-- C107: `is_versor` answers `True` for every product of vectors which are not null, in every metric of dimension at
least one. -/
theorem C107_versor_complete (hs : g.IsSymm) (hn : n ≠ 0) {V : Mv K n} (hV : V.WF g) (hb : V.isBladeRep = true)
    {L : List (Fin n → K)} (hL : ∀ v ∈ L, NonNull g v) (h : V.eq g (productOf g L) = true) :
    V.isVersor g = true := by
  have r := Rep.of_wf hV hb
  rw [r.eq_iff hs (rep_productOf hs L)] at h
  rw [h] at r
  have hq : ∀ v ∈ L, Spec.Q g v ≠ 0 := fun v hv => (nonNull_iff hs v).mp (hL v hv)
  obtain ⟨q, hq0, e⟩ := Spec.prodL_mul_reverse hq
  refine (isVersor_spec hs r).mpr ⟨⟨q, hq0, e⟩, Spec.prodL_twist L, Pi.single ⟨0, Nat.pos_of_ne_zero hn⟩ 1, fun h0 => ?_⟩
  have e1 : (q⁻¹ • Spec.prodL g L) * CliffordAlgebra.reverse (Spec.prodL g L) = 1 := by
    rw [smul_mul_assoc, e, Algebra.smul_def, ← map_mul, inv_mul_cancel₀ hq0, map_one]
  have e2 := Spec.mul_eq_one_symm e1
  have e3 : CliffordAlgebra.involute (CliffordAlgebra.reverse (Spec.prodL g L)) *
      CliffordAlgebra.involute (q⁻¹ • Spec.prodL g L) = 1 := by rw [← map_mul, e2, map_one]
  have h1 := congrArg (fun z => CliffordAlgebra.involute (CliffordAlgebra.reverse (Spec.prodL g L)) *
    (q⁻¹ • z) * (q⁻¹ • Spec.prodL g L)) h0
  simp only [smul_zero, mul_zero, zero_mul] at h1
  rw [map_smul] at e3
  have h2 : CliffordAlgebra.involute (CliffordAlgebra.reverse (Spec.prodL g L)) *
      (q⁻¹ • (CliffordAlgebra.involute (Spec.prodL g L) * Spec.vec g (Pi.single ⟨0, Nat.pos_of_ne_zero hn⟩ 1) *
        CliffordAlgebra.reverse (Spec.prodL g L))) * (q⁻¹ • Spec.prodL g L) =
      (CliffordAlgebra.involute (CliffordAlgebra.reverse (Spec.prodL g L)) *
        (q⁻¹ • CliffordAlgebra.involute (Spec.prodL g L))) * Spec.vec g (Pi.single ⟨0, Nat.pos_of_ne_zero hn⟩ 1) *
        (CliffordAlgebra.reverse (Spec.prodL g L) * (q⁻¹ • Spec.prodL g L)) := by
    simp only [mul_smul_comm, smul_mul_assoc, mul_assoc]
  rw [h2, e2, e3, one_mul, mul_one, Spec.vec] at h1
  have h3 := congrArg (Spec.toExt g) h1
  rw [← Spec.vec, Spec.toExt_vec, map_zero, ← map_zero (ExteriorAlgebra.ι K), ExteriorAlgebra.ι_inj] at h3
  have := congrFun h3 ⟨0, Nat.pos_of_ne_zero hn⟩
  simp at this

/-- C107: if the metric is not degenerate, then `is_versor` answers `True` only for products of vectors which are not
null.  Missing: degenerate metrics, where this is false (`C107_versor_counterexample`). -/
theorem C107_versor_sound_partial (hs : g.IsSymm) (hd : g.det ≠ 0) {V : Mv K n} (hV : V.WF g) (hb : V.isBladeRep = true)
    (h : V.isVersor g = true) :
    ∃ L : List (Fin n → K), (∀ v ∈ L, NonNull g v) ∧ V.eq g (productOf g L) = true := by
  have r := Rep.of_wf hV hb
  obtain ⟨⟨q, hq, e⟩, h1, v, -⟩ := (isVersor_spec hs r).mp h
  have e1 : V.val g * (q⁻¹ • CliffordAlgebra.reverse (V.val g)) = 1 := by
    rw [mul_smul_comm, e, Algebra.smul_def, ← map_mul, inv_mul_cancel₀ hq, map_one]
  have e2 := Spec.mul_eq_one_symm e1
  have hA : Spec.Acts g (V.val g) := by
    refine ⟨⟨_, e1⟩, fun v => ?_⟩
    obtain ⟨u, hu⟩ := Spec.homogeneous_one (h1 v)
    refine ⟨q⁻¹ • u, ?_⟩
    rw [Spec.vec_smul, ← hu, ← mul_smul_comm, mul_assoc, e2, mul_one]
  obtain ⟨c, L, hL, hx⟩ := hA.eq_prod hs hd
  have hc : c ≠ 0 := by
    rintro rfl
    rw [zero_smul] at hx
    rw [hx, zero_mul] at e1
    exact one_ne_zero (algebraMap_inj g (a := (1 : K)) (b := 0) (by rw [map_one, map_zero, e1]))
  obtain ⟨b, hb', -⟩ := Spec.exists_nonnull_basis hs hd
  have hn : 0 < n := by
    rcases Nat.eq_zero_or_pos n with h0 | h0
    · subst h0
      obtain ⟨-, -, v, hv⟩ := (isVersor_spec hs r).mp h
      refine absurd ?_ hv
      rw [show v = 0 from Subsingleton.elim _ _, Spec.vec, map_zero, mul_zero, zero_mul]
    · exact h0
  obtain ⟨L', hL', e3⟩ := Spec.smul_prodL hL hc (hb' ⟨0, hn⟩)
  refine ⟨L', fun v hv => (nonNull_iff hs v).mpr (hL' v hv), ?_⟩
  rw [r.eq_iff hs (rep_productOf hs L'), hx, e3]

/-- C107: in a metric that is not degenerate, of dimension at least one, `is_versor` answers `True` exactly for the
products of vectors which are not null. -/
theorem C107_versor_iff_partial (hs : g.IsSymm) (hd : g.det ≠ 0) (hn : n ≠ 0) {V : Mv K n} (hV : V.WF g)
    (hb : V.isBladeRep = true) : V.isVersor g = true ↔
      ∃ L : List (Fin n → K), (∀ v ∈ L, NonNull g v) ∧ V.eq g (productOf g L) = true :=
  ⟨C107_versor_sound_partial hs hd hV hb, fun ⟨_, h1, h2⟩ => C107_versor_complete hs hn hV hb h1 h2⟩

/-- The reflection of the vector `x` in the hyperplane orthogonal to `v`: `x - 2 (v·x)/(v·v) v`. -/
def reflectAlong (g : Matrix (Fin n) (Fin n) K) (v x : Fin n → K) : Fin n → K :=
  x - (2 * (v ⬝ᵥ g.mulVec x) / (v ⬝ᵥ g.mulVec v)) • v

theorem prodL_reflect (hs : g.IsSymm) {L : List (Fin n → K)} (h : ∀ v ∈ L, Spec.Q g v ≠ 0) (x : Fin n → K) :
    CliffordAlgebra.involute (Spec.prodL g L) * Spec.vec g x =
      Spec.vec g (L.foldr (reflectAlong g) x) * Spec.prodL g L := by
  induction L with
  | nil => simp [Spec.prodL]
  | cons v L ih =>
    have hv := h v (by simp)
    set u := L.foldr (reflectAlong g) x with hu
    rw [Spec.prodL_cons, map_mul, mul_assoc, ih fun w hw => h w (by simp [hw]), List.foldr_cons, ← hu,
      show CliffordAlgebra.involute (Spec.vec g v) = -Spec.vec g v from CliffordAlgebra.involute_ι v, ← mul_assoc,
      ← mul_assoc]
    congr 1
    rw [reflectAlong, ← Spec.ip_dot hs, ← Spec.ip_dot hs, Spec.ip_Q, neg_mul, Spec.vec_swap,
      show ∀ k : K, Spec.vec g (u - k • v) = Spec.vec g u - k • Spec.vec g v from
        fun k => by rw [Spec.vec, map_sub, map_smul]; rfl,
      sub_mul, smul_mul_assoc, Spec.vec_sq, Algebra.smul_def, ← map_mul, div_mul_cancel₀ _ hv]
    abel

/-- C107: a versor acts on vectors as a sequence of reflections (the theorem of Cartan and Dieudonné, in algebraic form):
in a metric that is not degenerate, if `is_versor` answers `True`, then there are vectors `v_1, ..., v_k` that are not null
such that `V.g_invol() * x == x' * V` for every vector `x`, where `x'` is `x` reflected along `v_k`, then ..., then along
`v_1`. -/
theorem C107_reflections (hs : g.IsSymm) (hd : g.det ≠ 0) {V : Mv K n} (hV : V.WF g) (hb : V.isBladeRep = true)
    (h : V.isVersor g = true) : ∃ L : List (Fin n → K), (∀ v ∈ L, NonNull g v) ∧ ∀ x : Fin n → K,
      ((V.gInvol g).mul g (Mv.vector x)).eq g ((Mv.vector (L.foldr (reflectAlong g) x)).mul g V) = true := by
  obtain ⟨L, h1, h2⟩ := C107_versor_sound_partial hs hd hV hb h
  have r := Rep.of_wf hV hb
  rw [r.eq_iff hs (rep_productOf hs L)] at h2
  rw [h2] at r
  refine ⟨L, h1, fun x => ?_⟩
  rw [((r.gInvol hs).mul hs (Rep.vector x)).eq_iff hs ((Rep.vector _).mul hs r)]
  exact prodL_reflect hs (fun v hv => (nonNull_iff hs v).mp (h1 v hv)) x

/-- For a degenerate metric the answer can be wrong: with the zero metric on two vectors, `1 + e_1^e_2` passes, and
the products of vectors that are not null do not contain it, since there are no such vectors. -/
theorem C107_versor_counterexample :
    let V : Mv ℚ 2 := Mv.ofExpr [(1, .blade []), (1, .blade [0, 1])]
    V.WF 0 ∧ V.isVersor 0 = true ∧ (∀ v, ¬ NonNull (0 : Matrix (Fin 2) (Fin 2) ℚ) v) ∧
      ∀ L : List (Fin 2 → ℚ), (∀ v ∈ L, NonNull 0 v) → V.eq 0 (productOf 0 L) = false := by
  intro V
  have hs : (0 : Matrix (Fin 2) (Fin 2) ℚ).IsSymm := Matrix.transpose_zero
  have hnn : ∀ v, ¬ NonNull (0 : Matrix (Fin 2) (Fin 2) ℚ) v := fun v => by
    rw [nonNull_iff hs, Spec.Q_apply]
    simp
  refine ⟨Ex.wf_of _ (by decide), by decide +kernel, hnn, fun L hL => ?_⟩
  cases L with
  | nil => decide +kernel
  | cons v L => exact absurd (hL v (by simp)) (hnn v)

/-- `B` is a blade of grade `r`: a multiple of the exterior product of `r` vectors, as the code computes it. -/
def BladeOfGrade (g : Matrix (Fin n) (Fin n) K) (r : ℕ) (B : Mv K n) : Prop :=
  ∃ (c : K) (L : List (Fin n → K)), L.length = r ∧ B.eq g ((outerOf g L).smul c) = true

theorem bladeOfGrade_iff (hs : g.IsSymm) {B : Mv K n} {x : Spec.Cl g} (r : Rep g B x) (k : ℕ) :
    BladeOfGrade g k B ↔ Spec.Simple g k x := by
  refine exists_congr fun c => exists_congr fun L => and_congr_right fun _ => ?_
  rw [r.eq_iff hs ((rep_outerOf hs L).smul c)]

/-- What `is_blade` tests, as a statement on the Clifford algebra. -/
theorem isBlade_spec (hs : g.IsSymm) {B : Mv K n} {x : Spec.Cl g} (r : Rep g B x) : B.isBlade g = true ↔
    x ≠ 0 ∧ ∃ k, Spec.Homogeneous g k x ∧ (k ≤ 1 ∨ B.isVersor g = true ∨ Spec.wedge g x x = 0) := by
  have hw := r.wedge hs r
  have hz : B.isZero = true ↔ x = 0 := by rw [isZero_iff r.wf, r.val]
  have hzw : (B.wedge g B).isZero = true ↔ Spec.wedge g x x = 0 := by rw [isZero_iff hw.wf, hw.val]
  rw [Mv.isBlade]
  constructor
  · intro h
    cases hk : B.iGrade with
    | none => simp [hk] at h
    | some k =>
      rw [hk] at h
      dsimp only at h
      have hx := ((iGrade_eq_some r k).mp hk).1
      split_ifs at h with h1 h2 h3
      · exact ⟨fun h0 => h1 (hz.mpr h0), k, hx, Or.inl h2⟩
      · exact ⟨fun h0 => h1 (hz.mpr h0), k, hx, Or.inr (Or.inl h3)⟩
      · exact ⟨fun h0 => h1 (hz.mpr h0), k, hx, Or.inr (Or.inr (hzw.mp h))⟩
  · rintro ⟨h0, k, hx, h⟩
    rw [iGrade_of r hx h0]
    dsimp only
    rw [if_neg (fun hh => h0 (hz.mp hh))]
    split_ifs with h2 h3
    · rfl
    · rfl
    · exact hzw.mpr ((h.resolve_left h2).resolve_left h3)

/-- C107: `is_blade` answers `True` for every non-zero multiple of an exterior product of vectors, in every metric. -/
theorem C107_blade_complete (hs : g.IsSymm) {B : Mv K n} (hB : B.WF g) (hb : B.isBladeRep = true) {k : ℕ}
    (h : BladeOfGrade g k B) (h0 : B.isZero = false) : B.isBlade g = true := by
  have r := Rep.of_wf hB hb
  obtain ⟨c, L, hl, hx⟩ := (bladeOfGrade_iff hs r k).mp h
  have h0' : B.val g ≠ 0 := by
    rw [← Bool.not_eq_true, isZero_iff r.wf] at h0
    exact h0
  refine (isBlade_spec hs r).mpr ⟨h0', k, ?_, ?_⟩
  · rw [hx, ← hl]; exact (Spec.homogeneous_wedgeL L).smul c
  · cases L with
    | nil => left; rw [← hl]; simp
    | cons v L =>
      right; right
      rw [hx, Spec.smul_wedge, Spec.wedge_smul, ← Spec.wedgeL_append, List.cons_append, Spec.wedgeL_cons,
        Spec.wedge_wedgeL_mem (by simp), smul_zero, smul_zero]

/-- C107: a multivector `is_blade` answers `True` for has a single grade, and is a blade if this grade is at most `2` or at least
`n - 1`, or if `is_versor` also answers `True`; in every metric.  Missing: grades from `3` to `n - 2` of multivectors that
are not versors, where the answer can be wrong for every metric (`C107_blade_counterexample`). -/
theorem C107_blade_sound_partial (hs : g.IsSymm) {B : Mv K n} (hB : B.WF g) (hb : B.isBladeRep = true)
    (h : B.isBlade g = true) : B.isZero = false ∧ ∃ k, B.iGrade = some k ∧
      (k ≤ 2 ∨ n ≤ k + 1 ∨ B.isVersor g = true → BladeOfGrade g k B) := by
  have r := Rep.of_wf hB hb
  obtain ⟨h0, k, hk, ht⟩ := (isBlade_spec hs r).mp h
  refine ⟨by rw [← Bool.not_eq_true, isZero_iff r.wf]; exact h0, k, iGrade_of r hk h0, fun hc => ?_⟩
  rw [bladeOfGrade_iff hs r]
  have hver : B.isVersor g = true → Spec.Simple g k (B.val g) := fun hv => by
    obtain ⟨⟨q, hq, e⟩, h1, -⟩ := (isVersor_spec hs r).mp hv
    refine Spec.simple_versor hk hq e ?_ h1
    have e1 : B.val g * (q⁻¹ • CliffordAlgebra.reverse (B.val g)) = 1 := by
      rw [mul_smul_comm, e, Algebra.smul_def, ← map_mul, inv_mul_cancel₀ hq, map_one]
    have e2 := Spec.mul_eq_one_symm e1
    rw [smul_mul_assoc] at e2
    have e3 := congrArg (q • ·) e2
    simp only [smul_smul, mul_inv_cancel₀ hq, one_smul] at e3
    rw [e3, Algebra.algebraMap_eq_smul_one]
  have hkn : k ≤ n := by
    by_contra hlt
    exact h0 (by rw [← hk.grade_eq]; exact Spec.grade_gt (by omega) _)
  rcases hc with hc | hc | hc
  · interval_cases k
    · exact Spec.simple_zero hk
    · exact Spec.simple_one hk
    · rcases ht with ht | ht | ht
      · omega
      · exact hver ht
      · exact Spec.simple_two hk ht
  · rcases Nat.lt_or_ge k n with hlt | hge
    · exact Spec.simple_pred (by omega) hk
    · obtain rfl : k = n := by omega
      exact Spec.simple_top hk
  · exact hver hc

/-- C107: in up to four dimensions, for every metric, `is_blade` answers `True` exactly for the non-zero blades. -/
theorem C107_blade_iff_partial (hs : g.IsSymm) (hn : n ≤ 4) {B : Mv K n} (hB : B.WF g) (hb : B.isBladeRep = true) :
    B.isBlade g = true ↔ B.isZero = false ∧ ∃ k, BladeOfGrade g k B := by
  constructor
  · intro h
    obtain ⟨h0, k, -, h1⟩ := C107_blade_sound_partial hs hB hb h
    exact ⟨h0, k, h1 (by omega)⟩
  · rintro ⟨h0, k, h1⟩
    exact C107_blade_complete hs hB hb h1 h0

/-- C107: a multivector of one grade that passes `is_versor` is a blade, in every metric. -/
theorem C107_versor_blade (hs : g.IsSymm) {V : Mv K n} (hV : V.WF g) (hb : V.isBladeRep = true)
    (h : V.isVersor g = true) {k : ℕ} (hk : V.iGrade = some k) : V.isBlade g = true ∧ BladeOfGrade g k V := by
  have r := Rep.of_wf hV hb
  have h0 : V.val g ≠ 0 := by
    obtain ⟨⟨q, hq, e⟩, -⟩ := (isVersor_spec hs r).mp h
    intro h0
    rw [h0, zero_mul] at e
    exact hq (algebraMap_inj g (by rw [← e, map_zero]))
  have hb' : V.isBlade g = true :=
    (isBlade_spec hs r).mpr ⟨h0, k, ((iGrade_eq_some r k).mp hk).1, Or.inr (Or.inl h)⟩
  obtain ⟨-, k', h1, h2⟩ := C107_blade_sound_partial hs hV hb hb'
  rw [hk] at h1
  obtain rfl := Option.some.inj h1
  exact ⟨hb', h2 (Or.inr (Or.inr h))⟩

end GA

namespace Spec
open CliffordAlgebra
variable {n : ℕ} {K : Type*} [Field K] [Invertible (2 : K)] {g : Matrix (Fin n) (Fin n) K}

theorem Simple.cof {r : ℕ} {x : Cl g} (h : Simple g r x) (d : Module.Dual K (Fin n → K)) :
    Simple g (r - 1) (Spec.cof g d x) := by
  obtain ⟨c, L, hl, rfl⟩ := h
  obtain ⟨c', L', h1, h2⟩ := cof_wedgeL (g := g) d L
  rw [map_smul, h1]
  exact ⟨c * c', L', by rw [h2, hl], by rw [smul_smul]⟩

theorem Simple.strip {l m A : List (Fin n)} (hA : A.Nodup) (hl : ∀ i ∈ A, i ∉ l) (hm : ∀ i ∈ A, i ∉ m) :
    ∀ {r : ℕ}, Simple g r (blade g (A ++ l) + blade g (A ++ m)) → Simple g (r - A.length) (blade g l + blade g m) := by
  induction A with
  | nil => intro r h; simpa using h
  | cons i A ih =>
    intro r h
    rw [List.nodup_cons] at hA
    have h1 := h.cof (LinearMap.proj i)
    rw [map_add, List.cons_append, List.cons_append, ← blade_eq_cof, ← blade_eq_cof] at h1
    · have := ih hA.2 (fun j hj => hl j (by simp [hj])) (fun j hj => hm j (by simp [hj])) h1
      rwa [List.length_cons, Nat.sub_add_eq, Nat.sub_right_comm]
    · rw [List.mem_append]; push Not; exact ⟨hA.1, hm i (by simp)⟩
    · rw [List.mem_append]; push Not; exact ⟨hA.1, hl i (by simp)⟩

theorem not_simple_pair {a b c d : Fin n} (h : [a, b, c, d].Nodup) : ¬ Simple g 2 (blade g [a, b] + blade g [c, d]) := by
  rintro ⟨k, L, hl, e⟩
  have h0 : wedge g (blade g [a, b] + blade g [c, d]) (blade g [a, b] + blade g [c, d]) = 0 := by
    cases L with
    | nil => simp at hl
    | cons v L =>
      rw [e, smul_wedge, wedge_smul, ← wedgeL_append, List.cons_append, wedgeL_cons, wedge_wedgeL_mem (by simp), smul_zero,
        smul_zero]
  have e1 : ∀ i j : Fin n, wedge g (blade g [i, j]) (blade g [i, j]) = 0 := fun i j => by
    rw [wedge_blade, blade_eq_wedgeL]
    simp only [List.cons_append, List.nil_append, List.map_cons, List.map_nil, wedgeL_cons]
    rw [wedge_vec_swap (Pi.single j 1) (Pi.single i 1), wedge_neg, wedge_self, neg_zero]
  have e2 : wedge g (blade g [c, d]) (blade g [a, b]) = wedge g (blade g [a, b]) (blade g [c, d]) := by
    rw [wedge_comm (homogeneous_blade [c, d]) (homogeneous_blade [a, b])]
    norm_num
  rw [add_wedge, wedge_add, wedge_add, e1, e1, e2, zero_add, add_zero, ← two_smul K, wedge_blade] at h0
  refine blade_ne_zero (g := g) h ?_
  have h1 : (2 : K) ≠ 0 := (isUnit_of_invertible (2 : K)).ne_zero
  exact (smul_eq_zero.mp h0).resolve_left h1

end Spec

namespace GA
variable {n : ℕ} {K : Type*} [Field K] [DecidableEq K] [Invertible (2 : K)]
  {g : Matrix (Fin n) (Fin n) K}

/-- The remaining answers cannot be trusted: whatever the metric, for every grade `r` from `3` to `n - 2` there is a
multivector of grade `r` for which `is_blade` answers `True` although it is not a blade of any grade:
`e_1^...^e_(r-2)^(e_(r-1)^e_r + e_(r+1)^e_(r+2))`.  (The docstring of `is_blade` allows false answers only from dimension
`2r` on.) -/
theorem C107_blade_counterexample (hs : g.IsSymm) {r : ℕ} (h3 : 3 ≤ r) (hr : r + 2 ≤ n) :
    ∃ B : Mv K n, B.WF g ∧ B.isBladeRep = true ∧ B.iGrade = some r ∧ B.isBlade g = true ∧ ∀ k, ¬ BladeOfGrade g k B := by
  let f : ℕ → Fin n := fun i => ⟨i % n, Nat.mod_lt _ (by omega)⟩
  have hf : ∀ {i j : ℕ}, i < n → j < n → f i = f j → i = j := fun {i j} hi hj h => by
    have := congrArg Fin.val h
    simpa [f, Nat.mod_eq_of_lt hi, Nat.mod_eq_of_lt hj] using this
  obtain ⟨s, rfl⟩ : ∃ s, r = s + 3 := ⟨r - 3, by omega⟩
  let A : List (Fin n) := (List.range (s + 1)).map f
  have hAnd : A.Nodup := by
    refine (List.nodup_map_iff_inj_on List.nodup_range).mpr fun i hi j hj h => ?_
    rw [List.mem_range] at hi hj
    exact hf (by omega) (by omega) h
  have hAn : ∀ j, s + 1 ≤ j → j < n → ∀ i ∈ A, i ≠ f j := fun j h1 h2 i hi h => by
    obtain ⟨k, hk, rfl⟩ := List.mem_map.mp hi
    rw [List.mem_range] at hk
    have := hf (by omega) h2 h
    omega
  let a := f (s + 1); let b := f (s + 2); let c := f (s + 3); let d := f (s + 4)
  let x : Spec.Cl g := Spec.blade g (A ++ [a, b]) + Spec.blade g (A ++ [c, d])
  have hlen : A.length = s + 1 := by simp [A]
  have hx : Spec.Homogeneous g (s + 3) x := by
    have h1 := Spec.homogeneous_blade (g := g) (A ++ [a, b])
    have h2 := Spec.homogeneous_blade (g := g) (A ++ [c, d])
    rw [List.length_append, hlen] at h1 h2
    exact h1.add h2
  have hns : ¬ Spec.Simple g (s + 3) x := fun h => by
    have h1 := h.strip hAnd (l := [a, b]) (m := [c, d])
      (fun i hi => by
        have := hAn (s + 1) (by omega) (by omega) i hi
        have := hAn (s + 2) (by omega) (by omega) i hi
        simp [a, b, *])
      (fun i hi => by
        have := hAn (s + 3) (by omega) (by omega) i hi
        have := hAn (s + 4) (by omega) (by omega) i hi
        simp [c, d, *])
    rw [hlen, show s + 3 - (s + 1) = 2 by omega] at h1
    refine Spec.not_simple_pair ?_ h1
    have hne : ∀ i j, i < n → j < n → i ≠ j → f i ≠ f j := fun i j hi hj hij h => hij (hf hi hj h)
    simp only [a, b, c, d, List.nodup_cons, List.mem_cons, List.not_mem_nil, or_false, not_or, not_false_eq_true,
      List.nodup_nil, and_true]
    refine ⟨⟨?_, ?_, ?_⟩, ⟨?_, ?_⟩, ?_⟩ <;> exact hne _ _ (by omega) (by omega) (by omega)
  have h0 : x ≠ 0 := fun h => hns (by
    rw [h]
    exact ⟨0, List.replicate (s + 3) 0, by simp, by rw [zero_smul]⟩)
  have hw : Spec.wedge g x x = 0 := by
    obtain ⟨z, hz⟩ : ∃ z, x = Spec.wedge g (Spec.e g (f 0)) z := by
      refine ⟨Spec.blade g (((List.range s).map fun i => f (i + 1)) ++ [a, b]) +
        Spec.blade g (((List.range s).map fun i => f (i + 1)) ++ [c, d]), ?_⟩
      have hA : A = f 0 :: (List.range s).map fun i => f (i + 1) := by
        simp only [A, List.range_succ_eq_map, List.map_cons, List.map_map]
        rfl
      rw [Spec.wedge_add, ← Spec.blade_cons, ← Spec.blade_cons]
      simp only [x, hA, List.cons_append]
    rw [hz, Spec.e, Spec.wedge_assoc, ← Spec.wedge_assoc z, Spec.wedge_vec_right, Spec.wedge_assoc, Spec.wedge_self]
  obtain ⟨E, hE, hx'⟩ := exists_expr g x
  have rep : Rep g (Mv.ofExpr E) x := (Rep.ofExpr hE).congr hx'
  refine ⟨Mv.ofExpr E, rep.wf, rep.flag, iGrade_of rep hx h0, ?_, fun k hk => ?_⟩
  · exact (isBlade_spec hs rep).mpr ⟨h0, s + 3, hx, Or.inr (Or.inr hw)⟩
  · have h1 := (bladeOfGrade_iff hs rep k).mp hk
    have h2 : Spec.Homogeneous g k x := by
      obtain ⟨c, L, hl, e⟩ := h1
      rw [e, ← hl]; exact (Spec.homogeneous_wedgeL L).smul c
    by_cases hks : k = s + 3
    · exact hns (hks ▸ h1)
    · exact h0 (Spec.homogeneous_ne hks h2 hx)

/-- Witness: in the non-orthogonal metric `Ex.gN`, a product of two vectors passes, and is not a blade. -/
example : NonNull Ex.gN ![1, 0, 0] ∧ NonNull Ex.gN ![1, 1, 0] ∧ Ex.gN.det ≠ 0 ∧
    (productOf Ex.gN [![1, 0, 0], ![1, 1, 0]]).isVersor Ex.gN = true ∧
    (productOf Ex.gN [![1, 0, 0], ![1, 1, 0]]).isBlade Ex.gN = false := by
  refine ⟨by unfold NonNull; decide +kernel, by unfold NonNull; decide +kernel, ?_, by decide +kernel, by decide +kernel⟩
  rw [Matrix.det_fin_three]; decide +kernel

/-- Witness: a multiple of an exterior product; a bivector that is not one; a null blade. -/
example :
    ((outerOf Ex.gN [![1, 0, 2], ![1, 1, 0]]).smul 3).isBlade Ex.gN = true ∧
    (Mv.ofExpr [(1, .blade [0, 1]), (1, .blade [2, 3])] : Mv ℚ 4).isBlade 1 = false ∧
    (let B : Mv ℚ 3 := outerOf 0 [![1, 0, 2], ![1, 1, 0]]
     B.isBlade 0 = true ∧ B.isVersor 0 = false ∧ B.iGrade = some 2) := by
  decide +kernel

/-- Witness: the counterexample in five dimensions, below the bound `2r = 6` of the docstring. -/
example : (Mv.ofExpr [(1, .blade [0, 1, 2]), (1, .blade [0, 3, 4])] : Mv ℚ 5).isBlade 1 = true ∧
    (Mv.ofExpr [(1, .blade [0, 1, 2]), (1, .blade [0, 3, 4])] : Mv ℚ 5).isVersor 1 = false := by
  decide +kernel

end GA
