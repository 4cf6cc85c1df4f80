import Verif.Model.Blade
import Verif.Proofs.Project
import Verif.Proofs.Flags

/-! `is_blade`, projection and reflection of the model, on exterior products of vectors. -/

set_option linter.unusedSectionVars false

namespace GA

section ring
variable {n : ℕ} {R : Type*} [CommRing R] [DecidableEq R] [Invertible (2 : R)]
  {g : Matrix (Fin n) (Fin n) R}

theorem iGrade_of {B : Mv R n} {x : Spec.Cl g} (hB : Rep g B x) {r : ℕ}
    (h : Spec.Homogeneous g r x) (h0 : x ≠ 0) : B.iGrade = some r := by
  have h1 : gradesOf B.obj = some [r] := by
    rw [gradesOf_eq_singleton hB.valid, expand_len_iff (g := g) hB.valid, expand_eq_nil (g := g) hB.valid,
      hB.den]
    exact ⟨h, fun h' => absurd h' h0⟩
  rw [Mv.iGrade, h1]

theorem isZero_iff {A : Mv R n} (hA : A.WF g) : A.isZero = true ↔ A.val g = 0 := by
  rw [Mv.isZero, decide_eq_true_eq, val_eq_zero hA]

/-- `is_blade` accepts every non-zero exterior product of vectors. -/
theorem isBlade_wedgeL (hs : g.IsSymm) {B : Mv R n} {L : List (Fin n → R)}
    (hB : Rep g B (Spec.wedgeL g L)) (h0 : Spec.wedgeL g L ≠ 0) :
    B.isBlade g = true := by
  rw [Mv.isBlade, iGrade_of hB (Spec.homogeneous_wedgeL L) h0]
  dsimp only
  rw [if_neg (by rw [isZero_iff hB.wf, hB.val]; exact h0)]
  split_ifs with h1 h2
  · rfl
  · rfl
  · have h3 := hB.wedge hs hB
    rw [isZero_iff h3.wf, h3.val, ← Spec.wedgeL_append]
    cases L with
    | nil => simp at h1
    | cons v L =>
      rw [List.cons_append, Spec.wedgeL_cons, Spec.wedge_wedgeL_mem (by simp)]

end ring

section field
variable {n : ℕ} {K : Type*} [Field K] [DecidableEq K] [Invertible (2 : K)]
  {g : Matrix (Fin n) (Fin n) K}

theorem neg_one_pow_sq {R : Type*} [CommRing R] (k : ℕ) : (-1 : R) ^ k * (-1) ^ k = 1 := by
  rw [← mul_pow, neg_one_mul, neg_neg, one_pow]

/-- The square of a blade and the inverse that the code uses. -/
theorem blade_inverse (hs : g.IsSymm) {B : Mv K n} {L : List (Fin n → K)}
    (hB : Rep g B (Spec.wedgeL g L)) (hq : B.qform g ≠ 0) :
    Spec.wedgeL g L ≠ 0 ∧ ∃ c d : K, d * c = 1 ∧
      Spec.wedgeL g L * Spec.wedgeL g L = algebraMap K _ c ∧
      Rep g ((B.rev g).smul (B.qform g)⁻¹) (d • Spec.wedgeL g L) := by
  obtain ⟨c, hc⟩ := Spec.homogeneous_zero_iff.mp (Spec.wedgeL_sq_homogeneous (g := g) L)
  have h1 := (hB.rev hs).mul hs hB
  rw [Spec.reverse_wedgeL, smul_mul_assoc, hc, Algebra.smul_def, ← map_mul] at h1
  have h2 : B.qform g = (-1) ^ (L.length * (L.length - 1) / 2) * c := by
    have := h1.scalar
    rw [grade_zero_algebraMap] at this
    exact algebraMap_inj g this
  have hc0 : c ≠ 0 := fun h => hq (by rw [h2, h, mul_zero])
  refine ⟨?_, c, c⁻¹, inv_mul_cancel₀ hc0, hc, ?_⟩
  · intro h
    rw [h, mul_zero] at hc
    exact hc0 (algebraMap_inj g (by rw [← hc, map_zero]))
  · have h3 := (hB.rev hs).smul (B.qform g)⁻¹
    refine h3.congr ?_
    rw [Spec.reverse_wedgeL, smul_smul]
    congr 1
    rw [h2]
    have := neg_one_pow_sq (R := K) (L.length * (L.length - 1) / 2)
    have hp : ((-1 : K) ^ (L.length * (L.length - 1) / 2)) ≠ 0 := pow_ne_zero _ (by simp)
    field_simp

theorem project_spec (hs : g.IsSymm) {A B : Mv K n} {x : Spec.Cl g} {L : List (Fin n → K)}
    (hA : A.WF g) (hx : A.val g = x) (hB : Rep g B (Spec.wedgeL g L)) (hq : B.qform g ≠ 0) {c d : K}
    (hd : d * c = 1) (hc : Spec.wedgeL g L * Spec.wedgeL g L = algebraMap K _ c) :
    ∃ P, A.projectInBlade g B = some P ∧
      Rep g P (Spec.leftContraction g x (Spec.wedgeL g L) * (d • Spec.wedgeL g L)) := by
  obtain ⟨h0, c', d', hd', hc', hr⟩ := blade_inverse hs hB hq
  have e : c = c' := algebraMap_inj g (hc.symm.trans hc')
  subst e
  have e : d = d' := by
    have hc0 : c ≠ 0 := fun h => by rw [h, mul_zero] at hd; exact zero_ne_one hd
    exact mul_right_cancel₀ hc0 (hd.trans hd'.symm)
  subst e
  refine ⟨_, by rw [Mv.projectInBlade, if_pos (isBlade_wedgeL hs hB h0), if_neg hq], ?_⟩
  subst hx
  have h1 : Rep g (A.left g B) (Spec.leftContraction g (A.val g) (Spec.wedgeL g L)) := by
    have h := left_spec hs hA hB.wf
    rw [hB.val] at h
    refine ⟨h.1, ?_, h.2⟩
    exact (ofExpr_valid (g := g) (leftContract_spec g hs (bladeRep_valid hs hA)
      (bladeRep_valid hs hB.wf)).1).2
  exact h1.mul hs hr

/-- The twist in a reflection: the grade involution if the grade of the blade is even. -/
noncomputable def twist (g : Matrix (Fin n) (Fin n) K) (r : ℕ) : Spec.Cl g →ₐ[K] Spec.Cl g :=
  if r % 2 = 1 then AlgHom.id K _ else CliffordAlgebra.involute

theorem twist_symDen (r : ℕ) {s : Sym n} (h : IsBl s) :
    twist g r (symDen g s) = (-1 : K) ^ (symLen s * (r + 1)) • symDen g s := by
  rw [twist]
  split_ifs with hr
  · rw [Even.neg_one_pow ((Nat.even_iff.mpr (by omega)).mul_left _), one_smul]; rfl
  · rw [involute_symDen g h, mul_comm, pow_mul,
      Odd.neg_one_pow (n := r + 1) (Nat.odd_iff.mpr (by omega))]

theorem reflectLoop_spec (hs : g.IsSymm) {B Binv : Mv K n} {b b' : Spec.Cl g} (hB : Rep g B b)
    (hI : Rep g Binv b') (r : ℕ) (d : Dict ℕ (Expr K n)) (hd : ∀ p ∈ d, Valid p.2) :
    Rep g (reflectLoop g B Binv r d)
      (b * lin (symDen g) (d.flatMap fun p => smulE ((-1) ^ (p.1 * (r + 1))) p.2) * b') := by
  have key : ∀ (d : Dict ℕ (Expr K n)) (acc : Mv K n) (y : Spec.Cl g), (∀ p ∈ d, Valid p.2) →
      Rep g acc y →
      Rep g (d.foldl (fun refl p =>
        let part := (B.mul g (Mv.ofExpr p.2)).mul g Binv
        if (p.1 * (r + 1)) % 2 = 0 then refl.add g part else refl.sub g part) acc)
        (y + b * lin (symDen g) (d.flatMap fun p => smulE ((-1) ^ (p.1 * (r + 1))) p.2) * b') := by
    intro d
    induction d with
    | nil => intro acc y _ h; simpa using h
    | cons p d ih =>
      intro acc y hd hacc
      rw [List.foldl_cons]
      dsimp only
      have hp := Rep.ofExpr (g := g) (hd p (by simp))
      have hpart := (hB.mul hs hp).mul hs hI
      have hd' : ∀ q ∈ d, Valid q.2 := fun q hq => hd q (by simp [hq])
      split_ifs with h
      · refine (ih _ _ hd' (hacc.add hs hpart)).congr ?_
        rw [List.flatMap_cons, lin_append, lin_smulE, Even.neg_one_pow (Nat.even_iff.mpr h), one_smul,
          den_eq_lin, mul_add, add_mul]
        abel
      · refine (ih _ _ hd' (hacc.sub hs hpart)).congr ?_
        rw [List.flatMap_cons, lin_append, lin_smulE,
          Odd.neg_one_pow (Nat.odd_iff.mpr (by omega)), neg_one_smul, den_eq_lin, mul_add, add_mul,
          mul_neg, neg_mul]
        abel
  have := key d _ _ hd (Rep.scalarMv (g := g) (0 : K))
  rw [map_zero, zero_add] at this
  exact this

theorem reflect_spec (hs : g.IsSymm) {A B : Mv K n} {x : Spec.Cl g} {L : List (Fin n → K)}
    (hA : Valid A.obj) (hx : A.val g = x) (hB : Rep g B (Spec.wedgeL g L)) (hq : B.qform g ≠ 0)
    {c d : K} (hd : d * c = 1)
    (hc : Spec.wedgeL g L * Spec.wedgeL g L = algebraMap K _ c) :
    ∃ P, A.reflectInBlade g B = some P ∧
      Rep g P (Spec.wedgeL g L * twist g L.length x * (d • Spec.wedgeL g L)) := by
  obtain ⟨h0, c', d', hd', hc', hr⟩ := blade_inverse hs hB hq
  have e : c = c' := algebraMap_inj g (hc.symm.trans hc')
  subst e
  have e : d = d' := by
    have hc0 : c ≠ 0 := fun h => by rw [h, mul_zero] at hd; exact zero_ne_one hd
    exact mul_right_cancel₀ hc0 (hd.trans hd'.symm)
  subst e
  have hE : Valid (expand A.obj) := hA.expand
  have hl : AllSyms IsBl (linearExpand (expand A.obj)) := (valid_iff.mp hE).linearExpand isBl_one
  refine ⟨_, by
    rw [Mv.reflectInBlade, if_pos (isBlade_wedgeL hs hB h0)]
    dsimp only
    rw [if_neg hq, gradeDecomposition_eq hE, iGrade_of hB (Spec.homogeneous_wedgeL L) h0], ?_⟩
  refine (reflectLoop_spec hs hB hr L.length _ ?_).congr ?_
  · intro p hp
    have h1 : AllSyms IsBl ((groupTerms (linearExpand (expand A.obj)) []).flatMap fun p => p.2) :=
      allSyms_groupTerms (fun _ _ h => h) hl
    exact Valid.of fun t ht => h1 t (List.mem_flatMap.mpr ⟨p, hp, ht⟩)
  · congr 2
    rw [lin_groupTerms (symDen g) (fun k => (-1 : K) ^ (k * (L.length + 1))) _
      (fun r E => lin_smulE _ _ _)]
    rw [List.flatMap_nil, lin_nil, zero_add, ← hx, Mv.val, ← den_expand, ← den_linearExpand, den_eq_lin,
      ← AlgHom.toLinearMap_apply, map_lin]
    exact lin_congr _ _ _ fun t ht => (twist_symDen _ (hl t ht)).symm

theorem twist_wedgeL (L : List (Fin n → K)) :
    twist g L.length (Spec.wedgeL g L) = Spec.wedgeL g L := by
  rw [twist]
  split_ifs with h
  · rfl
  · rw [Spec.homogeneous_involute (Spec.homogeneous_wedgeL L),
      Even.neg_one_pow (Nat.even_iff.mpr (by omega)), one_smul]

theorem twist_twist (r : ℕ) (x : Spec.Cl g) : twist g r (twist g r x) = x := by
  rw [twist]
  split_ifs
  · rfl
  · exact CliffordAlgebra.involute_involute x

theorem twist_vec (r : ℕ) (v : Fin n → K) :
    twist g r (Spec.vec g v) = (-1 : K) ^ (r + 1) • Spec.vec g v := by
  rw [twist]
  split_ifs with h
  · rw [Even.neg_one_pow (Nat.even_iff.mpr (by omega)), one_smul]; rfl
  · rw [Odd.neg_one_pow (Nat.odd_iff.mpr (by omega)), neg_one_smul]
    exact CliffordAlgebra.involute_ι _

theorem map_sub_vec (v w : Fin n → K) : Spec.vec g (v - w) = Spec.vec g v - Spec.vec g w :=
  map_sub _ _ _

end field
end GA
