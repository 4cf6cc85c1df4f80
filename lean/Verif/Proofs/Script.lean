import Verif.Spec.Script
import Verif.Proofs.Frame
import Verif.Proofs.Cache
import Verif.Proofs.Det
import Verif.Props.C24

/-! A change of basis changes neither the tests nor the results of the operations of scripts. -/

set_option linter.unusedSectionVars false

namespace GA
open _root_.Spec (Emb)
variable {n : ℕ} {K : Type*} [Field K] [DecidableEq K] [Invertible (2 : K)]
  {h g : Matrix (Fin n) (Fin n) K}

/-- `B` is the image of `A`. -/
def Sim (Ψ : Emb h g) (A B : Mv K n) : Prop := ∃ x, Rep h A x ∧ Rep g B (Ψ.hom x)

/-- The homomorphism is a change of basis with the determinant `d`. -/
structure Change (Ψ : Emb h g) (d : K) : Prop where
  inj : Function.Injective Ψ.hom
  surj : Function.Surjective Ψ.lin
  ne : d ≠ 0
  ps : Ψ.hom (Spec.pseudo h) = d • Spec.pseudo g
  symm : g.IsSymm
  symm' : h.IsSymm

section
variable {Ψ : Emb h g} {d : K} (C : Change Ψ d) {A B A' B' : Mv K n}
include C

theorem Change.homogeneous (r : ℕ) (x : Spec.Cl h) :
    Spec.Homogeneous g r (Ψ.hom x) ↔ Spec.Homogeneous h r x := by
  refine forall_congr' fun s => imp_congr_right fun _ => ?_
  rw [← Ψ.grade]
  exact ⟨fun e => C.inj (e.trans (map_zero _).symm), fun e => by rw [e, map_zero]⟩

theorem Change.zero_iff (x : Spec.Cl h) : Ψ.hom x = 0 ↔ x = 0 :=
  ⟨fun e => C.inj (e.trans (map_zero _).symm), fun e => by rw [e, map_zero]⟩

theorem Sim.eq (H : Sim Ψ A B) (H' : Sim Ψ A' B') : A.eq h A' = B.eq g B' := by
  obtain ⟨x, h1, h2⟩ := H
  obtain ⟨y, h3, h4⟩ := H'
  refine Bool.eq_iff_iff.mpr ?_
  rw [h1.eq_iff C.symm' h3, h2.eq_iff C.symm h4]
  exact ⟨fun e => by rw [e], fun e => C.inj e⟩

theorem Sim.isZero (H : Sim Ψ A B) : A.isZero = B.isZero := by
  obtain ⟨x, h1, h2⟩ := H
  refine Bool.eq_iff_iff.mpr ?_
  rw [isZero_iff h1.wf, isZero_iff h2.wf, h1.val, h2.val, C.zero_iff]

theorem Sim.isScalar (H : Sim Ψ A B) : A.isScalar h = B.isScalar g := by
  obtain ⟨x, h1, h2⟩ := H
  refine Bool.eq_iff_iff.mpr ?_
  rw [isScalar_iff C.symm' h1.wf, isScalar_iff C.symm h2.wf, h1.val, h2.val]
  constructor
  · rintro ⟨c, rfl⟩
    exact ⟨c, AlgHom.commutes _ _⟩
  · rintro ⟨c, e⟩
    exact ⟨c, C.inj (e.trans (AlgHom.commutes _ _).symm)⟩

theorem Sim.isVector (H : Sim Ψ A B) : A.isVector h = B.isVector g := by
  obtain ⟨x, h1, h2⟩ := H
  refine Bool.eq_iff_iff.mpr ?_
  rw [isVector_iff C.symm' h1.wf, isVector_iff C.symm h2.wf, h1.val, h2.val]
  exact and_congr (not_congr (C.zero_iff x).symm) (C.homogeneous 1 x).symm

theorem Sim.iGrade (H : Sim Ψ A B) : A.iGrade = B.iGrade := by
  obtain ⟨x, h1, h2⟩ := H
  ext r
  rw [iGrade_eq_some h1, iGrade_eq_some h2, C.homogeneous, C.zero_iff]

omit C in
theorem Sim.scalar (H : Sim Ψ A B) : A.scalar = B.scalar := by
  obtain ⟨x, h1, h2⟩ := H
  exact (scalar_emb Ψ h1 h2).symm

theorem Sim.mul (H : Sim Ψ A B) (H' : Sim Ψ A' B') : Sim Ψ (A.mul h A') (B.mul g B') := by
  obtain ⟨x, h1, h2⟩ := H
  obtain ⟨y, h3, h4⟩ := H'
  exact ⟨_, h1.mul C.symm' h3, (h2.mul C.symm h4).congr (map_mul ..).symm⟩

theorem Sim.wedge (H : Sim Ψ A B) (H' : Sim Ψ A' B') : Sim Ψ (A.wedge h A') (B.wedge g B') := by
  obtain ⟨x, h1, h2⟩ := H
  obtain ⟨y, h3, h4⟩ := H'
  exact ⟨_, h1.wedge C.symm' h3, (h2.wedge C.symm h4).congr (Ψ.wedge ..).symm⟩

theorem Sim.left (H : Sim Ψ A B) (H' : Sim Ψ A' B') : Sim Ψ (A.left h A') (B.left g B') := by
  obtain ⟨x, h1, h2⟩ := H
  obtain ⟨y, h3, h4⟩ := H'
  exact ⟨_, h1.left C.symm' h3, (h2.left C.symm h4).congr (Ψ.gradedProduct ..).symm⟩

theorem Sim.rev (H : Sim Ψ A B) : Sim Ψ (A.rev h) (B.rev g) := by
  obtain ⟨x, h1, h2⟩ := H
  exact ⟨_, h1.rev C.symm', (h2.rev C.symm).congr (Ψ.reverse ..).symm⟩

theorem Sim.gInvol (H : Sim Ψ A B) : Sim Ψ (A.gInvol h) (B.gInvol g) := by
  obtain ⟨x, h1, h2⟩ := H
  exact ⟨_, h1.gInvol C.symm', (h2.gInvol C.symm).congr (Ψ.involute ..).symm⟩

theorem Sim.pow (H : Sim Ψ A B) (k : ℕ) : Sim Ψ (A.pow h k) (B.pow g k) := by
  obtain ⟨x, h1, h2⟩ := H
  exact ⟨_, h1.pow C.symm' k, (h2.pow C.symm k).congr (map_pow ..).symm⟩

omit C in
theorem Sim.smul (c : K) (H : Sim Ψ A B) : Sim Ψ (A.smul c) (B.smul c) := by
  obtain ⟨x, h1, h2⟩ := H
  exact ⟨_, h1.smul c, (h2.smul c).congr (map_smul ..).symm⟩

omit C in
theorem Sim.neg (H : Sim Ψ A B) : Sim Ψ A.neg B.neg := by
  obtain ⟨x, h1, h2⟩ := H
  exact ⟨_, h1.neg, h2.neg.congr (map_neg ..).symm⟩

omit C in
theorem Sim.scalarMv (c : K) : Sim Ψ (Mv.scalarMv c) (Mv.scalarMv c) :=
  ⟨_, Rep.scalarMv c, (Rep.scalarMv c).congr (AlgHom.commutes _ _).symm⟩

omit C in
theorem Sim.scalarSub (c : K) (H : Sim Ψ A B) : Sim Ψ (Mv.scalarSub c A) (Mv.scalarSub c B) := by
  obtain ⟨x, h1, h2⟩ := H
  exact ⟨_, h1.scalarSub c, (h2.scalarSub c).congr (by rw [map_sub, AlgHom.commutes])⟩

theorem Sim.qform (H : Sim Ψ A B) : A.qform h = B.qform g := ((H.rev C).mul C H).scalar

omit C in
/-- What `is_versor` tests, without basis vectors. -/
theorem isVersor_iff' {g : Matrix (Fin n) (Fin n) K} (hs : g.IsSymm) {V : Mv K n} {x : Spec.Cl g}
    (hV : Rep g V x) : V.isVersor g = true ↔
      ((V.mul g (V.rev g)).isScalar g = true ∧ (V.mul g (V.rev g)).isZero = false) ∧
      (∀ v, Spec.Homogeneous g 1
        (CliffordAlgebra.involute x * Spec.vec g v * CliffordAlgebra.reverse x)) ∧
      ∃ v, CliffordAlgebra.involute x * Spec.vec g v * CliffordAlgebra.reverse x ≠ 0 := by
  let φ : (Fin n → K) →ₗ[K] Spec.Cl g :=
    (LinearMap.mulRight K (CliffordAlgebra.reverse x)).comp
      ((LinearMap.mulLeft K (CliffordAlgebra.involute x)).comp (CliffordAlgebra.ι (Spec.Q g)))
  have hφ : ∀ v, φ v = CliffordAlgebra.involute x * Spec.vec g v * CliffordAlgebra.reverse x :=
    fun v => rfl
  have himg : ∀ i : Fin n, Rep g (((V.gInvol g).mul g (Mv.ofExpr (bladeE [i]))).mul g (V.rev g))
      (φ (Pi.single i 1)) := fun i => by
    have hb : Rep g (Mv.ofExpr (bladeE [i]) : Mv K n) (Spec.vec g (Pi.single i 1)) := by
      have := Rep.ofExpr (g := g) (valid_bladeE (R := K) (l := [i]) (by simp))
      rwa [den_bladeE, Spec.blade_singleton] at this
    exact ((hV.gInvol hs).mul hs hb).mul hs (hV.rev hs)
  have hsum : ∀ v : Fin n → K, φ v = ∑ i, v i • φ (Pi.single i 1) := fun v => by
    rw [LinearMap.pi_apply_eq_sum_univ φ v]
    refine Finset.sum_congr rfl fun i _ => ?_
    congr 2
    funext j
    simp [Pi.single_apply, eq_comm]
  have hvec : ∀ i : Fin n,
      (((V.gInvol g).mul g (Mv.ofExpr (bladeE [i]))).mul g (V.rev g)).isVector g = true ↔
        φ (Pi.single i 1) ≠ 0 ∧ Spec.Homogeneous g 1 (φ (Pi.single i 1)) := fun i => by
    rw [isVector_iff hs (himg i).wf, (himg i).val]; rfl
  have hzero : ∀ i : Fin n,
      (((V.gInvol g).mul g (Mv.ofExpr (bladeE [i]))).mul g (V.rev g)).isZero = true ↔
        φ (Pi.single i 1) = 0 := fun i => by
    rw [isZero_iff (himg i).wf, (himg i).val]
  rw [Mv.isVersor]
  dsimp only
  simp only [Bool.if_false_right, List.all_map, List.any_map, List.all_eq_true, List.any_eq_true,
    Function.comp, List.mem_finRange, true_and, Bool.or_eq_true, forall_const, hvec, hzero,
    ← hφ, decide_eq_true_eq, Bool.and_eq_true, Bool.not_eq_true']
  refine and_congr_right fun _ => ?_
  constructor
  · rintro ⟨h1, i, h2, -⟩
    refine ⟨fun v r hr => ?_, _, h2⟩
    rw [hsum, map_sum]
    refine Finset.sum_eq_zero fun i _ => ?_
    rw [map_smul]
    rcases h1 i with h3 | ⟨-, h3⟩
    · rw [h3, map_zero, smul_zero]
    · rw [h3 r hr, smul_zero]
  · rintro ⟨h1, v, h2⟩
    refine ⟨fun i => ?_, ?_⟩
    · by_cases h0 : φ (Pi.single i 1) = 0
      · exact Or.inl h0
      · exact Or.inr ⟨h0, h1 _⟩
    · by_contra hne
      push Not at hne
      refine h2 ?_
      rw [hsum]
      refine Finset.sum_eq_zero fun i _ => ?_
      by_cases h0 : φ (Pi.single i 1) = 0
      · rw [h0, smul_zero]
      · exact absurd (h1 _) (hne i h0)

theorem Sim.isVersor (H : Sim Ψ A B) : A.isVersor h = B.isVersor g := by
  have hm := H.mul C (H.rev C)
  obtain ⟨x, h1, h2⟩ := H
  refine Bool.eq_iff_iff.mpr ?_
  rw [isVersor_iff' C.symm' h1, isVersor_iff' C.symm h2, hm.isScalar C, hm.isZero C]
  have e : ∀ v, CliffordAlgebra.involute (Ψ.hom x) * Spec.vec g (Ψ.lin v) *
      CliffordAlgebra.reverse (Ψ.hom x) =
        Ψ.hom (CliffordAlgebra.involute x * Spec.vec h v * CliffordAlgebra.reverse x) := fun v => by
    rw [map_mul, map_mul, Ψ.involute, Ψ.reverse, Ψ.vec]
  refine and_congr_right fun _ => and_congr ?_ ?_
  · constructor
    · intro hh v
      obtain ⟨u, rfl⟩ := C.surj v
      rw [e, C.homogeneous]
      exact hh u
    · intro hh v
      rw [← C.homogeneous, ← e]
      exact hh _
  · constructor
    · rintro ⟨v, hv⟩
      refine ⟨Ψ.lin v, ?_⟩
      rw [e, Ne, C.zero_iff]
      exact hv
    · rintro ⟨v, hv⟩
      obtain ⟨u, rfl⟩ := C.surj v
      refine ⟨u, ?_⟩
      rwa [e, Ne, C.zero_iff] at hv

theorem Sim.isBlade (H : Sim Ψ A B) : A.isBlade h = B.isBlade g := by
  rw [Mv.isBlade, Mv.isBlade, H.iGrade C, H.isZero C, H.isVersor C, (H.wedge C H).isZero C]

/-! ## The operations that may raise -/

theorem Sim.inv (H : Sim Ψ A B) : Option.Rel (Sim Ψ) (A.inv h) (B.inv g) := by
  have hr := H.rev C
  have h2 := H.mul C H
  have h3 := H.mul C hr
  have e : ∀ {A B : Mv K n}, Sim Ψ A B → scalarPart A.obj = scalarPart B.obj := fun H => H.scalar
  rw [Mv.inv, Mv.inv]
  dsimp only
  rw [H.isScalar C, h2.isScalar C, h3.isScalar C, e H, e h2, e h3]
  split_ifs
  · exact .none
  · exact .some (Sim.scalarMv _)
  · exact .none
  · exact .some (H.smul _)
  · exact .none
  · exact .some (hr.smul _)
  · exact .none

theorem Sim.zpow (H : Sim Ψ A B) (k : ℤ) : Option.Rel (Sim Ψ) (A.zpow h k) (B.zpow g k) := by
  rw [Mv.zpow, Mv.zpow]
  split_ifs
  · exact (H.pow C _).inv C
  · exact .some (H.pow C _)

theorem Sim.divide (H : Sim Ψ A B) (H' : Sim Ψ A' B') :
    Option.Rel (Sim Ψ) (divide h (.mv A) (.mv A')) (divide g (.mv B) (.mv B')) := by
  have := H'.inv C
  rw [GA.divide, GA.divide]
  revert this
  generalize A'.inv h = o
  generalize B'.inv g = o'
  rintro (⟨hh⟩ | _)
  · exact .some (H.mul C hh)
  · exact .none

theorem Sim.project (H : Sim Ψ A B) (H' : Sim Ψ A' B') :
    Option.Rel (Sim Ψ) (A.projectInBlade h A') (B.projectInBlade g B') := by
  rw [Mv.projectInBlade, Mv.projectInBlade]
  dsimp only
  rw [H'.isBlade C, H'.qform C]
  split_ifs
  · exact .none
  · exact .some ((H.left C H').mul C ((H'.rev C).smul _))
  · exact .none

omit C in
theorem reflect_value {g : Matrix (Fin n) (Fin n) K} (hs : g.IsSymm) {A B Binv : Mv K n}
    {x b b' : Spec.Cl g} (hA : Rep g A x) (hB : Rep g B b) (hr : Rep g Binv b') (r : ℕ) :
    ∃ D, gradeDecomposition (expand A.obj) = some D ∧
      Rep g (reflectLoop g B Binv r D) (b * twist g r x * b') := by
  have hE : Valid (expand A.obj) := hA.valid.expand
  have hl : AllSyms IsBl (linearExpand (expand A.obj)) := (valid_iff.mp hE).linearExpand isBl_one
  refine ⟨_, gradeDecomposition_eq hE, (reflectLoop_spec hs hB hr r _ ?_).congr ?_⟩
  · intro p hp
    have h1 : AllSyms IsBl ((groupTerms (linearExpand (expand A.obj)) []).flatMap fun p => p.2) :=
      allSyms_groupTerms (fun _ _ h => h) hl
    exact Valid.of fun t ht => h1 t (List.mem_flatMap.mpr ⟨p, hp, ht⟩)
  · congr 2
    rw [lin_groupTerms (symDen g) (fun k => (-1 : K) ^ (k * (r + 1))) _
      (fun r E => lin_smulE _ _ _)]
    rw [List.flatMap_nil, lin_nil, zero_add, ← hA.val, Mv.val, ← den_expand, ← den_linearExpand, den_eq_lin,
      ← AlgHom.toLinearMap_apply, map_lin]
    exact lin_congr _ _ _ fun t ht => (twist_symDen _ (hl t ht)).symm

omit C in
theorem emb_twist (r : ℕ) (x : Spec.Cl h) : Ψ.hom (twist h r x) = twist g r (Ψ.hom x) := by
  rw [twist, twist]
  split_ifs
  · rfl
  · exact Ψ.involute x

theorem Sim.reflect (H : Sim Ψ A B) (H' : Sim Ψ A' B') :
    Option.Rel (Sim Ψ) (A.reflectInBlade h A') (B.reflectInBlade g B') := by
  rw [Mv.reflectInBlade, Mv.reflectInBlade]
  dsimp only
  rw [H'.isBlade C, H'.qform C, H'.iGrade C]
  by_cases hb : B'.isBlade g = true
  · rw [if_pos hb, if_pos hb]
    by_cases hq : B'.qform g = 0
    · rw [if_pos hq, if_pos hq]; exact .none
    · rw [if_neg hq, if_neg hq]
      obtain ⟨x, h1, h2⟩ := H
      obtain ⟨y, h3, h4⟩ := H'
      obtain ⟨z, h5, h6⟩ : Sim Ψ ((A'.rev h).smul (B'.qform g)⁻¹) ((B'.rev g).smul (B'.qform g)⁻¹) :=
        Sim.smul _ (Sim.rev C ⟨y, h3, h4⟩)
      cases hi : B'.iGrade with
      | none => rw [Mv.isBlade, hi] at hb; exact absurd hb (by simp)
      | some r =>
        obtain ⟨D, e1, r1⟩ := reflect_value C.symm' h1 h3 h5 r
        obtain ⟨D', e2, r2⟩ := reflect_value C.symm h2 h4 h6 r
        rw [e1, e2]
        exact .some ⟨_, r1, r2.congr (by rw [map_mul, map_mul, emb_twist])⟩
  · rw [if_neg hb, if_neg hb]; exact .none

omit C in
theorem emb_hitzerNum (x : Spec.Cl h) :
    Ψ.hom (Spec.hitzerNum h x) = Spec.hitzerNum g (Ψ.hom x) := by
  rw [Spec.hitzerNum, Spec.hitzerNum]
  have hc : ∀ y, Ψ.hom (Spec.cconj y) = Spec.cconj (Ψ.hom y) := fun y => by
    rw [Spec.cconj, Spec.cconj]
    simp only [Ψ.involute, Ψ.reverse]
  split_ifs <;> simp only [map_add, map_one, map_smul, map_mul, map_sub, Ψ.involute, Ψ.reverse, hc, Ψ.grade]

theorem Sim.hitzer (H : Sim Ψ A B) :
    Option.Rel (Sim Ψ) (A.hitzerInverse h).toOption (B.hitzerInverse g).toOption := by
  by_cases hn : n ≤ 5
  · have H0 := H
    obtain ⟨x, h1, h2⟩ := H
    obtain ⟨N, e1, r1⟩ := hitzerNumerator_rep C.symm' hn h1
    obtain ⟨N', e2, r2⟩ := hitzerNumerator_rep C.symm hn h2
    have HN : Sim Ψ N N' := ⟨_, r1, r2.congr (emb_hitzerNum x).symm⟩
    rw [Mv.hitzerInverse, Mv.hitzerInverse, e1, e2]
    dsimp only
    rw [(H0.mul C HN).scalar]
    split_ifs
    · exact .none
    · exact .some (HN.smul _)
  · rw [C24_not_implemented (by omega), C24_not_implemented (by omega)]
    exact .none

theorem Sim.shirokov (H : Sim Ψ A B) :
    Option.Rel (Sim Ψ) (A.shirokovInverse h).toOption (B.shirokovInverse g).toOption := by
  have key : ∀ (N : ℕ) (l : List ℕ) (s s' : Mv K n × Option (Mv K n)), Sim Ψ s.1 s'.1 →
      Option.Rel (Sim Ψ) s.2 s'.2 →
      Sim Ψ (l.foldl (A.shirokovStep h N) s).1 (l.foldl (B.shirokovStep g N) s').1 ∧
      Option.Rel (Sim Ψ) (l.foldl (A.shirokovStep h N) s).2 (l.foldl (B.shirokovStep g N) s').2 := by
    intro N l
    induction l with
    | nil => exact fun s s' h1 h2 => ⟨h1, h2⟩
    | cons k l ih =>
      intro s s' h1 h2
      rw [List.foldl_cons, List.foldl_cons]
      have h3 : Sim Ψ (Mv.scalarSub ((N : K) / k * s.1.scalar) s.1)
          (Mv.scalarSub ((N : K) / k * s'.1.scalar) s'.1) := by
        rw [h1.scalar]
        exact h1.scalarSub _
      exact ih _ _ (H.neg.mul C h3) (.some h3)
  rw [Mv.shirokovInverse, Mv.shirokovInverse]
  dsimp only
  obtain ⟨h1, h2⟩ := key (2 ^ ((n + 1) / 2)) (List.range' 1 (2 ^ ((n + 1) / 2) - 1)) (A, none) (B, none) H
    .none
  rw [h1.scalar]
  split_ifs
  · exact .none
  · revert h2
    generalize ((List.range' 1 (2 ^ ((n + 1) / 2) - 1)).foldl (A.shirokovStep h (2 ^ ((n + 1) / 2)))
      (A, none)).2 = o
    generalize ((List.range' 1 (2 ^ ((n + 1) / 2) - 1)).foldl (B.shirokovStep g (2 ^ ((n + 1) / 2)))
      (B, none)).2 = o'
    rintro (⟨hh⟩ | _)
    · exact .some (hh.smul _)
    · exact .none

/-- The normalised pseudoscalars. -/
theorem Change.normI {sqrt : K → K} {plus : Bool}
    (ho : sqrt (if plus then eSq h else -eSq h) = d * sqrt (if plus then eSq g else -eSq g)) :
    Option.Rel (fun I J => Sim Ψ I.1 J.1 ∧ Sim Ψ I.2 J.2) (normI h sqrt plus) (normI g sqrt plus) := by
  have hs : ∀ e : K, (if plus = true then sqrt e else sqrt (-e)) = sqrt (if plus then e else -e) :=
    fun e => by cases plus <;> rfl
  rw [GA.normI, GA.normI]
  rw [hs, hs, ho, Mv.divScalar, Mv.divScalar]
  generalize sqrt (if plus = true then eSq g else -eSq g) = s
  by_cases h0 : s = 0
  · rw [if_pos (by rw [h0, mul_zero]), if_pos h0]
    exact .none
  · rw [if_neg (mul_ne_zero C.ne h0), if_neg h0]
    have : Sim Ψ ((pseudoE : Mv K n).smul (d * s)⁻¹) ((pseudoE : Mv K n).smul s⁻¹) :=
      ⟨_, pseudoE_rep.smul _, (pseudoE_rep.smul _).congr (by
        rw [map_smul, C.ps, smul_smul]
        congr 1
        field_simp [C.ne])⟩
    refine .some ⟨this, ?_⟩
    dsimp only
    split_ifs
    · exact this
    · exact this.neg

theorem Sim.dual (H : Sim Ψ A B) {i i' j j' : Mv K n} (hi : Sim Ψ i j) (hi' : Sim Ψ i' j')
    (mode : String) : Sim Ψ (A.dual h i i' mode) (B.dual g j j' mode) := by
  rw [Mv.dual, Mv.dual]
  split_ifs
  · exact (hi'.smul _).mul C H
  · exact (hi.smul _).mul C H
  · exact (hi'.smul _).mul C H
  · exact (hi.smul _).mul C H
  · exact (H.smul _).mul C hi'
  · exact (H.smul _).mul C hi
  · exact (H.smul _).mul C hi'
  · exact (H.smul _).mul C hi

theorem Sim.undual (H : Sim Ψ A B) {i i' j j' : Mv K n} (hi : Sim Ψ i j) (hi' : Sim Ψ i' j')
    (mode : String) : Sim Ψ (A.undual h i i' mode) (B.undual g j j' mode) :=
  (hi.pow C 2).mul C (H.dual C hi hi' mode)

/-! ## Scripts -/

variable {S S' : Setting K n} {a b : ℕ → Mv K n}

theorem Change.calc (hS : ∀ i, Sim Ψ (a i) (b i)) (p : Calc K) : Sim Ψ (p.run h a) (p.run g b) := by
  choose x h1 h2 using hS
  exact ⟨_, calc_emb Ψ C.symm C.symm' h1 h2 p⟩

/-- Two settings of a script that differ by the change of basis. -/
structure SameSetting (h g : Matrix (Fin n) (Fin n) K) (d : K) (S S' : Setting K n) : Prop where
  left : S.g = h
  right : S'.g = g
  plus : S.plus = S'.plus
  mode : S.mode = S'.mode
  sqrt : S.sqrt = S'.sqrt
  root : S.sqrt (if S.plus then eSq h else -eSq h) = d * S.sqrt (if S.plus then eSq g else -eSq g)

theorem Change.rhs (T : SameSetting h g d S S') (hS : ∀ i, Sim Ψ (a i) (b i)) (r : Rhs K) :
    Option.Rel (Sim Ψ) (r.run S a) (r.run S' b) := by
  obtain ⟨rfl, rfl, e1, e2, e3, hr⟩ := T
  have hp := C.calc hS
  cases r with
  | value p => exact .some (hp p)
  | div p q => exact (hp p).divide C (hp q)
  | inv p => exact (hp p).inv C
  | zpow p k => exact (hp p).zpow C k
  | hitzer p => exact (hp p).hitzer C
  | shirokov p => exact (hp p).shirokov C
  | proj p q => exact (hp p).project C (hp q)
  | refl p q => exact (hp p).reflect C (hp q)
  | dual p =>
    have hn := C.normI hr
    rw [Rhs.run, Rhs.run, ← e1, ← e2, ← e3]
    revert hn
    generalize GA.normI S.g S.sqrt S.plus = o
    generalize GA.normI S'.g S.sqrt S.plus = o'
    rintro (⟨hh⟩ | _)
    · exact .some ((hp p).dual C hh.1 hh.2 _)
    · exact .none
  | undual p =>
    have hn := C.normI hr
    rw [Rhs.run, Rhs.run, ← e1, ← e2, ← e3]
    revert hn
    generalize GA.normI S.g S.sqrt S.plus = o
    generalize GA.normI S'.g S.sqrt S.plus = o'
    rintro (⟨hh⟩ | _)
    · exact .some ((hp p).undual C hh.1 hh.2 _)
    · exact .none

theorem Change.test (T : SameSetting h g d S S') (hS : ∀ i, Sim Ψ (a i) (b i)) (t : Test K) :
    t.run S a = t.run S' b := by
  obtain ⟨rfl, rfl, -, -, -, -⟩ := T
  have hp := C.calc hS
  induction t with
  | eq p q => exact (hp p).eq C (hp q)
  | isZero p => exact (hp p).isZero C
  | isScalar p => exact (hp p).isScalar C
  | isVector p => exact (hp p).isVector C
  | isVersor p => exact (hp p).isVersor C
  | isBlade p => exact (hp p).isBlade C
  | not t ih => rw [Test.run, Test.run, ih]
  | and t u ih ih' => rw [Test.run, Test.run, ih, ih']

omit C in
theorem Outcome.Same.andThen {α β γ δ : Type*} {r : α → β → Prop} {r' : γ → δ → Prop}
    {o : Outcome α} {o' : Outcome β} {k : α → Outcome γ} {k' : β → Outcome δ} (H : o.Same r o')
    (hk : ∀ a b, r a b → (k a).Same r' (k' b)) : (o.andThen k).Same r' (o'.andThen k') := by
  cases o <;> cases o' <;> first | exact H.elim | exact hk _ _ H | exact trivial

omit C in
theorem Outcome.Same.imp {α β : Type*} {r r' : α → β → Prop} {o : Outcome α} {o' : Outcome β}
    (H : o.Same r o') (hr : ∀ a b, r a b → r' a b) : o.Same r' o' := by
  cases o <;> cases o' <;> first | exact H.elim | exact hr _ _ H | exact trivial

omit C in
theorem loop_same {α β : Type*} {r : α → β → Prop} {t : α → Bool} {t' : β → Bool}
    {f : α → Outcome α} {f' : β → Outcome β} (ht : ∀ a b, r a b → t a = t' b)
    (hf : ∀ a b, r a b → (f a).Same r (f' b)) (k : ℕ) (a : α) (b : β) (hab : r a b) :
    (loopRun t f k a).Same r (loopRun t' f' k b) := by
  induction k generalizing a b with
  | zero =>
    rw [loopRun, loopRun, ht a b hab]
    split_ifs
    · trivial
    · exact hab
  | succ k ih =>
    rw [loopRun, loopRun, ht a b hab]
    split_ifs
    · exact (hf a b hab).andThen ih
    · exact hab

theorem Change.script (T : SameSetting h g d S S') (k : ℕ) (P : Script K) :
    ∀ (a b : ℕ → Mv K n), (∀ i, Sim Ψ (a i) (b i)) →
      (P.run S k a).Same (fun a b => ∀ i, Sim Ψ (a i) (b i)) (P.run S' k b) := by
  induction P with
  | pass => exact fun a b hab => hab
  | assign x r =>
    intro a b hab
    have hr := C.rhs T hab r
    rw [Script.run, Script.run]
    revert hr
    generalize r.run S a = o
    generalize r.run S' b = o'
    rintro (⟨hh⟩ | _)
    · intro i
      rw [Function.update_apply, Function.update_apply]
      split_ifs
      · exact hh
      · exact hab i
    · trivial
  | seq P Q ihP ihQ =>
    intro a b hab
    rw [Script.run, Script.run]
    exact (ihP a b hab).andThen ihQ
  | cond t P Q ihP ihQ =>
    intro a b hab
    rw [Script.run, Script.run, C.test T hab t]
    split_ifs
    · exact ihP a b hab
    · exact ihQ a b hab
  | loop t P ih =>
    intro a b hab
    rw [Script.run, Script.run]
    exact loop_same (r := fun a b : ℕ → Mv K n => ∀ i, Sim Ψ (a i) (b i)) (fun a b hab => C.test T hab t) ih
      k a b hab

end

theorem Test.run_congr {S S' : Setting K n} (hg : S.g = S'.g) (a : ℕ → Mv K n) (t : Test K) :
    t.run S a = t.run S' a := by
  induction t with
  | not t ih => rw [Test.run, Test.run, ih]
  | and t u ih ih' => rw [Test.run, Test.run, ih, ih']
  | _ => simp only [Test.run, hg]

/-- A script without duals does not use the pseudoscalar. -/
theorem Script.run_congr {S S' : Setting K n} (hg : S.g = S'.g) (k : ℕ) (P : Script K)
    (hP : P.dualFree = true) : P.run S k = P.run S' k := by
  induction P with
  | pass => rfl
  | assign x r =>
    funext a
    have : r.run S a = r.run S' a := by
      cases r with
      | dual p => exact absurd hP (by simp [Script.dualFree])
      | undual p => exact absurd hP (by simp [Script.dualFree])
      | _ => simp only [Rhs.run, hg]
    rw [Script.run, Script.run, this]
  | seq P Q ihP ihQ =>
    rw [Script.dualFree, Bool.and_eq_true] at hP
    funext a
    rw [Script.run, Script.run, ihP hP.1, ihQ hP.2]
  | cond t P Q ihP ihQ =>
    rw [Script.dualFree, Bool.and_eq_true] at hP
    funext a
    rw [Script.run, Script.run, ihP hP.1, ihQ hP.2, Test.run_congr hg a t]
  | loop t P ih =>
    funext a
    rw [Script.run, Script.run, ih hP, show t.run S = t.run S' from funext fun a => Test.run_congr hg a t]

/-- Vectors whose matrix has a left inverse are a change of basis. -/
theorem change_of_frame {g : Matrix (Fin n) (Fin n) K} (hs : g.IsSymm) {f : Fin n → Fin n → K}
    (hd : (Matrix.of f).det ≠ 0) : Change (Spec.emb g f) (Matrix.of f).det := by
  have hT : (Matrix.of f).transpose.det ≠ 0 := by rwa [Matrix.det_transpose]
  have hU := (Ne.isUnit hT)
  have hlin : ∀ v, (Spec.emb g f).lin v = (Matrix.of f).transpose.mulVec v := fun v => by
    change Spec.combLin f v = _
    funext k
    rw [Spec.combLin_apply, Matrix.mulVec, dotProduct]
    rfl
  refine ⟨?_, ?_, hd, ?_, hs, gramOf_symm hs f⟩
  · refine (Spec.emb g f).injective (L := ((Matrix.of f).transpose⁻¹).mulVecLin) fun v => ?_
    rw [hlin, Matrix.mulVecLin_apply, Matrix.mulVec_mulVec, Matrix.nonsing_inv_mul _ hU, Matrix.one_mulVec]
  · intro v
    refine ⟨((Matrix.of f).transpose⁻¹).mulVec v, ?_⟩
    rw [hlin, Matrix.mulVec_mulVec, Matrix.mul_nonsing_inv _ hU, Matrix.one_mulVec]
  · rw [Spec.pseudo_eq_ofFn, (Spec.emb g f).wedgeL, List.map_ofFn, ← Spec.wedgeL_ofFn_det]
    congr 2
    funext i
    exact Spec.combLin_single f i

theorem eSq_frame {g : Matrix (Fin n) (Fin n) K} (hs : g.IsSymm) (f : Fin n → Fin n → K) :
    eSq (Spec.gramOf g f) = (Matrix.of f).det ^ 2 * eSq g := by
  rw [eSq_eq hs, eSq_eq (gramOf_symm hs f), Spec.gramOf_eq, Matrix.det_mul, Matrix.det_mul,
    Matrix.det_transpose, show (Matrix.of fun k i => f i k) = (Matrix.of f).transpose from rfl,
    Matrix.det_transpose]
  ring

end GA
