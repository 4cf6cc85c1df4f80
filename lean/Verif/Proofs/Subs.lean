import Verif.Proofs.Coef
import Verif.Spec.Program

/-! A ring homomorphism of the coefficients induces a homomorphism of the Clifford algebras of a metric
and its image, which respects blades, grades and all products. -/

set_option linter.unusedSectionVars false

namespace Spec
open CliffordAlgebra
variable {n : ℕ} {R S : Type*} [CommRing R] [CommRing S]

/-- A homomorphism between the Clifford algebras of `g` and of its image under `φ` that is `φ` on
scalars and on the coordinates of vectors. -/
structure Change (φ : R →+* S) (g : Matrix (Fin n) (Fin n) R) where
  hom : Cl g →+* Cl (g.map φ)
  scalar : ∀ c, hom (algebraMap R _ c) = algebraMap S _ (φ c)
  vec : ∀ v : Fin n → R, hom (Spec.vec g v) = Spec.vec (g.map φ) (fun i => φ (v i))

theorem exists_change (φ : R →+* S) (g : Matrix (Fin n) (Fin n) R) : Nonempty (Change φ g) := by
  let alg : Algebra R (Cl (g.map φ)) := RingHom.toAlgebra' ((algebraMap S _).comp φ)
    fun c x => Algebra.commutes (φ c) x
  have hsm : ∀ (c : R) (x : Cl (g.map φ)), c • x = φ c • x := by
    intro c x
    rw [Algebra.smul_def, Algebra.smul_def]; rfl
  let f : (Fin n → R) →ₗ[R] Cl (g.map φ) :=
    { toFun := fun v => Spec.vec (g.map φ) fun i => φ (v i)
      map_add' := fun v w => by
        rw [Spec.vec, Spec.vec, Spec.vec, ← map_add]
        congr 1; funext i; simp
      map_smul' := fun c v => by
        rw [RingHom.id_apply, hsm, Spec.vec, Spec.vec, ← map_smul]
        congr 1; funext i; simp }
  have hf : ∀ v, f v * f v = algebraMap R _ (Q g v) := by
    intro v
    change CliffordAlgebra.ι _ _ * CliffordAlgebra.ι _ _ = algebraMap S _ (φ (Q g v))
    rw [ι_sq_scalar, Q_apply, Q_apply]
    simp [map_sum]
  let Ψ := CliffordAlgebra.lift (Q g) ⟨f, hf⟩
  exact ⟨⟨Ψ.toRingHom, fun c => Ψ.commutes c, fun v => CliffordAlgebra.lift_ι_apply _ _ _⟩⟩

namespace Change
variable {φ : R →+* S} {g : Matrix (Fin n) (Fin n) R} (Ψ : Change φ g)

theorem smul (c : R) (x : Cl g) : Ψ.hom (c • x) = φ c • Ψ.hom x := by
  rw [Algebra.smul_def, map_mul, Ψ.scalar, Algebra.smul_def]

theorem e (i : Fin n) : Ψ.hom (Spec.e g i) = Spec.e (g.map φ) i := by
  rw [Spec.e, Ψ.vec, Spec.e]
  congr 1; funext j
  by_cases h : j = i
  · subst h; simp
  · simp [h]

theorem base (l : List (Fin n)) : Ψ.hom (Spec.base g l) = Spec.base (g.map φ) l := by
  rw [Spec.base, map_list_prod, List.map_map, Spec.base]
  congr 1
  exact List.map_congr_left fun i _ => Ψ.e i

variable [Invertible (2 : R)] [Invertible (2 : S)]

theorem blade (l : List (Fin n)) : Ψ.hom (Spec.blade g l) = Spec.blade (g.map φ) l := by
  induction l with
  | nil => simp
  | cons i l ih =>
    apply two_cancel (R := S)
    have h2 : φ 2 = 2 := map_ofNat φ 2
    rw [two_smul_blade_cons, ← h2, ← Ψ.smul, two_smul_blade_cons, map_add, map_mul, Ψ.smul, map_mul,
      Ψ.e, ih]
    simp

theorem grade (r : ℕ) (x : Cl g) :
    Ψ.hom (Spec.grade g r x) = Spec.grade (g.map φ) r (Ψ.hom x) := by
  induction x using blade_induction g with
  | h0 => simp
  | hadd x y hx hy => rw [map_add, map_add, hx, hy, map_add, map_add]
  | hsm c l _ =>
    rw [map_smul, Ψ.smul, Ψ.smul, map_smul, grade_blade, Ψ.blade, grade_blade]
    split_ifs
    · rw [Ψ.blade]
    · rw [map_zero]

theorem wedge (x y : Cl g) :
    Ψ.hom (Spec.wedge g x y) = Spec.wedge (g.map φ) (Ψ.hom x) (Ψ.hom y) := by
  induction x using blade_induction g with
  | h0 => simp [zero_wedge]
  | hadd x x' hx hy => rw [add_wedge, map_add, hx, hy, map_add, add_wedge]
  | hsm c l _ =>
    rw [smul_wedge, Ψ.smul, Ψ.smul, smul_wedge, Ψ.blade]
    congr 1
    induction y using blade_induction g with
    | h0 => simp [wedge_zero]
    | hadd x y hx hy => rw [wedge_add, map_add, hx, hy, map_add, wedge_add]
    | hsm c m _ =>
      rw [wedge_smul, Ψ.smul, Ψ.smul, wedge_smul, Ψ.blade, wedge_blade, wedge_blade, Ψ.blade]

theorem gradedProduct (f : ℕ → ℕ → Option ℕ) (x y : Cl g) :
    Ψ.hom (Spec.gradedProduct g f x y) =
      Spec.gradedProduct (g.map φ) f (Ψ.hom x) (Ψ.hom y) := by
  rw [Spec.gradedProduct, map_sum, Spec.gradedProduct]
  refine Finset.sum_congr rfl fun r _ => ?_
  rw [map_sum]
  refine Finset.sum_congr rfl fun s _ => ?_
  cases f r s with
  | none => simp
  | some t => simp only []; rw [Ψ.grade, map_mul, Ψ.grade, Ψ.grade]

theorem involute (x : Cl g) :
    Ψ.hom (CliffordAlgebra.involute x) = CliffordAlgebra.involute (Ψ.hom x) := by
  induction x using blade_induction g with
  | h0 => simp
  | hadd x y hx hy => rw [map_add, map_add, hx, hy, map_add, map_add]
  | hsm c l _ =>
    rw [map_smul, Ψ.smul, Ψ.smul, map_smul, involute_blade, Ψ.blade, Ψ.smul, Ψ.blade, involute_blade]
    simp

theorem reverse (x : Cl g) :
    Ψ.hom (CliffordAlgebra.reverse x) = CliffordAlgebra.reverse (Ψ.hom x) := by
  induction x using blade_induction g with
  | h0 => simp
  | hadd x y hx hy => rw [map_add, map_add, hx, hy, map_add, map_add]
  | hsm c l _ =>
    rw [map_smul, Ψ.smul, Ψ.smul, map_smul, reverse_blade, Ψ.blade, Ψ.smul, Ψ.blade, reverse_blade]
    simp

end Change
end Spec

namespace GA
open Spec (Change)
variable {n : ℕ} {R S : Type*} [CommRing R] [DecidableEq R] [Invertible (2 : R)]
  [CommRing S] [DecidableEq S] [Invertible (2 : S)] {φ : R →+* S}
  {g : Matrix (Fin n) (Fin n) R}

theorem den_map (Ψ : Change φ g) (E : Expr R n) :
    den (g.map φ) (E.map fun t => (φ t.1, t.2)) = Ψ.hom (den g E) := by
  induction E with
  | nil => simp [den]
  | cons t E ih =>
    rw [List.map_cons, den_eq_lin, lin_cons, ← den_eq_lin, ih, den_eq_lin, den_eq_lin, lin_cons, map_add,
      Ψ.smul]
    congr 2
    cases t.2 with
    | blade l => exact (Ψ.blade l).symm
    | base l => exact (Ψ.base l).symm
    | error => exact (map_zero Ψ.hom).symm

theorem valid_mapTo {E : Expr R n} (hE : Valid E) (φ : R → S) : Valid (E.map fun t => (φ t.1, t.2)) := by
  intro t ht
  obtain ⟨u, hu, rfl⟩ := List.mem_map.mp ht
  exact hE u hu

namespace Rep
variable {A B : Mv R n} {x y : Spec.Cl g}

theorem subs (Ψ : Change φ g) (h : Rep g A x) : Rep (g.map φ) (A.subs φ) (Ψ.hom x) := by
  refine (Rep.ofExpr (g := g.map φ) (valid_mapTo (valid_linearExpand h.valid) φ)).congr ?_
  rw [den_map Ψ, den_linearExpand, h.den]

theorem antiComm (hs : g.IsSymm) (h : Rep g A x) (h' : Rep g B y) :
    Rep g (A.antiComm g B) ((⅟2 : R) • (x * y + y * x)) :=
  Rep.smul _ (Rep.add hs (Rep.mul hs h h') (Rep.mul hs h' h))

theorem comm (hs : g.IsSymm) (h : Rep g A x) (h' : Rep g B y) :
    Rep g (A.comm g B) ((⅟2 : R) • (x * y - y * x)) :=
  Rep.smul _ (Rep.sub hs (Rep.mul hs h h') (Rep.mul hs h' h))

theorem even (h : Rep g A x) : Rep g A.even ((⅟2 : R) • (x + CliffordAlgebra.involute x)) := by
  obtain ⟨h1, h2, h3⟩ := even_spec h.wf (Or.inl h.flag)
  refine ⟨h1, h2, Spec.two_cancel (R := R) ?_⟩
  rw [h3, h.val, smul_smul, mul_invOf_self, one_smul]

theorem odd (h : Rep g A x) : Rep g A.odd ((⅟2 : R) • (x - CliffordAlgebra.involute x)) := by
  obtain ⟨h1, h2, h3⟩ := odd_spec h.wf (Or.inl h.flag)
  refine ⟨h1, h2, Spec.two_cancel (R := R) ?_⟩
  rw [h3, h.val, smul_smul, mul_invOf_self, one_smul]

/-- The scalar parts of a multivector and of one with the image of its meaning. -/
theorem scalar_subs (Ψ : Change φ g) (h : Rep g A x) {A' : Mv S n} (h' : Rep (g.map φ) A' (Ψ.hom x)) :
    A'.scalar = φ A.scalar := by
  rcases subsingleton_or_nontrivial S with hS | hS
  · exact Subsingleton.elim _ _
  · refine h'.scalar_of ?_
    rw [← Ψ.grade, ← h.scalar, Ψ.scalar]

end Rep

theorem map_invOf_two (φ : R →+* S) : φ (⅟2 : R) = ⅟2 := by
  have h : (2 : S) * φ (⅟2 : R) = 1 := by
    rw [← map_ofNat φ 2, ← map_mul, mul_invOf_self, map_one]
  calc φ (⅟2 : R) = ⅟2 * (2 * φ (⅟2 : R)) := by rw [← mul_assoc, invOf_mul_self, one_mul]
    _ = ⅟2 := by rw [h, mul_one]

theorem isSymm_map (hs : g.IsSymm) : (g.map φ).IsSymm := by
  ext i j
  exact congrArg φ (hs.apply i j)

/-- A calculation and its image: the meaning of the second is the image of the meaning of the first. -/
theorem calc_rep (Ψ : Change φ g) (hs : g.IsSymm) {a : ℕ → Mv R n} {b : ℕ → Mv S n}
    {x : ℕ → Spec.Cl g} (ha : ∀ i, Rep g (a i) (x i)) (hb : ∀ i, Rep (g.map φ) (b i) (Ψ.hom (x i)))
    (p : Calc R) :
    ∃ z, Rep g (p.run g a) z ∧ Rep (g.map φ) ((p.map φ).run (g.map φ) b) (Ψ.hom z) := by
  have hs' : (g.map φ).IsSymm := isSymm_map hs
  induction p with
  | var i => exact ⟨_, ha i, hb i⟩
  | const c => exact ⟨_, Rep.scalarMv c, (Rep.scalarMv (φ c)).congr (Ψ.scalar c).symm⟩
  | add p q ihp ihq =>
    obtain ⟨x, hp, hp'⟩ := ihp
    obtain ⟨y, hq, hq'⟩ := ihq
    exact ⟨_, Rep.add hs hp hq, (Rep.add hs' hp' hq').congr (map_add _ _ _).symm⟩
  | sub p q ihp ihq =>
    obtain ⟨x, hp, hp'⟩ := ihp
    obtain ⟨y, hq, hq'⟩ := ihq
    exact ⟨_, Rep.sub hs hp hq, (Rep.sub hs' hp' hq').congr (map_sub _ _ _).symm⟩
  | neg p ihp =>
    obtain ⟨x, hp, hp'⟩ := ihp
    exact ⟨_, hp.neg, hp'.neg.congr (map_neg _ _).symm⟩
  | mul p q ihp ihq =>
    obtain ⟨x, hp, hp'⟩ := ihp
    obtain ⟨y, hq, hq'⟩ := ihq
    exact ⟨_, Rep.mul hs hp hq, (Rep.mul hs' hp' hq').congr (map_mul _ _ _).symm⟩
  | wedge p q ihp ihq =>
    obtain ⟨x, hp, hp'⟩ := ihp
    obtain ⟨y, hq, hq'⟩ := ihq
    exact ⟨_, Rep.wedge hs hp hq, (Rep.wedge hs' hp' hq').congr (Ψ.wedge _ _).symm⟩
  | dot p q ihp ihq =>
    obtain ⟨x, hp, hp'⟩ := ihp
    obtain ⟨y, hq, hq'⟩ := ihq
    exact ⟨_, Rep.dot hs hp hq, (Rep.dot hs' hp' hq').congr (Ψ.gradedProduct _ _ _).symm⟩
  | left p q ihp ihq =>
    obtain ⟨x, hp, hp'⟩ := ihp
    obtain ⟨y, hq, hq'⟩ := ihq
    exact ⟨_, Rep.left hs hp hq, (Rep.left hs' hp' hq').congr (Ψ.gradedProduct _ _ _).symm⟩
  | right p q ihp ihq =>
    obtain ⟨x, hp, hp'⟩ := ihp
    obtain ⟨y, hq, hq'⟩ := ihq
    exact ⟨_, Rep.right hs hp hq, (Rep.right hs' hp' hq').congr (Ψ.gradedProduct _ _ _).symm⟩
  | anti p q ihp ihq =>
    obtain ⟨x, hp, hp'⟩ := ihp
    obtain ⟨y, hq, hq'⟩ := ihq
    refine ⟨_, Rep.antiComm hs hp hq, (Rep.antiComm hs' hp' hq').congr ?_⟩
    rw [Ψ.smul, map_invOf_two, map_add, map_mul, map_mul]
  | comm p q ihp ihq =>
    obtain ⟨x, hp, hp'⟩ := ihp
    obtain ⟨y, hq, hq'⟩ := ihq
    refine ⟨_, Rep.comm hs hp hq, (Rep.comm hs' hp' hq').congr ?_⟩
    rw [Ψ.smul, map_invOf_two, map_sub, map_mul, map_mul]
  | pow p k ihp =>
    obtain ⟨x, hp, hp'⟩ := ihp
    exact ⟨_, Rep.pow hs hp k, (Rep.pow hs' hp' k).congr (map_pow _ _ _).symm⟩
  | grade p r ihp =>
    obtain ⟨x, hp, hp'⟩ := ihp
    exact ⟨_, hp.getGrade r, (hp'.getGrade r).congr (Ψ.grade _ _).symm⟩
  | even p ihp =>
    obtain ⟨x, hp, hp'⟩ := ihp
    refine ⟨_, hp.even, hp'.even.congr ?_⟩
    rw [Ψ.smul, map_invOf_two, map_add, Ψ.involute]
  | odd p ihp =>
    obtain ⟨x, hp, hp'⟩ := ihp
    refine ⟨_, hp.odd, hp'.odd.congr ?_⟩
    rw [Ψ.smul, map_invOf_two, map_sub, Ψ.involute]
  | rev p ihp =>
    obtain ⟨x, hp, hp'⟩ := ihp
    exact ⟨_, Rep.rev hs hp, (Rep.rev hs' hp').congr (Ψ.reverse _).symm⟩
  | gInvol p ihp =>
    obtain ⟨x, hp, hp'⟩ := ihp
    exact ⟨_, Rep.gInvol hs hp, (Rep.gInvol hs' hp').congr (Ψ.involute _).symm⟩
  | ccon p ihp =>
    obtain ⟨x, hp, hp'⟩ := ihp
    refine ⟨_, Rep.ccon hs hp, (Rep.ccon hs' hp').congr ?_⟩
    rw [Ψ.reverse, Ψ.involute]
  | scaled p q ihp ihq =>
    obtain ⟨x, hp, hp'⟩ := ihp
    obtain ⟨y, hq, hq'⟩ := ihq
    refine ⟨_, hq.smul _, (hq'.smul _).congr ?_⟩
    rw [Ψ.smul, hp.scalar_subs Ψ hp']
  | sp p q ihp ihq =>
    obtain ⟨x, hp, hp'⟩ := ihp
    obtain ⟨y, hq, hq'⟩ := ihq
    refine ⟨_, Rep.scalarMv _, (Rep.scalarMv _).congr ?_⟩
    rw [Ψ.scalar]
    exact congrArg _ ((Rep.mul hs hp hq).scalar_subs Ψ ((Rep.mul hs' hp' hq').congr (map_mul _ _ _).symm))
  | qform p ihp =>
    obtain ⟨x, hp, hp'⟩ := ihp
    refine ⟨_, Rep.scalarMv _, (Rep.scalarMv _).congr ?_⟩
    rw [Ψ.scalar]
    refine congrArg _ ((Rep.mul hs (Rep.rev hs hp) hp).scalar_subs Ψ
      ((Rep.mul hs' (Rep.rev hs' hp') hp').congr ?_))
    rw [map_mul, Ψ.reverse]

/-- The library's result of a calculation stands for the value of the calculation. -/
theorem calc_value (hs : g.IsSymm) {a : ℕ → Mv R n} {x : ℕ → Spec.Cl g} (ha : ∀ i, Rep g (a i) (x i))
    (p : Calc R) : Rep g (p.run g a) (p.value g x) := by
  induction p with
  | var i => exact ha i
  | const c => exact Rep.scalarMv c
  | add p q hp hq => exact Rep.add hs hp hq
  | sub p q hp hq => exact Rep.sub hs hp hq
  | neg p hp => exact hp.neg
  | mul p q hp hq => exact Rep.mul hs hp hq
  | wedge p q hp hq => exact Rep.wedge hs hp hq
  | dot p q hp hq => exact Rep.dot hs hp hq
  | left p q hp hq => exact Rep.left hs hp hq
  | right p q hp hq => exact Rep.right hs hp hq
  | anti p q hp hq => exact Rep.antiComm hs hp hq
  | comm p q hp hq => exact Rep.comm hs hp hq
  | pow p k hp => exact Rep.pow hs hp k
  | grade p r hp => exact hp.getGrade r
  | even p hp => exact hp.even
  | odd p hp => exact hp.odd
  | rev p hp => exact Rep.rev hs hp
  | gInvol p hp => exact Rep.gInvol hs hp
  | ccon p hp => exact Rep.ccon hs hp
  | scaled p q hp hq =>
    refine (hq.smul _).congr ?_
    rw [Calc.value, ← hp.scalar, Algebra.smul_def]
  | sp p q hp hq => exact (Rep.scalarMv _).congr (Rep.mul hs hp hq).scalar
  | qform p hp => exact (Rep.scalarMv _).congr (Rep.mul hs (Rep.rev hs hp) hp).scalar

end GA
