import Verif.Proofs.ExpSeries
import Verif.Props.C30

/-!
# C97: `exp` is the exponential series, and rotations are generated by their bivector

The coefficients are complex numbers, and the elementary functions are the complex ones.  Statements about
limits and derivatives are about the coefficient of every basis blade.
-/

set_option linter.unusedSectionVars false
set_option maxRecDepth 10000

namespace GA
open Filter Topology
variable {n : ℕ} {g : Matrix (Fin n) (Fin n) ℂ}

/-- C97: when `A.exp(hint)` has a value, then with any hint it is the sum `1 + A + A**2/2! + A**3/3! + ...`:
the coefficients of the partial sums converge to its coefficients. -/
theorem C97_series (hs : g.IsSymm) (plus minus : Bool) {A E : Mv ℂ n} (hA : A.WF g)
    (hb : A.isBladeRep = true) (hE : A.exp g Elementary.complex plus minus = some E) (l : List (Fin n)) :
    Tendsto (fun N => coeff (expSum g A N).obj l) atTop (𝓝 (coeff E.obj l)) := by
  obtain ⟨q, hq⟩ := (C30_defined hs Elementary.complex_laws plus minus hA).mp (by rw [hE]; rfl)
  have ra := Rep.of_wf hA hb
  rw [(ra.mul hs ra).eq_iff hs (Rep.scalarMv q)] at hq
  obtain ⟨E', y, h1, h2, h3⟩ := exp_spec hs Elementary.complex_laws plus minus hA hq
  obtain rfl := Option.some.inj (hE.symm.trans h1)
  obtain ⟨f, hf⟩ := exists_coeff g l
  rw [← hf h2]
  refine (series_tendsto hq h3 f).congr fun N => ?_
  exact hf (expSum_rep hs ra N)

/-- C97: `exp(t*A)` solves the differential equation `dE/dt = A*E`, whatever hints are given. -/
theorem C97_flow (hs : g.IsSymm) (plus minus : ℂ → Bool) {A : Mv ℂ n} (hA : A.WF g)
    (hb : A.isBladeRep = true) {E : ℂ → Mv ℂ n}
    (hE : ∀ t, (A.smul t).exp g Elementary.complex (plus t) (minus t) = some (E t)) (l : List (Fin n))
    (t : ℂ) : HasDerivAt (fun t => coeff (E t).obj l) (coeff (A.mul g (E t)).obj l) t := by
  have ra := Rep.of_wf hA hb
  obtain ⟨q, hq⟩ : ∃ q, A.val g * A.val g = algebraMap ℂ _ q := by
    obtain ⟨q, hq⟩ := (C30_defined hs Elementary.complex_laws (plus 1) (minus 1)
      (ra.smul 1).wf).mp (by rw [hE]; rfl)
    rw [((ra.smul 1).mul hs (ra.smul 1)).eq_iff hs (Rep.scalarMv q), one_smul] at hq
    exact ⟨q, hq⟩
  obtain ⟨a, b, hab, hd⟩ := exp_flow hq
  have hr : ∀ t, Rep g (E t) (algebraMap ℂ _ (a t) + b t • A.val g) := by
    intro t
    have hk : (A.smul t).val g * (A.smul t).val g = algebraMap ℂ _ (t * t * q) := by
      rw [(ra.smul t).val, smul_mul_smul_comm, hq, Algebra.smul_def, ← map_mul]
    obtain ⟨E', y, h1, h2, h3⟩ := exp_spec hs Elementary.complex_laws (plus t) (minus t)
      (ra.smul t).wf hk
    obtain rfl := Option.some.inj ((hE t).symm.trans h1)
    rw [(ra.smul t).val] at h3
    exact h2.congr (hab t y h3)
  obtain ⟨f, hf⟩ := exists_coeff g l
  have e : (fun t => coeff (E t).obj l) = fun t => a t * f 1 + b t * f (A.val g) := by
    funext t
    rw [← hf (hr t), map_add, Algebra.algebraMap_eq_smul_one, map_smul, map_smul]
    rfl
  rw [e, ← hf (ra.mul hs (hr t))]
  refine (((hd t).1.mul_const (f 1)).add ((hd t).2.mul_const (f (A.val g)))).congr_deriv ?_
  rw [mul_add, mul_smul_comm, hq, ← Algebra.commutes, ← Algebra.smul_def,
    Algebra.algebraMap_eq_smul_one, smul_smul, map_add, map_smul, map_smul, smul_eq_mul, smul_eq_mul]
  ring

/-- C97: rotation by `t*θ` is the motion generated by `θ`: the rotated multivector `S` solves the
differential equation `dS/dt = S >> θ`, where `>>` is the commutator. -/
theorem C97_rotation (hs : g.IsSymm) (plus minus : ℂ → Bool) {A θ : Mv ℂ n} (hA : A.WF g)
    (hb : A.isBladeRep = true) (hθ : θ.WF g) (hbθ : θ.isBladeRep = true) {S : ℂ → Mv ℂ n}
    (hS : ∀ t, A.rotate g Elementary.complex (plus t) (minus t) (θ.smul t) = some (S t))
    (l : List (Fin n)) (t : ℂ) :
    HasDerivAt (fun t => coeff (S t).obj l) (coeff ((S t).comm g θ).obj l) t := by
  have ra := Rep.of_wf hA hb
  have rθ := Rep.of_wf hθ hbθ
  have r2 : ∀ t : ℂ, Rep g ((θ.smul t).smul ⅟2) ((t * ⅟2) • θ.val g) := fun t =>
    ((rθ.smul t).smul ⅟2).congr (by rw [smul_smul, mul_comm])
  have r1 : ∀ t : ℂ, Rep g ((θ.smul t).neg.smul ⅟2) ((-(t * ⅟2)) • θ.val g) := fun t =>
    ((rθ.smul t).neg.smul ⅟2).congr (by rw [smul_neg, smul_smul, neg_smul, mul_comm])
  have hdef : ∀ t, ∃ Rm Rp, ((θ.smul t).neg.smul ⅟2).exp g Elementary.complex (plus t) (minus t) = some Rm ∧
      ((θ.smul t).smul ⅟2).exp g Elementary.complex (plus t) (minus t) = some Rp ∧
      S t = (Rm.mul g A).mul g Rp := by
    intro t
    have h := hS t
    rw [Mv.rotate] at h
    split at h
    · next Rm Rp h1 h2 => exact ⟨Rm, Rp, h1, h2, (Option.some.inj h).symm⟩
    · cases h
  obtain ⟨q, hq⟩ : ∃ q, θ.val g * θ.val g = algebraMap ℂ _ q := by
    obtain ⟨Rm, Rp, -, h2, -⟩ := hdef 2
    obtain ⟨q, hq⟩ := (C30_defined hs Elementary.complex_laws (plus 2) (minus 2)
      (r2 2).wf).mp (by rw [h2]; rfl)
    rw [((r2 2).mul hs (r2 2)).eq_iff hs (Rep.scalarMv q), mul_invOf_self, one_smul] at hq
    exact ⟨q, hq⟩
  have hk : ∀ t : ℂ, (t • θ.val g) * (t • θ.val g) = algebraMap ℂ _ (t * t * q) := fun t => by
    rw [smul_mul_smul_comm, hq, Algebra.smul_def, ← map_mul]
  obtain ⟨a, b, hab, hd⟩ := exp_flow hq
  have hr : ∀ t, Rep g (S t) ((algebraMap ℂ _ (a (-(t * ⅟2))) + b (-(t * ⅟2)) • θ.val g) * A.val g *
      (algebraMap ℂ _ (a (t * ⅟2)) + b (t * ⅟2) • θ.val g)) := by
    intro t
    obtain ⟨Rm, Rp, h1, h2, h3⟩ := hdef t
    obtain ⟨E1, y1, i1, i2, i3⟩ := exp_spec hs Elementary.complex_laws (plus t) (minus t) (r1 t).wf
      (by rw [(r1 t).val]; exact hk _)
    obtain ⟨E2, y2, j1, j2, j3⟩ := exp_spec hs Elementary.complex_laws (plus t) (minus t) (r2 t).wf
      (by rw [(r2 t).val]; exact hk _)
    obtain rfl := Option.some.inj (h1.symm.trans i1)
    obtain rfl := Option.some.inj (h2.symm.trans j1)
    rw [(r1 t).val] at i3
    rw [(r2 t).val] at j3
    rw [h3]
    exact Rep.mul hs (Rep.mul hs (i2.congr (hab _ _ i3)) ra) (j2.congr (hab _ _ j3))
  obtain ⟨f, hf⟩ := exists_coeff g l
  generalize A.val g = y at *
  generalize θ.val g = x at *
  have e : ∀ p r s u : ℂ, f ((algebraMap ℂ _ p + r • x) * y * (algebraMap ℂ _ s + u • x)) =
      p * s * f y + p * u * f (y * x) + r * s * f (x * y) + r * u * f (x * y * x) := by
    intro p r s u
    simp only [Algebra.algebraMap_eq_smul_one, add_mul, mul_add, smul_mul_assoc, mul_smul_comm, one_mul,
      mul_one, map_add, map_smul, smul_eq_mul]
    ring
  have hfun : (fun t => coeff (S t).obj l) = fun t =>
      a (-(t * ⅟2)) * a (t * ⅟2) * f y + a (-(t * ⅟2)) * b (t * ⅟2) * f (y * x) +
      b (-(t * ⅟2)) * a (t * ⅟2) * f (x * y) + b (-(t * ⅟2)) * b (t * ⅟2) * f (x * y * x) := by
    funext t
    rw [← hf (hr t), e]
  have hp : HasDerivAt (fun t : ℂ => t * ⅟2) (⅟2 : ℂ) t := by
    simpa using (hasDerivAt_id t).mul_const (⅟2 : ℂ)
  have da := (hd (t * ⅟2)).1.comp t hp
  have db := (hd (t * ⅟2)).2.comp t hp
  have da' := (hd (-(t * ⅟2))).1.comp t hp.neg
  have db' := (hd (-(t * ⅟2))).2.comp t hp.neg
  rw [hfun, ← hf (A := (S t).comm g θ) ((((hr t).mul hs rθ).sub hs (rθ.mul hs (hr t))).smul ⅟2)]
  refine (((((da'.mul da).mul_const (f y)).add ((da'.mul db).mul_const (f (y * x)))).add
    ((db'.mul da).mul_const (f (x * y)))).add ((db'.mul db).mul_const (f (x * y * x)))).congr_deriv ?_
  have hx : ∀ z : Spec.Cl g, z * x * x = q • z := fun z => by
    rw [mul_assoc, hq, ← Algebra.commutes, ← Algebra.smul_def]
  have hx' : ∀ z : Spec.Cl g, x * (x * z) = q • z := fun z => by
    rw [← mul_assoc, hq, ← Algebra.smul_def]
  simp only [Function.comp, Pi.neg_apply, Algebra.algebraMap_eq_smul_one, add_mul, mul_add, smul_mul_assoc,
    mul_smul_comm, one_mul, mul_one, smul_smul, map_add, map_smul, smul_eq_mul, map_sub, hx, hx',
    mul_assoc x]
  ring

/-- The hypotheses are met: in a space whose basis vectors have the squares `1, -1, 1`, with the bivector
`θ = (1,2,0) ^ (0,0,3)`, `exp(t*θ)` and the rotation by `t*θ` have a value for every complex `t`. -/
example :
    let g : Matrix (Fin 3) (Fin 3) ℂ := Matrix.diagonal ![1, -1, 1]
    let θ := (Mv.vector ![1, 2, 0]).wedge g (Mv.vector ![0, 0, 3])
    g.IsSymm ∧ θ.WF g ∧ θ.isBladeRep = true ∧
      (∃ E : ℂ → Mv ℂ 3, ∀ t, (θ.smul t).exp g Elementary.complex true false = some (E t)) ∧
      ∃ S : ℂ → Mv ℂ 3, ∀ t,
        (Mv.vector ![5, 7, 1]).rotate g Elementary.complex false true (θ.smul t) = some (S t) := by
  intro g θ
  have hs : g.IsSymm := Matrix.diagonal_transpose _
  have h := (Rep.vector (g := g) ![1, 2, 0]).wedge hs (Rep.vector ![0, 0, 3])
  have hL : Spec.wedge g (Spec.vec g ![1, 2, 0]) (Spec.vec g ![0, 0, 3]) =
      Spec.wedgeL g [![1, 2, 0], ![0, 0, 3]] := by
    rw [Spec.wedgeL_cons, Spec.wedgeL_cons, Spec.wedgeL_nil, Spec.wedge_one]
  rw [hL] at h
  obtain ⟨q, hq⟩ : ∃ q, Spec.wedgeL g [![1, 2, 0], ![0, 0, 3]] * Spec.wedgeL g [![1, 2, 0], ![0, 0, 3]] =
      algebraMap ℂ (Spec.Cl g) q := Spec.homogeneous_zero_iff.mp (Spec.wedgeL_sq_homogeneous _)
  have hd : ∀ (c : ℂ) (X : Mv ℂ 3) (p m : Bool), Rep g X (c • Spec.wedgeL g [![1, 2, 0], ![0, 0, 3]]) →
      ∃ E, X.exp g Elementary.complex p m = some E := by
    intro c X p m r
    refine Option.isSome_iff_exists.mp ((C30_defined hs Elementary.complex_laws p m r.wf).mpr
      ⟨c * c * q, ?_⟩)
    rw [(r.mul hs r).eq_iff hs (Rep.scalarMv _), smul_mul_smul_comm, hq, Algebra.smul_def, ← map_mul]
  refine ⟨hs, h.wf, h.2.1, ?_, ?_⟩
  · exact ⟨_, fun t => (hd t _ true false (h.smul t)).choose_spec⟩
  · have : ∀ t, ∃ S, (Mv.vector ![5, 7, 1]).rotate g Elementary.complex false true (θ.smul t) = some S := by
      intro t
      obtain ⟨E1, h1⟩ := hd (-(⅟2 * t)) ((θ.smul t).neg.smul ⅟2) false true
        (((h.smul t).neg.smul ⅟2).congr (by rw [smul_neg, smul_smul, neg_smul]))
      obtain ⟨E2, h2⟩ := hd (⅟2 * t) ((θ.smul t).smul ⅟2) false true
        (((h.smul t).smul ⅟2).congr (by rw [smul_smul]))
      exact ⟨_, by rw [Mv.rotate, h1, h2]⟩
    exact ⟨_, fun t => (this t).choose_spec⟩

end GA
