import Verif.Spec.OpCalc
import Verif.Proofs.Sdop
import Verif.Props.C86
import Mathlib.Algebra.MvPolynomial.Derivation
import Mathlib.Algebra.Polynomial.Derivation

/-!
# C114: operators whose coefficients are expressions, and their simplification

`R` is the ring of SymPy expressions up to `expand`, `φ` gives their values in a ring `S` (see C86), `D` are the derivatives
of expressions and `D'` those of their values.  The library decides with expressions whether a term vanishes.
-/

set_option linter.unusedSectionVars false
set_option maxRecDepth 10000

namespace GA
variable {V : Type*} [DecidableEq V] {R S : Type*} [CommRing R] [DecidableEq R] [CommRing S]
  {φ : R →+* S} {D : V → Derivation ℤ R R} {D' : V → Derivation ℤ S S}

/-- The operator on values of a term. -/
def vact (φ : R →+* S) (D' : V → S → S) (c : R) (p : Pdop V) : S → S :=
  fun h => φ c * p.call (basicDiff D') h

theorem Sdop.meaning_eq (D' : V → S → S) (s : Sdop R V) (h : S) : s.meaning φ D' h = tsum (vact φ D') s h := by
  induction s with
  | nil => rfl
  | cons t s ih => rw [tsum_cons, Pi.add_apply, ← ih]; rfl

theorem vmeaning {D' : V → S → S} (hD : ∀ x y f, D' x (D' y f) = D' y (D' x f)) :
    Meaning (fun _ => True) (fun c : R => decide (c = 0)) (· + ·) (vact φ D') where
  good_add := fun _ _ => trivial
  add := by intro a b _ _ p; funext f; simp only [vact, Pi.add_apply, map_add]; ring
  zero := by intro a _ h p; funext f; simp [vact, of_decide_eq_true h]
  eqv := by intro p q hp hq h a; funext f; simp only [vact]; rw [Pdop.call_perm D' hD (Pdop.eqv_perm hp h)]

theorem Sdop.meaning_smul (D' : V → S → S) (c : R) (s : Sdop R V) (h : S) :
    (Sdop.smul c s).meaning φ D' h = φ c * s.meaning φ D' h := by
  induction s with
  | nil => simp [Sdop.smul, Sdop.meaning]
  | cons t s ih =>
    simp only [Sdop.smul, Sdop.meaning, List.map_cons, List.sum_cons, mul_add, map_mul] at ih ⊢
    rw [ih]; ring

theorem Sdop.meaning_neg (D' : V → S → S) (s : Sdop R V) (h : S) :
    s.neg.meaning φ D' h = - s.meaning φ D' h := by
  induction s with
  | nil => simp [Sdop.neg, Sdop.meaning]
  | cons t s ih =>
    simp only [Sdop.neg, Sdop.meaning, List.map_cons, List.sum_cons, neg_add, map_neg] at ih ⊢
    rw [ih]; ring

theorem modes_keep {modes : List (R → R)} (hm : ∀ f ∈ modes, ∀ c, φ (f c) = φ c) (c : R) :
    φ (modes.foldl (fun c f => f c) c) = φ c := by
  induction modes generalizing c with
  | nil => rfl
  | cons f modes ih =>
    rw [List.foldl_cons, ih fun f' hf' => hm f' (by simp [hf']), hm f (by simp)]

theorem Sdop.meaning_simplify (D' : V → S → S) {modes : List (R → R)} (hm : ∀ f ∈ modes, ∀ c, φ (f c) = φ c)
    (s : Sdop R V) (h : S) : (s.simplify modes).meaning φ D' h = s.meaning φ D' h := by
  simp only [Sdop.simplify, Sdop.meaning, List.map_map]
  congr 1
  refine List.map_congr_left fun t _ => ?_
  simp only [Function.comp_apply]
  rw [modes_keep hm]

theorem Sdop.tSimplify_eq (modes : List (R → R)) (s : Sdop R V) : s.tSimplify modes = s.simplify modes := by
  simp [Sdop.tSimplify, Sdop.simplify]

theorem Sdop.meaning_add {D' : V → S → S} (hD : ∀ x y f, D' x (D' y f) = D' y (D' x f)) {s t : Sdop R V}
    (hs : s.WF) (ht : t.WF) :
    (s.add t).WF ∧ ∀ h, (s.add t).meaning φ D' h = s.meaning φ D' h + t.meaning φ D' h := by
  have := merge_spec (vmeaning (φ := φ) hD) (zero := (0 : R)) trivial (fun p => by funext f; simp [vact])
    (twf_iff.mpr hs) (twf_iff.mpr ht)
  exact ⟨twf_iff.mp this.1, fun f => by
    rw [Sdop.meaning_eq, Sdop.meaning_eq, Sdop.meaning_eq]; exact congrFun this.2 f⟩

theorem Sdop.meaning_scalar (D' : V → S → S) (c : R) (h : S) :
    Sdop.meaning (V := V) φ D' [(c, [])] h = φ c * h := by simp [Sdop.meaning]

theorem Sdop.meaning_consolidate {D' : V → S → S} (hD : ∀ x y f, D' x (D' y f) = D' y (D' x f)) {s : Sdop R V}
    (hs : s.WF) : s.consolidate.WF ∧ ∀ h, s.consolidate.meaning φ D' h = s.meaning φ D' h := by
  have := consolidate_spec (vmeaning (φ := φ) hD) (twf_iff.mpr hs)
  exact ⟨twf_iff.mp this.1, fun f => by rw [Sdop.meaning_eq, Sdop.meaning_eq]; exact congrFun this.2 f⟩

theorem Sdop.meaning_diff (hc : ∀ x c, φ (D x c) = D' x (φ c))
    (hD : ∀ x y f, D' x (D' y f) = D' y (D' x f)) (x : V) (k : ℕ) {s : Sdop R V} (hs : s.WF) :
    (s.diff (fun y => D y) x k).WF ∧ ∀ h, (s.diff (fun y => D y) x k).meaning φ (fun y => D' y) h =
      (D' x)^[k] (s.meaning φ (fun y => D' y) h) := by
  have := diff_spec (vmeaning (φ := φ) (D' := fun y => D' y) hD) (d := basicDiff fun y => D y) (x := x)
    (fun _ => trivial) (δ := fun T f => D' x (T f)) (by funext f; simp)
    (by intro S T; funext f; simp)
    (by
      intro a _ p hp
      funext f
      simp only [vact, Pi.add_apply]
      rw [Pdop.call_diff (fun y => D' y) hD hp, Derivation.leibniz]
      simp only [smul_eq_mul, basicDiff, Function.iterate_one, hc]
      ring) k (twf_iff.mpr hs)
  refine ⟨twf_iff.mp this.1, fun f => ?_⟩
  rw [Sdop.meaning_eq, Sdop.meaning_eq]
  refine (congrFun this.2 f).trans ?_
  generalize tsum (vact φ fun y => D' y) s = T
  clear this
  induction k with
  | zero => rfl
  | succ k ih => rw [Function.iterate_succ_apply', Function.iterate_succ_apply', ih]

theorem Sdop.meaning_pdop (hc : ∀ x c, φ (D x c) = D' x (φ c))
    (hD : ∀ x y f, D' x (D' y f) = D' y (D' x f)) (p : Pdop V) {s : Sdop R V} (hs : s.WF) :
    (p.call (Sdop.diff fun y => D y) s).WF ∧ ∀ h,
      (p.call (Sdop.diff fun y => D y) s).meaning φ (fun y => D' y) h =
        p.call (basicDiff fun y => D' y) (s.meaning φ (fun y => D' y) h) := by
  induction p generalizing s with
  | nil => exact ⟨hs, fun f => rfl⟩
  | cons t p ih =>
    have h1 := Sdop.meaning_diff hc hD t.1 t.2 hs
    have h2 := ih h1.1
    refine ⟨h2.1, fun f => ?_⟩
    have := h2.2 f
    rw [h1.2 f] at this
    exact this

theorem Sdop.smul_wf {s : Sdop R V} (hs : s.WF) (c : R) : (Sdop.smul c s).WF :=
  (Sdop.smul_call (D := fun _ f => f) c hs).1

theorem Sdop.neg_wf {s : Sdop R V} (hs : s.WF) : s.neg.WF := (Sdop.neg_call (D := fun _ f => f) hs).1

theorem Sdop.meaning_mul (hc : ∀ x c, φ (D x c) = D' x (φ c))
    (hD : ∀ x y f, D' x (D' y f) = D' y (D' x f)) (s : Sdop R V) {t : Sdop R V} (ht : t.WF) :
    (s.mul (fun y => D y) t).WF ∧ ∀ h, (s.mul (fun y => D y) t).meaning φ (fun y => D' y) h =
        s.meaning φ (fun y => D' y) (t.meaning φ (fun y => D' y) h) := by
  have hfold : ∀ (us : List (Sdop R V)) (u : Sdop R V), u.WF → (∀ v ∈ us, v.WF) →
      (us.foldl Sdop.add u).WF ∧ ∀ f, (us.foldl Sdop.add u).meaning φ (fun y => D' y) f =
        u.meaning φ (fun y => D' y) f + (us.map fun v => v.meaning φ (fun y => D' y) f).sum := by
    intro us
    induction us with
    | nil => intro u hu _; exact ⟨hu, fun f => by simp⟩
    | cons v us ih =>
      intro u hu hus
      have h1 := Sdop.meaning_add (φ := φ) (D' := fun y => D' y) hD hu (hus v (by simp))
      have h2 := ih _ h1.1 fun w hw => hus w (by simp [hw])
      refine ⟨h2.1, fun f => ?_⟩
      rw [List.foldl_cons, h2.2, h1.2, List.map_cons, List.sum_cons, add_assoc]
  have hterm : ∀ c : R × Pdop V, (Sdop.smul c.1 (c.2.call (Sdop.diff fun y => D y) t)).WF ∧
      ∀ f, (Sdop.smul c.1 (c.2.call (Sdop.diff fun y => D y) t)).meaning φ (fun y => D' y) f =
        φ c.1 * c.2.call (basicDiff fun y => D' y) (t.meaning φ (fun y => D' y) f) := by
    intro c
    have h1 := Sdop.meaning_pdop hc hD c.2 ht
    exact ⟨Sdop.smul_wf h1.1 _, fun f => by rw [Sdop.meaning_smul, h1.2]⟩
  rw [Sdop.mul]
  cases s with
  | nil => exact ⟨by simp [Sdop.WF], fun f => rfl⟩
  | cons c s =>
    simp only [List.map_cons]
    have h3 := Sdop.meaning_add (φ := φ) (D' := fun y => D' y) hD (scalar_wf 0) (hterm c).1
    have h4 := hfold (s.map fun c => Sdop.smul c.1 (c.2.call (Sdop.diff fun y => D y) t)) _ h3.1 (by
      intro v hv
      obtain ⟨c', _, rfl⟩ := List.mem_map.mp hv
      exact (hterm c').1)
    refine ⟨h4.1, fun f => ?_⟩
    have e : ∀ F, Sdop.meaning φ (fun y => D' y) (c :: s) F = φ c.1 * c.2.call (basicDiff fun y => D' y) F +
        (s.map fun c => φ c.1 * c.2.call (basicDiff fun y => D' y) F).sum := by
      intro F
      rw [Sdop.meaning, List.map_cons, List.sum_cons]
      rfl
    rw [Sdop.scalarAdd, h4.2, h3.2, Sdop.meaning_scalar, (hterm c).2, List.map_map, e]
    simp only [map_zero, zero_mul, zero_add]
    congr 2
    exact List.map_congr_left fun c' _ => (hterm c').2 f

theorem calc_meaning (hc : ∀ x c, φ (D x c) = D' x (φ c)) (hD : ∀ x y f, D' x (D' y f) = D' y (D' x f))
    {a : ℕ → Sdop R V} (ha : ∀ i, (a i).WF) (p : OpCalc φ V) :
    (p.run (fun x => D x) a).WF ∧ ∀ h, (p.run (fun x => D x) a).meaning φ (fun x => D' x) h =
      p.value (fun x => D' x) (fun i => (a i).meaning φ fun x => D' x) h := by
  have keep : ∀ modes : List {f : R → R // KeepsValue φ f}, ∀ f ∈ modes.map Subtype.val, ∀ c, φ (f c) = φ c := by
    intro modes f hf
    obtain ⟨f', -, rfl⟩ := List.mem_map.mp hf
    exact f'.2
  have swf : ∀ (modes : List (R → R)) (s : Sdop R V), s.WF → (s.simplify modes).WF := by
    intro modes s hs t ht
    obtain ⟨t', ht', rfl⟩ := List.mem_map.mp ht
    exact hs t' ht'
  induction p with
  | given i => exact ⟨ha i, fun h => rfl⟩
  | symbol x =>
    refine ⟨by simp [OpCalc.run, Sdop.WF, Pdop.wf_single], fun h => ?_⟩
    simp [OpCalc.run, OpCalc.value, Sdop.meaning, Pdop.single]
  | add p q hp hq =>
    have h1 := Sdop.meaning_add (φ := φ) (D' := fun x => D' x) hD hp.1 hq.1
    exact ⟨h1.1, fun h => by rw [OpCalc.run, h1.2, hp.2, hq.2, OpCalc.value]⟩
  | sub p q hp hq =>
    have h1 := Sdop.meaning_add (φ := φ) (D' := fun x => D' x) hD hp.1 (Sdop.neg_wf hq.1)
    exact ⟨h1.1, fun h => by
      rw [OpCalc.run, Sdop.sub, h1.2, Sdop.meaning_neg, hp.2, hq.2, OpCalc.value, sub_eq_add_neg]⟩
  | neg p hp => exact ⟨Sdop.neg_wf hp.1, fun h => by rw [OpCalc.run, Sdop.meaning_neg, hp.2, OpCalc.value]⟩
  | addScalar p c hp =>
    have h1 := Sdop.meaning_add (φ := φ) (D' := fun x => D' x) hD hp.1 (scalar_wf c)
    exact ⟨h1.1, fun h => by rw [OpCalc.run, Sdop.addScalar, h1.2, hp.2, Sdop.meaning_scalar, OpCalc.value]⟩
  | scalarAdd c p hp =>
    have h1 := Sdop.meaning_add (φ := φ) (D' := fun x => D' x) hD (scalar_wf c) hp.1
    exact ⟨h1.1, fun h => by rw [OpCalc.run, Sdop.scalarAdd, h1.2, hp.2, Sdop.meaning_scalar, OpCalc.value]⟩
  | scalarSub c p hp =>
    have h1 := Sdop.meaning_add (φ := φ) (D' := fun x => D' x) hD (Sdop.neg_wf hp.1) (scalar_wf c)
    exact ⟨h1.1, fun h => by
      rw [OpCalc.run, Sdop.scalarSub, Sdop.addScalar, h1.2, Sdop.meaning_neg, hp.2, Sdop.meaning_scalar,
        OpCalc.value]
      ring⟩
  | smul c p hp =>
    exact ⟨Sdop.smul_wf hp.1 c, fun h => by rw [OpCalc.run, Sdop.meaning_smul, hp.2, OpCalc.value]⟩
  | mul p q hp hq =>
    have h1 := Sdop.meaning_mul hc hD (p.run (fun x => D x) a) hq.1
    exact ⟨h1.1, fun h => by rw [OpCalc.run, h1.2, hp.2, hq.2, OpCalc.value]⟩
  | diff x k p hp =>
    have h1 := Sdop.meaning_diff hc hD x k hp.1
    exact ⟨h1.1, fun h => by rw [OpCalc.run, h1.2, hp.2, OpCalc.value]⟩
  | consolidate p hp =>
    have h1 := Sdop.meaning_consolidate (φ := φ) (D' := fun x => D' x) hD hp.1
    exact ⟨h1.1, fun h => by rw [OpCalc.run, h1.2, hp.2, OpCalc.value]⟩
  | simplify modes p hp =>
    exact ⟨swf _ _ hp.1, fun h => by
      rw [OpCalc.run, Sdop.meaning_simplify _ (keep modes), hp.2, OpCalc.value]⟩
  | tSimplify modes p hp =>
    rw [OpCalc.run, Sdop.tSimplify_eq]
    exact ⟨swf _ _ hp.1, fun h => by
      rw [Sdop.meaning_simplify _ (keep modes), hp.2, OpCalc.value]⟩

theorem call_meaning (hc : ∀ x c, φ (D x c) = D' x (φ c)) (s : Sdop R V) (f : R) :
    φ (s.call (fun x => D x) f) = s.meaning φ (fun x => D' x) (φ f) := by
  have key : ∀ (p : Pdop V) (f : R), φ (p.call (basicDiff fun x => D x) f) =
      p.foldl (fun h xn => (D' xn.1)^[xn.2] h) (φ f) := by
    intro p
    induction p with
    | nil => intro f; rfl
    | cons t p ih =>
      intro f
      have : ∀ k, φ ((D t.1)^[k] f) = (D' t.1)^[k] (φ f) := by
        intro k
        induction k with
        | zero => rfl
        | succ k ih => rw [Function.iterate_succ_apply', hc, ih, Function.iterate_succ_apply']
      rw [List.foldl_cons, ← this]
      exact ih _
  rw [Sdop.call, foldl_add_sum, zero_add, Sdop.meaning, map_list_sum, List.map_map]
  congr 1
  refine List.map_congr_left fun t _ => ?_
  rw [Function.comp_apply, map_mul, key]

/-- C114: every calculation with operators, with consolidations and simplifications at any place, gives an operator whose
terms say what the calculation means. -/
theorem C114_calculation (hc : ∀ x c, φ (D x c) = D' x (φ c)) (hD : ∀ x y f, D' x (D' y f) = D' y (D' x f))
    {a : ℕ → Sdop R V} (ha : ∀ i, (a i).WF) (p : OpCalc φ V) (h : S) :
    (p.run (fun x => D x) a).meaning φ (fun x => D' x) h =
      p.value (fun x => D' x) (fun i => (a i).meaning φ fun x => D' x) h := (calc_meaning hc hD ha p).2 h

/-- C114: applied to an expression it gives an expression with the value that the operator of the calculation gives for
the value of the argument. -/
theorem C114_application (hc : ∀ x c, φ (D x c) = D' x (φ c)) (hD : ∀ x y f, D' x (D' y f) = D' y (D' x f))
    {a : ℕ → Sdop R V} (ha : ∀ i, (a i).WF) (p : OpCalc φ V) (f : R) :
    φ ((p.run (fun x => D x) a).call (fun x => D x) f) =
      p.value (fun x => D' x) (fun i => (a i).meaning φ fun x => D' x) (φ f) := by
  rw [call_meaning hc, C114_calculation hc hD ha]

/-- C114: operators that `==` finds equal are equal operators. -/
theorem C114_eq_sound (hD : ∀ x y f, D' x (D' y f) = D' y (D' x f)) {s t : Sdop R V} (hs : s.WF) (ht : t.WF)
    (he : Sdop.eq s t = true) (h : S) : s.meaning φ (fun x => D' x) h = t.meaning φ (fun x => D' x) h := by
  have h1 := (Sdop.meaning_add (φ := φ) (D' := fun x => D' x) hD hs (Sdop.neg_wf ht)).2 h
  have h2 : s.add t.neg = [] := List.eq_nil_of_length_eq_zero (of_decide_eq_true he)
  rw [h2, Sdop.meaning_neg] at h1
  have : (0 : S) = s.meaning φ (fun x => D' x) h + -t.meaning φ (fun x => D' x) h := h1
  rw [← sub_eq_add_neg] at this
  exact (sub_eq_zero.mp this.symm)

/-- C114: so are operators whose difference has no terms after a simplification and a consolidation. -/
theorem C114_compare (hD : ∀ x y f, D' x (D' y f) = D' y (D' x f)) {modes : List (R → R)}
    (hm : ∀ f ∈ modes, KeepsValue φ f) {s t : Sdop R V} (hs : s.WF) (ht : t.WF)
    (he : ((s.sub t).simplify modes).consolidate = []) (h : S) :
    s.meaning φ (fun x => D' x) h = t.meaning φ (fun x => D' x) h := by
  have h1 := Sdop.meaning_add (φ := φ) (D' := fun x => D' x) hD hs (Sdop.neg_wf ht)
  have hw : ((s.sub t).simplify modes).WF := by
    intro u hu
    obtain ⟨u', hu', rfl⟩ := List.mem_map.mp hu
    exact h1.1 u' hu'
  have h2 := (Sdop.meaning_consolidate (φ := φ) (D' := fun x => D' x) hD hw).2 h
  rw [he, Sdop.meaning_simplify _ hm, Sdop.sub, h1.2, Sdop.meaning_neg, ← sub_eq_add_neg] at h2
  exact sub_eq_zero.mp h2.symm

/-- C114: if the simplification finds every zero, operators with the same coefficients (in value) of the same partial
derivatives leave no term. -/
theorem C114_compare_complete {modes : List (R → R)}
    (hz : ∀ c, φ c = 0 → modes.foldl (fun c f => f c) c = 0) {u : Sdop R V} (hu : ∀ t ∈ u, φ t.1 = 0) :
    (u.simplify modes).consolidate = [] := by
  rw [Sdop.consolidate, consolidate_eq_filter]
  have : (u.simplify modes).filter (fun t => !decide (t.1 = 0)) = [] := by
    rw [List.filter_eq_nil_iff]
    intro t ht
    obtain ⟨t', ht', rfl⟩ := List.mem_map.mp ht
    simp [hz _ (hu t' ht')]
  rw [this]
  rfl

section dop
variable {n : ℕ} [Invertible (2 : R)] [DecidableEq S] [Invertible (2 : S)] {g : Matrix (Fin n) (Fin n) R}

/-- C114: `simplify` of a multivector operator keeps the partial derivatives, their order, the complement flag and the
value of every coefficient. -/
theorem C114_dop_simplify {modes : List (R → R)} (hm : ∀ f ∈ modes, KeepsValue φ f) (d : Dop V R n) :
    (d.simplify modes).cmpflg = d.cmpflg ∧
      List.Forall₂ (fun t u : Mv R n × Pdop V => t.1.valueOf φ g = u.1.valueOf φ g ∧ t.2 = u.2)
        (d.simplify modes).terms d.terms := by
  refine ⟨rfl, ?_⟩
  rw [Dop.simplify, List.forall₂_map_left_iff, List.forall₂_same]
  intro t _
  exact ⟨C86_simplify φ hm t.1, rfl⟩

/-- C114 is false of `Dop.TSimplify`: it raises an exception for every operator that has a term, and turns the operator
without terms that acts on the left into one that acts on the right. -/
theorem C114_tsimplify_counterexample :
    (∀ d : Dop V R n, d.terms ≠ [] → d.tSimplify = none) ∧
      (⟨[], true⟩ : Dop V R n).tSimplify = some ⟨[], false⟩ :=
  ⟨fun d hd => by rw [Dop.tSimplify, if_neg hd], by simp [Dop.tSimplify]⟩

end dop

/-! Expressions in `t` and `r = log(exp(t**2))`, which SymPy does not expand to `t**2`; the values are polynomials in `t`. -/

namespace Ex
open MvPolynomial

/-- Expressions in `t` and `log(exp(t**2))`. -/
abbrev LogE := MvPolynomial (Fin 2) ℚ

/-- The value of an expression. -/
noncomputable def logVal : LogE →+* Polynomial ℚ :=
  (aeval ![(Polynomial.X : Polynomial ℚ), Polynomial.X ^ 2]).toRingHom

/-- The derivations of a ring. -/
abbrev DerZ (A : Type) [CommRing A] := Derivation ℤ A A

/-- The derivative by `t` of expressions. -/
noncomputable def logD : Unit → DerZ LogE := fun _ =>
  (mkDerivation ℚ ![(1 : LogE), 2 * X 0]).restrictScalars ℤ

/-- The derivative by `t` of values. -/
noncomputable def logD' : Unit → DerZ (Polynomial ℚ) := fun _ =>
  Polynomial.derivative'.restrictScalars ℤ

theorem logD_val (x : Unit) (c : LogE) : logVal (logD x c) = logD' x (logVal c) := by
  have h1 : ∀ c, logD x c = mkDerivation ℚ ![(1 : LogE), 2 * X 0] c := fun _ => rfl
  have h2 : ∀ c, logD' x c = Polynomial.derivative c := fun _ => rfl
  have h3 : ∀ c, logVal c = aeval ![(Polynomial.X : Polynomial ℚ), Polynomial.X ^ 2] c := fun _ => rfl
  rw [h1, h2, h3, h3]
  induction c using MvPolynomial.induction_on with
  | C a => simp
  | add p q hp hq => simp [hp, hq]
  | mul_X p i hp =>
    rw [Derivation.leibniz, smul_eq_mul, smul_eq_mul, map_add, map_mul, map_mul, hp, mkDerivation_X, map_mul,
      Polynomial.derivative_mul]
    fin_cases i <;> simp <;> ring

theorem logD'_comm (x y : Unit) (f : Polynomial ℚ) : logD' x (logD' y f) = logD' y (logD' x f) := rfl

/-- A simplification that finds every zero. -/
noncomputable def logSimp (c : LogE) : LogE := if logVal c = 0 then 0 else c

theorem logSimp_keeps : KeepsValue logVal logSimp := by
  intro c
  rw [logSimp]
  split_ifs with h
  · rw [map_zero, h]
  · rfl

/-- `log(exp(t**2)) * D{t}` and `t**2 * D{t}` -/
noncomputable def logS : Sdop LogE Unit := [(X 1, [((), 1)])]
noncomputable def logT : Sdop LogE Unit := [(X 0 ^ 2, [((), 1)])]

theorem logS_wf : logS.WF := by simp [logS, Sdop.WF, Pdop.WF]
theorem logT_wf : logT.WF := by simp [logT, Sdop.WF, Pdop.WF]

theorem log_ne : (X 1 : LogE) - X 0 ^ 2 ≠ 0 := by
  intro h
  have := congrArg (eval ![(0 : ℚ), 1]) h
  simp at this

theorem log_sub : logS.sub logT = [(X 1 - X 0 ^ 2, [((), 1)])] := by
  have h : ¬ ((X 1 : LogE) + -X 0 ^ 2 = 0) := by rw [← sub_eq_add_neg]; exact log_ne
  simp [logS, logT, Sdop.sub, Sdop.add, Sdop.neg, mergeTerms, accum, Pdop.eqv, Dict.eqv, Dict.get?, h, sub_eq_add_neg]

end Ex

/-- C114: `==` does not simplify: the operators `log(exp(t**2)) * D{t}` and `t**2 * D{t}` are equal, but not for `==`; the
difference has no term after a simplification that finds every zero. -/
theorem C114_eq_counterexample :
    Sdop.eq Ex.logS Ex.logT = false ∧
      (∀ h, Ex.logS.meaning Ex.logVal (fun x => Ex.logD' x) h = Ex.logT.meaning Ex.logVal (fun x => Ex.logD' x) h) ∧
      ((Ex.logS.sub Ex.logT).simplify [Ex.logSimp]).consolidate = [] := by
  have hz : Ex.logVal (MvPolynomial.X 1 - MvPolynomial.X 0 ^ 2) = 0 := by simp [Ex.logVal]
  have h3 : ((Ex.logS.sub Ex.logT).simplify [Ex.logSimp]).consolidate = [] := by
    refine C114_compare_complete (φ := Ex.logVal) (fun c hc => by simp [Ex.logSimp, hc]) ?_
    rw [Ex.log_sub]
    simpa using hz
  refine ⟨?_, fun h => ?_, h3⟩
  · rw [Sdop.eq, Ex.log_sub]; rfl
  · exact C114_compare (modes := [Ex.logSimp]) Ex.logD'_comm
      (by intro f hf; rw [List.mem_singleton.mp hf]; exact Ex.logSimp_keeps) Ex.logS_wf Ex.logT_wf h3 h

/-- The hypotheses of `C114_calculation` hold for these expressions: the commutator of the two operators, simplified at
several places, is zero on every function. -/
example (h : Polynomial ℚ) :
    ((OpCalc.simplify [⟨Ex.logSimp, Ex.logSimp_keeps⟩] (.sub (.mul (.given 0) (.tSimplify [⟨Ex.logSimp, Ex.logSimp_keeps⟩]
      (.given 1))) (.consolidate (.mul (.given 1) (.given 0)))) : OpCalc Ex.logVal Unit).run (fun x => Ex.logD x)
        (fun i => if i = 0 then Ex.logS else Ex.logT)).meaning Ex.logVal (fun x => Ex.logD' x) h = 0 := by
  refine (C114_calculation Ex.logD_val Ex.logD'_comm (a := fun i => if i = 0 then Ex.logS else Ex.logT)
    (by intro i; split_ifs; exacts [Ex.logS_wf, Ex.logT_wf]) _ _).trans ?_
  simp only [OpCalc.value, if_true, if_neg one_ne_zero]
  simp only [C114_eq_counterexample.2.1, sub_self]
/-- `C114_application`: the derivative of `log(exp(t**2))` by `Sdop(t)` has the value `2*t`. -/
example : Ex.logVal (((OpCalc.symbol () : OpCalc Ex.logVal Unit).run (fun x => Ex.logD x) (fun _ => [])).call
    (fun x => Ex.logD x) (MvPolynomial.X 1)) = 2 * Polynomial.X := by
  refine (C114_application Ex.logD_val Ex.logD'_comm (a := fun _ => []) (by intro i; simp [Sdop.WF]) _ _).trans ?_
  have : Ex.logVal (MvPolynomial.X 1) = Polynomial.X ^ 2 := by simp [Ex.logVal]
  rw [OpCalc.value, this]
  have h2 : ∀ c, Ex.logD' () c = Polynomial.derivative c := fun _ => rfl
  rw [h2]
  simp
  norm_num
/-- `C114_eq_sound`: `==` recognises an operator as equal to itself. -/
example : Sdop.eq Ex.logS Ex.logS = true := by
  simp [Ex.logS, Sdop.eq, Sdop.sub, Sdop.add, Sdop.neg, mergeTerms, accum, Pdop.eqv, Dict.eqv, Dict.get?]
/-- `C114_dop_simplify` for an operator with two terms, acting on the left. -/
example : ∀ f ∈ [Ex.logSimp, id], KeepsValue Ex.logVal f := by
  intro f hf
  simp only [List.mem_cons, List.not_mem_nil, or_false] at hf
  rcases hf with rfl | rfl
  · exact Ex.logSimp_keeps
  · exact fun c => rfl

end GA
