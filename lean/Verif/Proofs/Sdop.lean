import Verif.Proofs.Terms
import Mathlib.RingTheory.Derivation.Basic
import Mathlib.Tactic.Ring

/-! Scalar differential operators. -/

set_option linter.unusedSectionVars false

namespace GA
variable {V : Type*} [DecidableEq V] {R : Type*} [CommRing R] [DecidableEq R]

/-- The operator of a term. -/
def sact (D : V → R → R) (c : R) (p : Pdop V) : R → R := fun f => c * p.call (basicDiff D) f

theorem foldl_add_sum {M : Type*} [AddCommMonoid M] (l : List M) (a : M) :
    l.foldl (· + ·) a = a + l.sum := by
  induction l generalizing a with
  | nil => simp
  | cons b l ih => rw [List.foldl_cons, ih, List.sum_cons, add_assoc]

theorem Sdop.call_eq (D : V → R → R) (s : Sdop R V) (f : R) : s.call D f = tsum (sact D) s f := by
  rw [Sdop.call, foldl_add_sum, zero_add]
  induction s with
  | nil => rfl
  | cons t s ih => rw [List.map_cons, List.sum_cons, ih, tsum_cons]; rfl

theorem twf_iff {s : Sdop R V} : TWF (fun _ => True) s ↔ s.WF := by simp [TWF, Sdop.WF]

theorem smeaning {D : V → R → R} (hD : ∀ x y f, D x (D y f) = D y (D x f)) :
    Meaning (fun _ => True) (fun c : R => decide (c = 0)) (· + ·) (sact D) where
  good_add := fun _ _ => trivial
  add := by intro a b _ _ p; funext f; simp only [sact, Pi.add_apply]; ring
  zero := by intro a _ h p; funext f; simp [sact, of_decide_eq_true h]
  eqv := by intro p q hp hq h a; funext f; simp only [sact]; rw [Pdop.call_perm D hD (Pdop.eqv_perm hp h)]

theorem szero (D : V → R → R) (p : Pdop V) : sact D 0 p = 0 := by funext f; simp [sact]

variable {D : V → R → R}

theorem Sdop.consolidate_call (hD : ∀ x y f, D x (D y f) = D y (D x f)) {s : Sdop R V} (hs : s.WF) :
    s.consolidate.WF ∧ ∀ f, s.consolidate.call D f = s.call D f := by
  have := consolidate_spec (smeaning hD) (twf_iff.mpr hs)
  exact ⟨twf_iff.mp this.1, fun f => by rw [Sdop.call_eq, Sdop.call_eq]; exact congrFun this.2 f⟩

theorem Sdop.add_call (hD : ∀ x y f, D x (D y f) = D y (D x f)) {s t : Sdop R V} (hs : s.WF)
    (ht : t.WF) : (s.add t).WF ∧ ∀ f, (s.add t).call D f = s.call D f + t.call D f := by
  have := merge_spec (smeaning hD) (zero := (0 : R)) trivial (szero D) (twf_iff.mpr hs) (twf_iff.mpr ht)
  exact ⟨twf_iff.mp this.1, fun f => by
    rw [Sdop.call_eq, Sdop.call_eq, Sdop.call_eq]; exact congrFun this.2 f⟩

theorem Sdop.neg_call {s : Sdop R V} (hs : s.WF) :
    s.neg.WF ∧ ∀ f, s.neg.call D f = - s.call D f := by
  refine ⟨fun t ht => ?_, fun f => ?_⟩
  · obtain ⟨t', ht', rfl⟩ := List.mem_map.mp ht; exact hs t' ht'
  · rw [Sdop.call_eq, Sdop.call_eq, Sdop.neg]
    clear hs
    induction s with
    | nil => simp
    | cons t s ih =>
      rw [List.map_cons, tsum_cons, Pi.add_apply, ih, tsum_cons, Pi.add_apply]
      simp only [sact]; ring

theorem Sdop.smul_call (c : R) {s : Sdop R V} (hs : s.WF) :
    (s.smul c).WF ∧ ∀ f, (s.smul c).call D f = c * s.call D f := by
  refine ⟨fun t ht => ?_, fun f => ?_⟩
  · obtain ⟨t', ht', rfl⟩ := List.mem_map.mp ht; exact hs t' ht'
  · rw [Sdop.call_eq, Sdop.call_eq, Sdop.smul]
    clear hs
    induction s with
    | nil => simp
    | cons t s ih =>
      rw [List.map_cons, tsum_cons, Pi.add_apply, ih, tsum_cons, Pi.add_apply]
      simp only [sact]; ring

theorem scalar_wf (c : R) : Sdop.WF (V := V) [(c, [])] := by simp [Sdop.WF, Pdop.wf_nil]
theorem scalar_call (c f : R) : Sdop.call (V := V) D [(c, [])] f = c * f := by
  simp [Sdop.call, Pdop.call]

theorem Sdop.sub_call (hD : ∀ x y f, D x (D y f) = D y (D x f)) {s t : Sdop R V} (hs : s.WF)
    (ht : t.WF) : (s.sub t).WF ∧ ∀ f, (s.sub t).call D f = s.call D f - t.call D f := by
  have h1 := Sdop.neg_call (D := D) ht
  have h2 := Sdop.add_call hD hs h1.1
  exact ⟨h2.1, fun f => by rw [Sdop.sub, h2.2, h1.2, sub_eq_add_neg]⟩

section derivations
variable {D : V → Derivation ℤ R R}

theorem sact_diff (hD : ∀ x y f, D x (D y f) = D y (D x f)) (x : V) (c : R) {p : Pdop V} (hp : p.WF) :
    (fun f => D x (sact (fun y => D y) c p f)) =
      sact (fun y => D y) (basicDiff (fun y => D y) x 1 c) p + sact (fun y => D y) c (p.diff x 1) := by
  funext f
  simp only [sact, Pi.add_apply]
  rw [Pdop.call_diff (fun y => D y) hD hp, Derivation.leibniz]
  simp only [smul_eq_mul, basicDiff, Function.iterate_one]
  ring

theorem Sdop.diff_call (hD : ∀ x y f, D x (D y f) = D y (D x f)) (x : V) (k : ℕ) {s : Sdop R V}
    (hs : s.WF) : (s.diff (fun y => D y) x k).WF ∧
      ∀ f, (s.diff (fun y => D y) x k).call (fun y => D y) f = (D x)^[k] (s.call (fun y => D y) f) := by
  have := diff_spec (smeaning (D := fun y => D y) hD) (d := basicDiff fun y => D y) (x := x)
    (fun _ => trivial) (δ := fun T f => D x (T f)) (by funext f; simp)
    (by intro S T; funext f; simp) (by intro a _ p hp; exact sact_diff hD x a hp) k (twf_iff.mpr hs)
  refine ⟨twf_iff.mp this.1, fun f => ?_⟩
  rw [Sdop.call_eq, Sdop.call_eq]
  refine (congrFun this.2 f).trans ?_
  generalize tsum (sact fun y => D y) s = T
  clear this
  induction k with
  | zero => rfl
  | succ k ih => rw [Function.iterate_succ_apply', Function.iterate_succ_apply', ih]

theorem Pdop.call_sdop (hD : ∀ x y f, D x (D y f) = D y (D x f)) (p : Pdop V) {s : Sdop R V}
    (hs : s.WF) : (p.call (Sdop.diff fun y => D y) s).WF ∧ ∀ f,
      (p.call (Sdop.diff fun y => D y) s).call (fun y => D y) f =
        p.call (basicDiff fun y => D y) (s.call (fun y => D y) f) := by
  induction p generalizing s with
  | nil => exact ⟨hs, fun f => rfl⟩
  | cons t p ih =>
    have h1 := Sdop.diff_call hD t.1 t.2 hs
    have h2 := ih h1.1
    refine ⟨h2.1, fun f => ?_⟩
    have := h2.2 f
    rw [h1.2 f] at this
    exact this

theorem Sdop.mul_call (hD : ∀ x y f, D x (D y f) = D y (D x f)) {s t : Sdop R V} (ht : t.WF) :
    (s.mul (fun y => D y) t).WF ∧ ∀ f, (s.mul (fun y => D y) t).call (fun y => D y) f =
        s.call (fun y => D y) (t.call (fun y => D y) f) := by
  have hfold : ∀ (us : List (Sdop R V)) (u : Sdop R V), u.WF → (∀ v ∈ us, v.WF) →
      (us.foldl Sdop.add u).WF ∧ ∀ f, (us.foldl Sdop.add u).call (fun y => D y) f =
        u.call (fun y => D y) f + (us.map fun v => v.call (fun y => D y) f).sum := by
    intro us
    induction us with
    | nil => intro u hu _; exact ⟨hu, fun f => by simp⟩
    | cons v us ih =>
      intro u hu hus
      have h1 := Sdop.add_call (D := fun y => D y) hD hu (hus v (by simp))
      have h2 := ih _ h1.1 fun w hw => hus w (by simp [hw])
      refine ⟨h2.1, fun f => ?_⟩
      rw [List.foldl_cons, h2.2, h1.2, List.map_cons, List.sum_cons, add_assoc]
  have hterm : ∀ c : R × Pdop V, (Sdop.smul c.1 (c.2.call (Sdop.diff fun y => D y) t)).WF ∧
      ∀ f, (Sdop.smul c.1 (c.2.call (Sdop.diff fun y => D y) t)).call (fun y => D y) f =
        c.1 * c.2.call (basicDiff fun y => D y) (t.call (fun y => D y) f) := by
    intro c
    have h1 := Pdop.call_sdop hD c.2 ht
    have h2 := Sdop.smul_call (D := fun y => D y) c.1 h1.1
    exact ⟨h2.1, fun f => by rw [h2.2, h1.2]⟩
  rw [Sdop.mul]
  cases s with
  | nil => exact ⟨by simp [Sdop.WF], fun f => rfl⟩
  | cons c s =>
    simp only [List.map_cons]
    have h3 := Sdop.add_call (D := fun y => D y) hD (scalar_wf 0) (hterm c).1
    have h4 := hfold (s.map fun c => Sdop.smul c.1 (c.2.call (Sdop.diff fun y => D y) t)) _ h3.1 (by
      intro v hv
      obtain ⟨c', _, rfl⟩ := List.mem_map.mp hv
      exact (hterm c').1)
    refine ⟨h4.1, fun f => ?_⟩
    have e : ∀ F, Sdop.call (fun y => D y) (c :: s) F = c.1 * c.2.call (basicDiff fun y => D y) F +
        (s.map fun c => c.1 * c.2.call (basicDiff fun y => D y) F).sum := by
      intro F
      rw [Sdop.call, List.map_cons, foldl_add_sum, List.sum_cons, zero_add]
    rw [Sdop.scalarAdd, h4.2, h3.2, scalar_call, (hterm c).2, e, List.map_map]
    simp only [zero_mul, zero_add]
    congr 2
    exact List.map_congr_left fun c' _ => (hterm c').2 f

end derivations

end GA
