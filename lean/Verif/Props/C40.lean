import Verif.Proofs.SdopEq
import Verif.Proofs.RatFun
import Mathlib.Data.Nat.Choose.Sum

/-!
# C40, C41: scalar differential operators

`D x` is the derivative of expressions by symbol `x` (SymPy's `diff`); `s.call D f` models `s(f)`.
`Sdop.WF` says that the dictionaries in an operator have distinct keys, as all Python dictionaries.
-/

set_option linter.unusedSectionVars false
set_option maxRecDepth 10000

namespace GA
variable {V : Type*} [DecidableEq V] {R : Type*} [CommRing R] [DecidableEq R]

/-! ### C40 -/

section C40
variable {D : V → R → R}

/-- C40: consolidating the terms does not change the operator. -/
theorem C40_consolidate (hD : ∀ x y f, D x (D y f) = D y (D x f)) {s : Sdop R V} (hs : s.WF) (f : R) :
    s.consolidate.call D f = s.call D f :=
  (Sdop.consolidate_call hD hs).2 f

/-- C40: after a consolidation there is one term per partial derivative. -/
theorem C40_consolidate_distinct (s : Sdop R V) : Distinct s.consolidate := consolidate_distinct s

/-- C40, in part: consolidating an operator without repeated derivatives leaves no zero terms.
Missing: with repeated derivatives, see `C40_consolidate_zero_counterexample`. -/
theorem C40_consolidate_no_zero_partial {s : Sdop R V} (hs : Distinct s) :
    ∀ t ∈ s.consolidate, t.1 ≠ 0 := by
  intro t ht
  rw [Sdop.consolidate, consolidate_of_distinct hs] at ht
  simpa using (List.mem_filter.mp ht).2

/-- C40 fails in this point: coefficients that cancel leave a term with coefficient zero, because
zero coefficients are dropped before like terms are collected. -/
theorem C40_consolidate_zero_counterexample (x : V) :
    Sdop.consolidate [((1 : ℤ), Pdop.single x), (-1, Pdop.single x)] = [(0, Pdop.single x)] := by
  simp [Sdop.consolidate, consolidateTerms, accum, Pdop.eqv, Dict.eqv, Pdop.single, Dict.get?]

/-- C40: the sum of operators acts as the sum. -/
theorem C40_add (hD : ∀ x y f, D x (D y f) = D y (D x f)) {s t : Sdop R V} (hs : s.WF) (ht : t.WF)
    (f : R) : (s.add t).call D f = s.call D f + t.call D f :=
  (Sdop.add_call hD hs ht).2 f

/-- C40: the difference of operators acts as the difference. -/
theorem C40_sub (hD : ∀ x y f, D x (D y f) = D y (D x f)) {s t : Sdop R V} (hs : s.WF) (ht : t.WF)
    (f : R) : (s.sub t).call D f = s.call D f - t.call D f :=
  (Sdop.sub_call hD hs ht).2 f

/-- C40: sums and differences of operators have one term per partial derivative and no zero terms,
also if the operands are not consolidated. -/
theorem C40_add_normal {s t : Sdop R V} (hs : s.WF) (ht : t.WF) :
    Distinct (s.add t) ∧ (∀ u ∈ s.add t, u.1 ≠ 0) ∧ Distinct (s.sub t) ∧ ∀ u ∈ s.sub t, u.1 ≠ 0 := by
  have h : ∀ t : Sdop R V, t.WF → Distinct (s.add t) ∧ ∀ u ∈ s.add t, u.1 ≠ 0 := by
    intro t ht
    have := merge_normal (isZero := fun c : R => decide (c = 0)) (add := (· + ·)) (zero := 0)
      (by simp) hs ht
    exact ⟨this.1, fun u hu => by simpa using this.2 u hu⟩
  have h' := h _ (Sdop.neg_call (D := fun _ f => f) ht).1
  exact ⟨(h t ht).1, (h t ht).2, h'.1, h'.2⟩

/-- C40: negation. -/
theorem C40_neg {s : Sdop R V} (hs : s.WF) (f : R) : s.neg.call D f = - s.call D f :=
  (Sdop.neg_call hs).2 f

/-- C40: multiplication by a scalar from the left. -/
theorem C40_smul (c : R) {s : Sdop R V} (hs : s.WF) (f : R) : (s.smul c).call D f = c * s.call D f :=
  (Sdop.smul_call c hs).2 f

/-- C40: sums and differences with scalars, which act by multiplication. -/
theorem C40_scalar (hD : ∀ x y f, D x (D y f) = D y (D x f)) (c : R) {s : Sdop R V} (hs : s.WF)
    (f : R) : (s.addScalar c).call D f = s.call D f + c * f ∧
      (Sdop.scalarAdd c s).call D f = c * f + s.call D f ∧
      (Sdop.scalarSub c s).call D f = c * f - s.call D f := by
  refine ⟨?_, ?_, ?_⟩
  · rw [Sdop.addScalar, (Sdop.add_call hD hs (scalar_wf c)).2, scalar_call]
  · rw [Sdop.scalarAdd, (Sdop.add_call hD (scalar_wf c) hs).2, scalar_call]
  · rw [Sdop.scalarSub, Sdop.addScalar, (Sdop.add_call hD (Sdop.neg_call (D := D) hs).1 (scalar_wf c)).2,
      scalar_call, (Sdop.neg_call hs).2]
    ring

/-- C40: the operations keep operators well formed. -/
theorem C40_wf {s t : Sdop R V} (hs : s.WF) (ht : t.WF) (c : R) :
    s.consolidate.WF ∧ (s.add t).WF ∧ (s.sub t).WF ∧ s.neg.WF ∧ (s.smul c).WF ∧
      (s.addScalar c).WF ∧ (Sdop.scalarSub c s).WF := by
  have hD : ∀ (x y : V) (f : R), (fun (_ : V) (f : R) => f) x ((fun _ f => f) y f) =
    (fun _ f => f) y ((fun _ f => f) x f) := fun _ _ _ => rfl
  exact ⟨(Sdop.consolidate_call hD hs).1, (Sdop.add_call hD hs ht).1, (Sdop.sub_call hD hs ht).1,
    (Sdop.neg_call (D := fun _ f => f) hs).1, (Sdop.smul_call (D := fun _ f => f) c hs).1,
    (Sdop.add_call hD hs (scalar_wf c)).1,
    (Sdop.add_call hD (Sdop.neg_call (D := fun _ f => f) hs).1 (scalar_wf c)).1⟩

/-- C40: operators that compare equal have the same action. -/
theorem C40_eq_sound (hD : ∀ x y f, D x (D y f) = D y (D x f)) {s t : Sdop R V} (hs : s.WF)
    (ht : t.WF) (h : s.eq t = true) (f : R) : s.call D f = t.call D f := by
  have h1 := (Sdop.sub_call hD hs ht).2 f
  rw [Sdop.eq, decide_eq_true_eq, List.length_eq_zero_iff] at h
  rw [h] at h1
  exact (sub_eq_zero.mp h1.symm)

end C40

/-- The keys and exponents of the dictionaries of a sum. -/
theorem add_exponents {s t : Sdop R V} {P : Pdop V → Prop} (hs : ∀ u ∈ s, P u.2) (ht : ∀ u ∈ t, P u.2) :
    ∀ u ∈ s.add t, P u.2 := by
  have key : ∀ (m l : List (R × Pdop V)), (∀ t ∈ m, P t.2) → (∀ t ∈ l, P t.2) →
      ∀ t ∈ m.foldl (fun a t => accum (· + ·) a t.1 t.2) l, P t.2 := by
    intro m
    induction m with
    | nil => exact fun l _ h1 => h1
    | cons t m ih =>
      intro l h0 h1
      refine ih _ (fun s hs => h0 s (by simp [hs])) fun u hu => ?_
      rcases snd_accum hu with h | h
      · rw [h]; exact h0 t (by simp)
      · obtain ⟨v, hv, e⟩ := List.mem_map.mp h; rw [← e]; exact h1 v hv
  intro u hu
  refine key t _ ht (key s _ hs ?_) u (List.mem_of_mem_filter hu)
  intro v hv
  obtain ⟨p, hp, rfl⟩ := List.mem_map.mp hv
  rcases List.mem_append.mp hp with hp | hp
  · obtain ⟨w, hw, e⟩ := List.mem_map.mp hp; rw [← e]; exact hs w hw
  · obtain ⟨w, hw, e⟩ := List.mem_map.mp (List.mem_of_mem_filter hp); rw [← e]; exact ht w hw

section derivations
variable {D : V → Derivation ℤ R R}

/-- C40: equality decides whether two operators have the same action on all functions, when there are
coordinates `X`, and no dictionary has an entry of order zero. -/
theorem C40_eq [IsDomain R] [CharZero R] (hD : ∀ x y f, D x (D y f) = D y (D x f)) {X : V → R}
    (hX : ∀ u v, D u (X v) = if u = v then 1 else 0) {s t : Sdop R V} (hs : s.WF) (ht : t.WF)
    (hs0 : ∀ u ∈ s, ∀ e ∈ u.2, e.2 ≠ 0) (ht0 : ∀ u ∈ t, ∀ e ∈ u.2, e.2 ≠ 0) :
    s.eq t = true ↔ ∀ f, s.call (fun y => D y) f = t.call (fun y => D y) f := by
  refine ⟨C40_eq_sound hD hs ht, fun h => ?_⟩
  have h1 := C40_add_normal hs ht
  have h2 := Sdop.sub_call (D := fun y => D y) hD hs ht
  rw [Sdop.eq, decide_eq_true_eq, List.length_eq_zero_iff]
  refine Sdop.eq_nil_of_call hD hX h2.1 ?_ h1.2.2.1 h1.2.2.2 fun f => by rw [h2.2, h, sub_self]
  refine add_exponents (P := fun p => ∀ e ∈ p, e.2 ≠ 0) hs0 fun u hu => ?_
  obtain ⟨v, hv, rfl⟩ := List.mem_map.mp hu
  exact ht0 v hv

/-- Without the condition on the dictionaries equality is too strict: `Pdop({x: 0})` is the identity
but not equal to `Pdop({})`. -/
theorem C40_order_zero_counterexample (x : V) :
    Sdop.eq [((1 : ℤ), [(x, 0)])] [(1, [])] = false ∧
      ∀ (D : V → ℤ → ℤ) (f : ℤ), Sdop.call D [(1, [(x, 0)])] f = Sdop.call D [(1, [])] f := by
  refine ⟨?_, fun D f => rfl⟩
  simp only [Sdop.eq, Sdop.sub, Sdop.add, Sdop.neg, mergeTerms, List.map_cons, List.map_nil]
  simp [accum, Pdop.eqv, Dict.eqv, Dict.get?]

/-! ### C41 -/

/-- C41: composition of operators. -/
theorem C41_mul (hD : ∀ x y f, D x (D y f) = D y (D x f)) (s : Sdop R V) {t : Sdop R V} (ht : t.WF)
    (f : R) : (s.mul (fun y => D y) t).call (fun y => D y) f =
      s.call (fun y => D y) (t.call (fun y => D y) f) :=
  (Sdop.mul_call hD ht).2 f

/-- C41: composition of partial derivatives. -/
theorem C41_pdop_mul {T : V → R → R} (hT : ∀ x y f, T x (T y f) = T y (T x f)) (p : Pdop V)
    {q : Pdop V} (hq : q.WF) (f : R) :
    (p.mul q).call (basicDiff T) f = p.call (basicDiff T) (q.call (basicDiff T) f) ∧ (p.mul q).WF := by
  rw [Pdop.mul]
  induction p generalizing q with
  | nil => exact ⟨rfl, hq⟩
  | cons t p ih =>
    have h1 := ih (Pdop.diff_wf hq t.1 t.2)
    rw [Pdop.call_diff T hT hq] at h1
    exact h1

/-- C41: equal partial derivatives have the same action. -/
theorem C41_pdop_eq {T : V → R → R} (hT : ∀ x y f, T x (T y f) = T y (T x f)) {p q : Pdop V}
    (hp : p.WF) (h : p.eqv q = true) (f : R) : p.call (basicDiff T) f = q.call (basicDiff T) f :=
  Pdop.call_perm T hT (Pdop.eqv_perm hp h) f

/-- C41: an operator differentiated `k` times is its composition with `k` derivatives. -/
theorem C41_diff (hD : ∀ x y f, D x (D y f) = D y (D x f)) (x : V) (k : ℕ) {s : Sdop R V} (hs : s.WF)
    (f : R) : (s.diff (fun y => D y) x k).call (fun y => D y) f =
      (D x)^[k] (s.call (fun y => D y) f) :=
  (Sdop.diff_call hD x k hs).2 f

theorem iterate_leibniz (d : Derivation ℤ R R) (k : ℕ) (a b : R) :
    d^[k] (a * b) = ∑ ij ∈ Finset.antidiagonal k, (k.choose ij.1 : R) * (d^[ij.1] a * d^[ij.2] b) := by
  induction k with
  | zero => simp
  | succ k ih =>
    rw [Finset.sum_antidiagonal_choose_succ_mul (fun i j => d^[i] a * d^[j] b) k,
      Function.iterate_succ_apply', ih, map_sum, ← Finset.sum_add_distrib]
    refine Finset.sum_congr rfl fun ij hij => ?_
    rw [k.choose_symm_of_eq_add (Finset.mem_antidiagonal.1 hij).symm, Derivation.leibniz,
      Derivation.leibniz, Derivation.map_natCast]
    simp only [Function.iterate_succ_apply', smul_eq_mul]
    ring

/-- C41: the iterated Leibniz rule: differentiating an operator `k` times distributes the derivatives
over coefficients and the function. -/
theorem C41_leibniz (hD : ∀ x y f, D x (D y f) = D y (D x f)) (x : V) (k : ℕ) {s : Sdop R V}
    (hs : s.WF) (f : R) : (s.diff (fun y => D y) x k).call (fun y => D y) f =
      ∑ ij ∈ Finset.antidiagonal k, (k.choose ij.1 : R) *
        Sdop.call (fun y => D y) (s.map fun t => ((D x)^[ij.1] t.1, t.2)) ((D x)^[ij.2] f) := by
  have hc : ∀ (p : Pdop V) (j : ℕ) (f : R), p.call (basicDiff fun y => D y) ((D x)^[j] f) =
      (D x)^[j] (p.call (basicDiff fun y => D y) f) := by
    intro p
    induction p with
    | nil => intro j f; rfl
    | cons t p ih =>
      intro j f
      have h1 := iterate_comm (fun y => D y) hD t.1 x t.2 j f
      have := ih j ((D t.1)^[t.2] f)
      rw [← h1] at this
      exact this
  have hadd : ∀ (j : ℕ) (a b : R), (D x)^[j] (a + b) = (D x)^[j] a + (D x)^[j] b := by
    intro j
    induction j with
    | zero => intro a b; rfl
    | succ j ih =>
      intro a b
      rw [Function.iterate_succ_apply', ih, map_add, Function.iterate_succ_apply',
        Function.iterate_succ_apply']
  rw [C41_diff hD x k hs]
  clear hs
  have cons : ∀ (t : R × Pdop V) (s : Sdop R V) (f : R), Sdop.call (fun y => D y) (t :: s) f =
      t.1 * t.2.call (basicDiff fun y => D y) f + Sdop.call (fun y => D y) s f := by
    intro t s f
    rw [Sdop.call_eq, Sdop.call_eq, tsum_cons]; rfl
  induction s with
  | nil =>
    have h0 : ∀ f, Sdop.call (fun y => D y) ([] : Sdop R V) f = 0 := fun f => rfl
    have : (D x)^[k] (0 : R) = 0 := by
      have := hadd k 0 0
      rw [add_zero] at this
      exact (left_eq_add.mp this)
    simp [h0, this]
  | cons t s ih =>
    rw [cons, hadd, ih, iterate_leibniz, ← Finset.sum_add_distrib]
    refine Finset.sum_congr rfl fun ij _ => ?_
    rw [List.map_cons, cons, hc]
    ring

end derivations

/-! ### Concrete case: rational functions of two coordinates -/

namespace Ex

/-- `x0 D{x1} + D{x0}^2 D{x1} + 3`. -/
noncomputable def S1 : Sdop (Fun 2) (Fin 2) :=
  [(coord 0, [(1, 1)]), (1, [(0, 2), (1, 1)]), (3, [])]

theorem S1_wf : S1.WF := by simp [Sdop.WF, S1, Pdop.WF]
theorem S1_order : ∀ u ∈ S1, ∀ e ∈ u.2, e.2 ≠ 0 := by simp [S1]

/-- The hypotheses of C40 and C41 are met. -/
example (t : Sdop (Fun 2) (Fin 2)) (ht : t.WF) (f : Fun 2) :
    (S1.mul (fun y => partialD y) t).call (fun y => partialD y) f =
      S1.call (fun y => partialD y) (t.call (fun y => partialD y) f) :=
  C41_mul partialD_comm S1 ht f

/-- The hypotheses of `C40_eq` are met; `S1` is not the zero operator. -/
example : Sdop.eq S1 [] = true ↔ ∀ f, S1.call (fun y => partialD y) f = 0 :=
  C40_eq partialD_comm partialD_coord S1_wf (by simp [Sdop.WF]) S1_order (by simp)

/-- `x0 D{x1}` applied to `x1` is `x0`: the actions are not trivial. -/
example : Sdop.call (fun y => partialD y) [((coord 0 : Fun 2), Pdop.single 1)] (coord 1) = coord 0 := by
  simp [Sdop.call, Pdop.call, Pdop.single, basicDiff, partialD_coord]

end Ex

end GA
