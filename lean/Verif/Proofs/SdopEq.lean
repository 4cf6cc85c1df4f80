import Verif.Proofs.Sdop
import Mathlib.Data.Finsupp.Weight
import Mathlib.Data.Nat.Factorial.Basic
import Mathlib.Algebra.CharZero.Defs
import Mathlib.Algebra.BigOperators.Finsupp.Basic

/-! Differential operators are determined by their action on monomials. -/

set_option linter.unusedSectionVars false

namespace GA
variable {V : Type*} [DecidableEq V]

/-- The multi-index of a `Pdop`. -/
noncomputable def Pdop.exps (p : Pdop V) : V →₀ ℕ := (p.map fun t => Finsupp.single t.1 t.2).sum

theorem Pdop.exps_cons (t : V × ℕ) (p : Pdop V) :
    Pdop.exps (t :: p) = Finsupp.single t.1 t.2 + p.exps := by simp [Pdop.exps]

theorem Pdop.exps_of_not_mem {p : Pdop V} {x : V} (h : x ∉ p.map Prod.fst) : p.exps x = 0 := by
  induction p with
  | nil => simp [Pdop.exps]
  | cons t p ih =>
    rw [List.map_cons, List.mem_cons, not_or] at h
    rw [Pdop.exps_cons, Finsupp.add_apply, ih h.2, Finsupp.single_apply, if_neg (Ne.symm h.1)]

theorem Pdop.exps_of_mem {p : Pdop V} (hp : p.WF) {t : V × ℕ} (h : t ∈ p) : p.exps t.1 = t.2 := by
  induction p with
  | nil => simp at h
  | cons s p ih =>
    rw [Pdop.WF, List.map_cons, List.nodup_cons] at hp
    rw [Pdop.exps_cons, Finsupp.add_apply]
    rcases List.mem_cons.mp h with h | h
    · subst h; rw [Pdop.exps_of_not_mem hp.1]; simp
    · rw [ih hp.2 h, Finsupp.single_apply, if_neg, zero_add]
      intro e; exact hp.1 (e ▸ List.mem_map_of_mem h)

theorem Pdop.degree_exps (p : Pdop V) : p.exps.degree = p.order := by
  induction p with
  | nil => simp [Pdop.exps, Pdop.order]
  | cons t p ih =>
    rw [Pdop.exps_cons, map_add, ih, Pdop.order, Pdop.order, List.map_cons, List.sum_cons]
    simp

theorem Pdop.perm_of_exps {p q : Pdop V} (hp : p.WF) (hq : q.WF) (hp0 : ∀ t ∈ p, t.2 ≠ 0)
    (hq0 : ∀ t ∈ q, t.2 ≠ 0) (h : p.exps = q.exps) : List.Perm p q := by
  have key : ∀ {p q : Pdop V}, p.WF → q.WF → (∀ t ∈ p, t.2 ≠ 0) → p.exps = q.exps → p ⊆ q := by
    intro p q hp hq hp0 h t ht
    have h1 := Pdop.exps_of_mem hp ht
    rw [h] at h1
    have h2 : t.1 ∈ q.map Prod.fst := by
      by_contra h3
      rw [Pdop.exps_of_not_mem h3] at h1
      exact hp0 t ht h1.symm
    obtain ⟨s, hs, e⟩ := List.mem_map.mp h2
    have h3 := Pdop.exps_of_mem hq hs
    rw [e, h1] at h3
    have : s = t := Prod.ext e h3.symm
    exact this ▸ hs
  exact (List.subperm_of_subset hp.of_map (key hp hq hp0 h)).antisymm
    (List.subperm_of_subset hq.of_map (key hq hp hq0 h.symm))

section monomials
variable {R : Type*} [CommRing R] [DecidableEq R] {D : V → Derivation ℤ R R} {X : V → R}

/-- Monomial. -/
noncomputable def mono (X : V → R) (e : V →₀ ℕ) : R := e.prod fun v k => X v ^ k

theorem mono_add (X : V → R) (e f : V →₀ ℕ) : mono X (e + f) = mono X e * mono X f :=
  Finsupp.prod_add_index' (by simp) (by intros; rw [pow_add])

theorem mono_single (X : V → R) (v : V) (k : ℕ) : mono X (Finsupp.single v k) = X v ^ k := by
  simp [mono]

/-- Derivative of a monomial by one coordinate. -/
theorem D_mono (hX : ∀ u v, D u (X v) = if u = v then 1 else 0) (u : V) (e : V →₀ ℕ) :
    D u (mono X e) = (e u : R) * mono X (e - Finsupp.single u 1) := by
  induction e using Finsupp.induction with
  | zero => simp [mono]
  | single_add v k e hv hk ih =>
    rw [mono_add, Derivation.leibniz, ih, mono_single, Derivation.leibniz_pow, hX]
    simp only [smul_eq_mul, nsmul_eq_mul, Finsupp.add_apply]
    rcases eq_or_ne u v with rfl | h
    · have h0 : e u = 0 := Finsupp.notMem_support_iff.mp hv
      have e1 : Finsupp.single u k + e - Finsupp.single u 1 = Finsupp.single u (k - 1) + e := by
        ext w
        rcases eq_or_ne u w with rfl | hw
        · simp [h0]
        · simp [hw]
      rw [e1, mono_add, mono_single, h0]
      simp; ring
    · have e1 : Finsupp.single v k + e - Finsupp.single u 1 =
          Finsupp.single v k + (e - Finsupp.single u 1) := by
        ext w
        rcases eq_or_ne u w with rfl | hw
        · simp [h.symm]
        · simp [hw]
      rw [e1, mono_add, mono_single, if_neg h, Finsupp.single_apply, if_neg h.symm]
      simp; ring

theorem D_iter_mono (hX : ∀ u v, D u (X v) = if u = v then 1 else 0) (u : V) (k : ℕ) (c : ℕ)
    (e : V →₀ ℕ) : (D u)^[k] ((c : R) * mono X e) =
      ((c * (e u).descFactorial k : ℕ) : R) * mono X (e - Finsupp.single u k) := by
  induction k with
  | zero => simp
  | succ k ih =>
    rw [Function.iterate_succ_apply', ih, Derivation.leibniz, D_mono hX, Derivation.map_natCast]
    have e1 : e - Finsupp.single u k - Finsupp.single u 1 = e - Finsupp.single u (k + 1) := by
      rw [tsub_tsub, ← Finsupp.single_add]
    rw [e1, Nat.descFactorial_succ]
    simp only [smul_eq_mul, Finsupp.tsub_apply, Finsupp.single_eq_same]
    push_cast
    ring

theorem Pdop.call_mono (hD : ∀ x y f, D x (D y f) = D y (D x f))
    (hX : ∀ u v, D u (X v) = if u = v then 1 else 0) {p : Pdop V} (hp : p.WF) (e : V →₀ ℕ) :
    p.call (basicDiff fun y => D y) (mono X e) =
      (((p.map fun t => (e t.1).descFactorial t.2).prod : ℕ) : R) * mono X (e - p.exps) := by
  induction p with
  | nil => simp [Pdop.call, Pdop.exps]
  | cons t p ih =>
    rw [Pdop.WF, List.map_cons, List.nodup_cons] at hp
    rw [Pdop.call_cons (fun y => D y) hD, ih hp.2]
    refine (D_iter_mono hX _ _ _ _).trans ?_
    rw [List.map_cons, List.prod_cons, Finsupp.tsub_apply, Pdop.exps_of_not_mem hp.1, Pdop.exps_cons,
      tsub_tsub, add_comm (Pdop.exps p), Nat.sub_zero, mul_comm (e t.1 |>.descFactorial t.2)]

theorem Pdop.call_mono_self (hD : ∀ x y f, D x (D y f) = D y (D x f))
    (hX : ∀ u v, D u (X v) = if u = v then 1 else 0) {p : Pdop V} (hp : p.WF) :
    ∃ c : ℕ, c ≠ 0 ∧ p.call (basicDiff fun y => D y) (mono X p.exps) = c := by
  refine ⟨(p.map fun t => (p.exps t.1).descFactorial t.2).prod, ?_,
    (Pdop.call_mono hD hX hp _).trans (by rw [tsub_self, mono, Finsupp.prod_zero_index, mul_one])⟩
  apply List.prod_ne_zero
  intro h
  obtain ⟨t, ht, h0⟩ := List.mem_map.mp h
  rw [Pdop.exps_of_mem hp ht, Nat.descFactorial_self] at h0
  exact Nat.factorial_ne_zero _ h0

theorem Pdop.call_mono_other (hD : ∀ x y f, D x (D y f) = D y (D x f))
    (hX : ∀ u v, D u (X v) = if u = v then 1 else 0) {p q : Pdop V} (hp : p.WF) (hq : q.WF)
    (hp0 : ∀ t ∈ p, t.2 ≠ 0) (hq0 : ∀ t ∈ q, t.2 ≠ 0) (ho : q.order ≤ p.order)
    (hpq : ¬ List.Perm p q) : p.call (basicDiff fun y => D y) (mono X q.exps) = 0 := by
  rw [Pdop.call_mono hD hX hp]
  have : (p.map fun t => (q.exps t.1).descFactorial t.2).prod = 0 := by
    rw [List.prod_eq_zero_iff]
    by_contra h
    apply hpq
    refine Pdop.perm_of_exps hp hq hp0 hq0 ?_
    have hle : p.exps ≤ q.exps := by
      intro v
      by_cases hv : v ∈ p.map Prod.fst
      · obtain ⟨t, ht, rfl⟩ := List.mem_map.mp hv
        rw [Pdop.exps_of_mem hp ht]
        by_contra hlt
        exact h (List.mem_map.mpr ⟨t, ht, Nat.descFactorial_eq_zero_iff_lt.mpr (not_le.mp hlt)⟩)
      · rw [Pdop.exps_of_not_mem hv]; exact Nat.zero_le _
    have h1 : q.exps = p.exps + (q.exps - p.exps) := (add_tsub_cancel_of_le hle).symm
    have h2 := congrArg Finsupp.degree h1
    rw [map_add, Pdop.degree_exps, Pdop.degree_exps] at h2
    have h3 : (q.exps - p.exps).degree = 0 := by omega
    rw [Finsupp.degree_eq_zero_iff] at h3
    rw [h3, add_zero] at h1
    exact h1.symm
  rw [this]; simp

/-- A normalised operator that annihilates every function has no terms. -/
theorem Sdop.eq_nil_of_call [IsDomain R] [CharZero R] (hD : ∀ x y f, D x (D y f) = D y (D x f))
    (hX : ∀ u v, D u (X v) = if u = v then 1 else 0) {s : Sdop R V} (hs : s.WF)
    (h0 : ∀ t ∈ s, ∀ e ∈ t.2, e.2 ≠ 0) (hd : Distinct s) (hz : ∀ t ∈ s, t.1 ≠ 0)
    (h : ∀ f, s.call (fun y => D y) f = 0) : s = [] := by
  by_contra hne
  obtain ⟨t, ht, hmin⟩ : ∃ t ∈ s, ∀ u ∈ s, t.2.order ≤ u.2.order := by
    have key : ∀ l : Sdop R V, l ≠ [] → ∃ t ∈ l, ∀ u ∈ l, t.2.order ≤ u.2.order := by
      intro l
      induction l with
      | nil => intro h; exact absurd rfl h
      | cons t l ih =>
        intro _
        by_cases hl : l = []
        · subst hl; exact ⟨t, by simp, by simp⟩
        · obtain ⟨u, hu, hm⟩ := ih hl
          rcases le_total t.2.order u.2.order with h1 | h1
          · exact ⟨t, by simp, fun v hv => (List.mem_cons.mp hv).elim (fun e => e ▸ le_rfl)
              fun hv => h1.trans (hm v hv)⟩
          · exact ⟨u, by simp [hu], fun v hv => (List.mem_cons.mp hv).elim (fun e => e ▸ h1)
              fun hv => hm v hv⟩
    exact key s hne
  obtain ⟨a, b, rfl⟩ := List.append_of_mem ht
  have h1 := h (mono X t.2.exps)
  rw [Sdop.call_eq, tsum_append, tsum_cons, Pi.add_apply, Pi.add_apply] at h1
  have key : ∀ l : Sdop R V, (∀ u ∈ l, u ∈ a ++ t :: b ∧ u.2.eqv t.2 = false) →
      tsum (sact fun y => D y) l (mono X t.2.exps) = 0 := by
    intro l
    induction l with
    | nil => intro _; rfl
    | cons u l ih =>
      intro hl
      obtain ⟨hu, hut⟩ := hl u (by simp)
      rw [tsum_cons, Pi.add_apply, ih fun v hv => hl v (by simp [hv]), sact,
        Pdop.call_mono_other hD hX (hs u hu) (hs t ht) (h0 u hu) (h0 t ht) (hmin u hu), mul_zero, add_zero]
      intro hp
      rw [Pdop.perm_eqv (hs t ht) hp] at hut
      exact Bool.noConfusion hut
  obtain ⟨hda, hdb, hdab⟩ := List.pairwise_append.mp hd
  rw [List.pairwise_cons] at hdb
  rw [key a fun u hu => ⟨by simp [hu], hdab u hu t (by simp)⟩, key b fun u hu => ⟨by simp [hu], by
    by_contra h2
    rw [Bool.not_eq_false] at h2
    have h3 := Pdop.eqv_symm (hs u (by simp [hu])) h2
    rw [hdb.1 u hu] at h3
    exact Bool.noConfusion h3⟩, sact] at h1
  obtain ⟨c, hc, e⟩ := Pdop.call_mono_self hD hX (hs t ht)
  rw [e, zero_add, add_zero] at h1
  rcases mul_eq_zero.mp h1 with h2 | h2
  · exact hz t ht h2
  · exact hc (by exact_mod_cast h2)

end monomials

end GA
