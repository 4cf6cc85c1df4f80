import Verif.Spec.Dop
import Verif.Proofs.Dict
import Mathlib.Algebra.BigOperators.Group.List.Basic
import Mathlib.Data.List.Perm.Subperm

/-! Lists of terms of differential operators. -/

set_option linter.unusedSectionVars false

namespace GA
variable {V : Type*} [DecidableEq V]

/-! ### `Pdop` -/

theorem Dict.get?_of_mem' {W : Type*} {d : Dict V W} (hd : (d.map Prod.fst).Nodup) {k : V} {w : W}
    (h : (k, w) ∈ d) : d.get? k = some w := by
  induction d with
  | nil => simp at h
  | cons t d ih =>
    rw [List.map_cons, List.nodup_cons] at hd
    rw [Dict.get?]
    rcases List.mem_cons.mp h with h | h
    · subst h; simp
    · rw [if_neg, ih hd.2 h]
      rintro rfl
      exact hd.1 (List.mem_map.mpr ⟨_, h, rfl⟩)

theorem Dict.mem_of_get?' {W : Type*} {d : Dict V W} {k : V} {w : W} (h : d.get? k = some w) :
    (k, w) ∈ d := by
  induction d with
  | nil => simp [Dict.get?] at h
  | cons t d ih =>
    rw [Dict.get?] at h
    split_ifs at h with h1
    · obtain ⟨a, b⟩ := t
      simp only [Option.some.injEq] at h h1
      subst h; subst h1; simp
    · exact List.mem_cons_of_mem _ (ih h)

theorem Dict.get?_none' {W : Type*} {d : Dict V W} {k : V} : d.get? k = none ↔ k ∉ d.map Prod.fst := by
  induction d with
  | nil => simp [Dict.get?]
  | cons t d ih =>
    rw [Dict.get?]
    split_ifs with h
    · simp [h]
    · rw [ih]; simp [Ne.symm h]

theorem Pdop.eqv_perm {p q : Pdop V} (hp : p.WF) (h : p.eqv q = true) : List.Perm p q := by
  rw [Pdop.eqv, Dict.eqv, Bool.and_eq_true, decide_eq_true_eq, List.all_eq_true] at h
  have hsub : p ⊆ q := fun t ht => Dict.mem_of_get?' (of_decide_eq_true (h.2 t ht))
  exact (List.subperm_of_subset hp.of_map hsub).perm_of_length_le h.1.ge

theorem Pdop.perm_eqv {p q : Pdop V} (hq : q.WF) (h : List.Perm p q) : p.eqv q = true := by
  rw [Pdop.eqv, Dict.eqv, Bool.and_eq_true, decide_eq_true_eq, List.all_eq_true]
  exact ⟨h.length_eq, fun t ht => decide_eq_true (Dict.get?_of_mem' hq (h.subset ht))⟩

theorem Pdop.eqv_iff {p q : Pdop V} (hp : p.WF) (hq : q.WF) : p.eqv q = true ↔ List.Perm p q :=
  ⟨Pdop.eqv_perm hp, Pdop.perm_eqv hq⟩

theorem Pdop.eqv_refl {p : Pdop V} (hp : p.WF) : p.eqv p = true := Pdop.perm_eqv hp (.refl _)
theorem Pdop.eqv_symm {p q : Pdop V} (hp : p.WF) (h : p.eqv q = true) :
    q.eqv p = true := Pdop.perm_eqv hp (Pdop.eqv_perm hp h).symm
theorem Pdop.eqv_trans {p q r : Pdop V} (hp : p.WF) (hq : q.WF) (hr : r.WF) (h : p.eqv q = true)
    (h' : q.eqv r = true) : p.eqv r = true :=
  Pdop.perm_eqv hr ((Pdop.eqv_perm hp h).trans (Pdop.eqv_perm hq h'))

theorem Dict.keys_set' {W : Type*} (d : Dict V W) (k : V) (w : W) :
    (d.set k w).map Prod.fst = if k ∈ d.map Prod.fst then d.map Prod.fst else d.map Prod.fst ++ [k] := by
  induction d with
  | nil => simp [Dict.set]
  | cons t d ih =>
    rw [Dict.set]
    split_ifs with h1 h2 h2
    · simp [h1]
    · simp [h1] at h2
    · rw [List.map_cons, ih, if_pos]
      · rfl
      · rw [List.map_cons, List.mem_cons] at h2
        rcases h2 with h2 | h2
        · exact absurd h2.symm h1
        · exact h2
    · rw [List.map_cons, ih, if_neg]
      · rfl
      · intro h3; exact h2 (by simp only [List.map_cons, List.mem_cons]; exact Or.inr h3)

theorem Dict.nodup_set' {W : Type*} {d : Dict V W} (hd : (d.map Prod.fst).Nodup) (k : V) (w : W) :
    ((d.set k w).map Prod.fst).Nodup := by
  rw [Dict.keys_set']
  split_ifs with h
  · exact hd
  · exact List.nodup_append.mpr ⟨hd, by simp, by
      intro a ha b hb; simp only [List.mem_singleton] at hb; subst hb; rintro rfl; exact h ha⟩

theorem Pdop.wf_nil : Pdop.WF ([] : Pdop V) := List.nodup_nil
theorem Pdop.wf_single (x : V) : (Pdop.single x).WF := by simp [Pdop.WF, Pdop.single]

theorem Pdop.diff_wf {p : Pdop V} (hp : p.WF) (x : V) (k : ℕ) : (p.diff x k).WF := by
  rw [Pdop.diff]
  split <;> exact Dict.nodup_set' hp _ _

/-! ### Action of a `Pdop` -/

section action
variable {β : Type*} (T : V → β → β)

theorem iterate_comm (hT : ∀ x y f, T x (T y f) = T y (T x f)) (x y : V) (j k : ℕ) (f : β) :
    (T x)^[j] ((T y)^[k] f) = (T y)^[k] ((T x)^[j] f) :=
  ((show Function.Commute (T x) (T y) from fun f => hT x y f).iterate_iterate j k).eq f

theorem Pdop.call_perm (hT : ∀ x y f, T x (T y f) = T y (T x f)) {p q : Pdop V}
    (h : List.Perm p q) (f : β) : p.call (basicDiff T) f = q.call (basicDiff T) f := by
  rw [Pdop.call, Pdop.call]
  refine h.foldl_eq' (fun a _ b _ z => ?_) f
  exact iterate_comm T hT _ _ _ _ _

theorem Pdop.call_cons (hT : ∀ x y f, T x (T y f) = T y (T x f)) (t : V × ℕ) (p : Pdop V) (f : β) :
    Pdop.call (basicDiff T) (t :: p) f = (T t.1)^[t.2] (p.call (basicDiff T) f) := by
  have h : List.Perm (t :: p) (p ++ [t]) := List.perm_append_singleton t p |>.symm
  rw [Pdop.call_perm T hT h, Pdop.call, List.foldl_append]
  rfl

theorem Pdop.call_set_none (hT : ∀ x y f, T x (T y f) = T y (T x f)) {p : Pdop V} {x : V}
    (h : x ∉ p.map Prod.fst) (k : ℕ) (f : β) :
    Pdop.call (basicDiff T) (p.set x k) f = (T x)^[k] (p.call (basicDiff T) f) := by
  induction p with
  | nil => rfl
  | cons t p ih =>
    have h1 : ¬ t.1 = x := by rintro rfl; simp at h
    have h2 : x ∉ p.map Prod.fst := fun h3 => h (by
      simp only [List.map_cons, List.mem_cons]; exact Or.inr h3)
    rw [Dict.set, if_neg h1, Pdop.call_cons T hT, ih h2, Pdop.call_cons T hT,
      iterate_comm T hT]

theorem Pdop.call_set_some (hT : ∀ x y f, T x (T y f) = T y (T x f)) {p : Pdop V} (hp : p.WF)
    {x : V} {j : ℕ} (h : p.get? x = some j) (k : ℕ) (f : β) :
    Pdop.call (basicDiff T) (p.set x (j + k)) f = (T x)^[k] (p.call (basicDiff T) f) := by
  induction p with
  | nil => simp [Dict.get?] at h
  | cons t p ih =>
    rw [Pdop.WF, List.map_cons, List.nodup_cons] at hp
    rw [Dict.get?] at h
    rw [Dict.set]
    split_ifs at h ⊢ with h1
    · obtain ⟨a, b⟩ := t
      simp only [Option.some.injEq] at h h1
      subst h; subst h1
      rw [Pdop.call_cons T hT, Pdop.call_cons T hT, ← Function.iterate_add_apply, add_comm]
    · rw [Pdop.call_cons T hT, ih hp.2 h, Pdop.call_cons T hT, iterate_comm T hT]

/-- Differentiating the operator is differentiating its result. -/
theorem Pdop.call_diff (hT : ∀ x y f, T x (T y f) = T y (T x f)) {p : Pdop V} (hp : p.WF) (x : V)
    (k : ℕ) (f : β) :
    Pdop.call (basicDiff T) (p.diff x k) f = (T x)^[k] (p.call (basicDiff T) f) := by
  rw [Pdop.diff]
  split
  · next j h => exact Pdop.call_set_some T hT hp h k f
  · next h => exact Pdop.call_set_none T hT (Dict.get?_none'.mp h) k f

end action

/-! ### Sums of terms -/

section terms
variable {α M : Type*} [AddCommMonoid M]

/-- The sum of the meanings of the terms. -/
def tsum (φ : α → Pdop V → M) (l : List (α × Pdop V)) : M := (l.map fun t => φ t.1 t.2).sum

@[simp] theorem tsum_nil (φ : α → Pdop V → M) : tsum φ [] = 0 := rfl
@[simp] theorem tsum_cons (φ : α → Pdop V → M) (t : α × Pdop V) (l : List (α × Pdop V)) :
    tsum φ (t :: l) = φ t.1 t.2 + tsum φ l := rfl
@[simp] theorem tsum_append (φ : α → Pdop V → M) (l m : List (α × Pdop V)) :
    tsum φ (l ++ m) = tsum φ l + tsum φ m := by simp [tsum]

/-- The terms are well formed: `Good` coefficients, dictionaries with distinct keys. -/
def TWF (Good : α → Prop) (l : List (α × Pdop V)) : Prop := ∀ t ∈ l, Good t.1 ∧ t.2.WF

theorem TWF.nil {Good : α → Prop} : TWF (V := V) Good [] := by simp [TWF]
theorem twf_cons {Good : α → Prop} {t : α × Pdop V} {l : List (α × Pdop V)} :
    TWF Good (t :: l) ↔ (Good t.1 ∧ t.2.WF) ∧ TWF Good l := by simp [TWF]
theorem twf_append {Good : α → Prop} {l m : List (α × Pdop V)} :
    TWF Good (l ++ m) ↔ TWF Good l ∧ TWF Good m := by
  simp only [TWF, List.mem_append]
  exact ⟨fun h => ⟨fun t ht => h t (Or.inl ht), fun t ht => h t (Or.inr ht)⟩,
    fun h t ht => ht.elim (h.1 t) (h.2 t)⟩

/-- What a meaning of terms must satisfy. -/
structure Meaning (Good : α → Prop) (isZero : α → Bool) (add : α → α → α) (φ : α → Pdop V → M) :
    Prop where
  good_add : ∀ {a b}, Good a → Good b → Good (add a b)
  add : ∀ {a b}, Good a → Good b → ∀ p, φ (add a b) p = φ a p + φ b p
  zero : ∀ {a}, Good a → isZero a = true → ∀ p, φ a p = 0
  eqv : ∀ {p q : Pdop V}, p.WF → q.WF → p.eqv q = true → ∀ a, φ a p = φ a q

variable {Good : α → Prop} {isZero : α → Bool} {add : α → α → α} {φ : α → Pdop V → M}

theorem accum_spec (h : Meaning Good isZero add φ) {l : List (α × Pdop V)} (hl : TWF Good l) {c : α}
    {p : Pdop V} (hc : Good c) (hp : p.WF) :
    TWF Good (accum add l c p) ∧ tsum φ (accum add l c p) = tsum φ l + φ c p := by
  induction l with
  | nil => exact ⟨by simp [accum, twf_cons, hc, hp, TWF.nil], by simp [accum]⟩
  | cons t l ih =>
    rw [twf_cons] at hl
    rw [accum]
    split_ifs with h1
    · refine ⟨twf_cons.mpr ⟨⟨h.good_add hl.1.1 hc, hl.1.2⟩, hl.2⟩, ?_⟩
      rw [tsum_cons, tsum_cons, h.add hl.1.1 hc, h.eqv hl.1.2 hp h1 c]
      abel
    · refine ⟨twf_cons.mpr ⟨hl.1, (ih hl.2).1⟩, ?_⟩
      rw [tsum_cons, tsum_cons, (ih hl.2).2, add_assoc]

theorem foldl_accum_spec (h : Meaning Good isZero add φ) {l : List (α × Pdop V)} (hl : TWF Good l)
    {m : List (α × Pdop V)} (hm : TWF Good m) :
    TWF Good (m.foldl (fun a t => accum add a t.1 t.2) l) ∧
      tsum φ (m.foldl (fun a t => accum add a t.1 t.2) l) = tsum φ l + tsum φ m := by
  induction m generalizing l with
  | nil => exact ⟨hl, by simp⟩
  | cons t m ih =>
    rw [twf_cons] at hm
    have h1 := accum_spec h hl hm.1.1 hm.1.2
    have h2 := ih h1.1 hm.2
    refine ⟨h2.1, ?_⟩
    rw [List.foldl_cons, h2.2, h1.2, tsum_cons, add_assoc]

theorem consolidate_eq_filter (terms : List (α × Pdop V)) :
    consolidateTerms isZero add terms =
      (terms.filter fun t => !isZero t.1).foldl (fun a t => accum add a t.1 t.2) [] := by
  rw [consolidateTerms, List.foldl_filter]
  congr 1
  funext a t
  cases isZero t.1 <;> simp

theorem filter_spec (h : Meaning Good isZero add φ) {l : List (α × Pdop V)} (hl : TWF Good l) :
    TWF Good (l.filter fun t => !isZero t.1) ∧ tsum φ (l.filter fun t => !isZero t.1) = tsum φ l := by
  refine ⟨fun t ht => hl t (List.mem_of_mem_filter ht), ?_⟩
  induction l with
  | nil => rfl
  | cons t l ih =>
    rw [twf_cons] at hl
    rw [List.filter_cons]
    by_cases h1 : isZero t.1 = true
    · simp [h1, ih hl.2, h.zero hl.1.1 h1]
    · simp [h1, ih hl.2]

theorem consolidate_spec (h : Meaning Good isZero add φ) {l : List (α × Pdop V)} (hl : TWF Good l) :
    TWF Good (consolidateTerms isZero add l) ∧ tsum φ (consolidateTerms isZero add l) = tsum φ l := by
  rw [consolidate_eq_filter]
  have h1 := filter_spec h hl
  have h2 := foldl_accum_spec h TWF.nil h1.1
  exact ⟨h2.1, by rw [h2.2, h1.2]; simp⟩

theorem merge_spec (h : Meaning Good isZero add φ) {zero : α} (hz : Good zero)
    (hz' : ∀ p, φ zero p = 0) {l m : List (α × Pdop V)} (hl : TWF Good l) (hm : TWF Good m) :
    TWF Good (mergeTerms isZero add zero l m) ∧
      tsum φ (mergeTerms isZero add zero l m) = tsum φ l + tsum φ m := by
  rw [mergeTerms]
  have h0 : ∀ ps : List (Pdop V), (∀ p ∈ ps, p.WF) → TWF Good (ps.map fun p => (zero, p)) ∧
      tsum φ (ps.map fun p => (zero, p)) = 0 := by
    intro ps hps
    induction ps with
    | nil => exact ⟨TWF.nil, rfl⟩
    | cons p ps ih =>
      have := ih fun q hq => hps q (by simp [hq])
      exact ⟨twf_cons.mpr ⟨⟨hz, hps p (by simp)⟩, this.1⟩, by
        rw [List.map_cons, tsum_cons, this.2, hz', add_zero]⟩
  have h1 := h0 (l.map Prod.snd ++ (m.map Prod.snd).filter fun x =>
      !((l.map Prod.snd).any fun y => y.eqv x)) (by
    intro p hp
    rcases List.mem_append.mp hp with hp | hp
    · obtain ⟨t, ht, rfl⟩ := List.mem_map.mp hp; exact (hl t ht).2
    · obtain ⟨t, ht, rfl⟩ := List.mem_map.mp (List.mem_of_mem_filter hp); exact (hm t ht).2)
  have h2 := foldl_accum_spec h h1.1 hl
  have h3 := foldl_accum_spec h h2.1 hm
  have h4 := filter_spec h h3.1
  exact ⟨h4.1, by rw [h4.2, h3.2, h2.2, h1.2, zero_add]⟩

/-- Differentiation of terms, `δ` the derivative of meanings. -/
theorem diffOnce_spec (h : Meaning Good isZero add φ) {d : V → ℕ → α → α} {x : V}
    (hd : ∀ {a}, Good a → Good (d x 1 a)) {δ : M → M} (δ0 : δ 0 = 0)
    (δadd : ∀ S T, δ (S + T) = δ S + δ T)
    (δφ : ∀ {a}, Good a → ∀ {p : Pdop V}, p.WF → δ (φ a p) = φ (d x 1 a) p + φ a (p.diff x 1))
    {l : List (α × Pdop V)} (hl : TWF Good l) :
    TWF Good (diffTermsOnce isZero d x l) ∧ tsum φ (diffTermsOnce isZero d x l) = δ (tsum φ l) := by
  induction l with
  | nil => exact ⟨TWF.nil, by simp [diffTermsOnce, δ0]⟩
  | cons t l ih =>
    rw [twf_cons] at hl
    have h1 := ih hl.2
    have e : diffTermsOnce isZero d x (t :: l) =
        ((if isZero (d x 1 t.1) then [] else [(d x 1 t.1, t.2)]) ++ [(t.1, t.2.diff x 1)]) ++
          diffTermsOnce isZero d x l := rfl
    have g1 : TWF Good [(t.1, t.2.diff x 1)] :=
      twf_cons.mpr ⟨⟨hl.1.1, Pdop.diff_wf hl.1.2 x 1⟩, TWF.nil⟩
    have g2 : TWF Good (if isZero (d x 1 t.1) then [] else [(d x 1 t.1, t.2)]) := by
      split_ifs
      · exact TWF.nil
      · exact twf_cons.mpr ⟨⟨hd hl.1.1, hl.1.2⟩, TWF.nil⟩
    have g3 : tsum φ (if isZero (d x 1 t.1) then [] else [(d x 1 t.1, t.2)]) = φ (d x 1 t.1) t.2 := by
      split_ifs with hz
      · rw [tsum_nil, h.zero (hd hl.1.1) hz]
      · simp
    rw [e]
    refine ⟨twf_append.mpr ⟨twf_append.mpr ⟨g2, g1⟩, h1.1⟩, ?_⟩
    rw [tsum_append, tsum_append, g3, h1.2, tsum_cons φ t, δadd, δφ hl.1.1 hl.1.2]
    simp

theorem diff_spec (h : Meaning Good isZero add φ) {d : V → ℕ → α → α} {x : V}
    (hd : ∀ {a}, Good a → Good (d x 1 a)) {δ : M → M} (δ0 : δ 0 = 0)
    (δadd : ∀ S T, δ (S + T) = δ S + δ T)
    (δφ : ∀ {a}, Good a → ∀ {p : Pdop V}, p.WF → δ (φ a p) = φ (d x 1 a) p + φ a (p.diff x 1))
    (k : ℕ) {l : List (α × Pdop V)} (hl : TWF Good l) :
    TWF Good (diffTerms isZero add d x k l) ∧ tsum φ (diffTerms isZero add d x k l) = δ^[k] (tsum φ l) := by
  have key : TWF Good ((diffTermsOnce isZero d x)^[k] l) ∧
      tsum φ ((diffTermsOnce isZero d x)^[k] l) = δ^[k] (tsum φ l) := by
    induction k with
    | zero => exact ⟨hl, rfl⟩
    | succ k ih =>
      rw [Function.iterate_succ_apply', Function.iterate_succ_apply']
      have := diffOnce_spec h hd δ0 δadd δφ ih.1
      exact ⟨this.1, by rw [this.2, ih.2]⟩
  have h2 := consolidate_spec h key.1
  exact ⟨h2.1, by rw [diffTerms, h2.2, key.2]⟩

/-! ### Normal form -/

theorem snd_accum {l : List (α × Pdop V)} {c : α} {p : Pdop V} {t : α × Pdop V}
    (ht : t ∈ accum add l c p) : t.2 = p ∨ t.2 ∈ l.map Prod.snd := by
  induction l with
  | nil => simp [accum] at ht; simp [ht]
  | cons s l ih =>
    rw [accum] at ht
    split_ifs at ht with h1
    · rcases List.mem_cons.mp ht with h2 | h2
      · subst h2; simp
      · right; simp only [List.map_cons, List.mem_cons]; exact Or.inr (List.mem_map_of_mem h2)
    · rcases List.mem_cons.mp ht with h2 | h2
      · subst h2; simp
      · rcases ih h2 with h3 | h3
        · exact Or.inl h3
        · right; simp only [List.map_cons, List.mem_cons]; exact Or.inr h3

theorem accum_distinct {l : List (α × Pdop V)} (hl : Distinct l) (c : α) (p : Pdop V) :
    Distinct (accum add l c p) := by
  induction l with
  | nil => simp [accum, Distinct]
  | cons t l ih =>
    rw [Distinct, List.pairwise_cons] at hl
    rw [accum]
    split_ifs with h1
    · rw [Distinct, List.pairwise_cons]
      exact ⟨fun s hs => hl.1 s hs, hl.2⟩
    · rw [Distinct, List.pairwise_cons]
      refine ⟨fun s hs => ?_, ih hl.2⟩
      rcases snd_accum hs with h2 | h2
      · rw [h2]; simpa using h1
      · obtain ⟨s', hs', h3⟩ := List.mem_map.mp h2
        rw [← h3]; exact hl.1 s' hs'

theorem consolidate_distinct (l : List (α × Pdop V)) :
    Distinct (consolidateTerms isZero add l) := by
  rw [consolidate_eq_filter]
  have : ∀ (m l : List (α × Pdop V)), Distinct l →
      Distinct (m.foldl (fun a t => accum add a t.1 t.2) l) := by
    intro m
    induction m with
    | nil => exact fun l h => h
    | cons t m ih => exact fun l h => ih _ (accum_distinct h t.1 t.2)
  exact this _ _ List.Pairwise.nil

theorem mem_accum {l : List (α × Pdop V)} {c : α} {p : Pdop V} (hp : p.WF) {t : α × Pdop V}
    (ht : t ∈ accum add l c p) : t ∈ l ∨ t.2.eqv p = true := by
  induction l with
  | nil => simp [accum] at ht; right; rw [ht]; exact Pdop.eqv_refl hp
  | cons s l ih =>
    rw [accum] at ht
    split_ifs at ht with h1
    · rcases List.mem_cons.mp ht with h2 | h2
      · subst h2; exact Or.inr h1
      · exact Or.inl (List.mem_cons_of_mem _ h2)
    · rcases List.mem_cons.mp ht with h2 | h2
      · subst h2; simp
      · exact (ih h2).imp (List.mem_cons_of_mem _) id

/-- Later terms with a repeated derivative have coefficient zero. -/
def LaterZero (zero : α) (l : List (α × Pdop V)) : Prop :=
  l.Pairwise fun s t => s.2.eqv t.2 = true → t.1 = zero

theorem wf_accum {l : List (α × Pdop V)} (hl : ∀ t ∈ l, t.2.WF) (c : α) {p : Pdop V} (hp : p.WF) :
    ∀ t ∈ accum add l c p, t.2.WF := by
  intro t ht
  rcases snd_accum ht with h | h
  · rw [h]; exact hp
  · obtain ⟨s, hs, e⟩ := List.mem_map.mp h; rw [← e]; exact hl s hs

theorem accum_laterZero {zero : α} {l : List (α × Pdop V)} (hw : ∀ t ∈ l, t.2.WF)
    (hl : LaterZero zero l) (c : α) {p : Pdop V} (hp : p.WF) : LaterZero zero (accum add l c p) := by
  induction l with
  | nil => simp [accum, LaterZero]
  | cons t l ih =>
    have hw' : ∀ s ∈ l, s.2.WF := fun s hs => hw s (List.mem_cons_of_mem _ hs)
    rw [LaterZero, List.pairwise_cons] at hl
    rw [accum]
    split_ifs with h1
    · rw [LaterZero, List.pairwise_cons]
      exact ⟨fun s hs => hl.1 s hs, hl.2⟩
    · rw [LaterZero, List.pairwise_cons]
      refine ⟨fun s hs h2 => ?_, ih hw' hl.2⟩
      rcases mem_accum hp hs with h3 | h3
      · exact hl.1 s h3 h2
      · exact absurd (Pdop.eqv_trans (hw t (by simp)) (wf_accum hw' c hp s hs) hp h2 h3) h1

theorem merge_normal {zero : α} (hz : isZero zero = true) {l m : List (α × Pdop V)}
    (hl : ∀ t ∈ l, t.2.WF) (hm : ∀ t ∈ m, t.2.WF) :
    Distinct (mergeTerms isZero add zero l m) ∧
      ∀ t ∈ mergeTerms isZero add zero l m, isZero t.1 = false := by
  have key : ∀ (m l : List (α × Pdop V)), (∀ t ∈ m, t.2.WF) → (∀ t ∈ l, t.2.WF) → LaterZero zero l →
      (∀ t ∈ m.foldl (fun a t => accum add a t.1 t.2) l, t.2.WF) ∧
        LaterZero zero (m.foldl (fun a t => accum add a t.1 t.2) l) := by
    intro m
    induction m with
    | nil => exact fun l _ h1 h2 => ⟨h1, h2⟩
    | cons t m ih =>
      intro l h0 h1 h2
      have ht := h0 t (by simp)
      exact ih _ (fun s hs => h0 s (by simp [hs])) (wf_accum h1 t.1 ht) (accum_laterZero h1 h2 t.1 ht)
  rw [mergeTerms]
  set ps := l.map Prod.snd ++ (m.map Prod.snd).filter fun x =>
      !((l.map Prod.snd).any fun y => y.eqv x) with hps
  have h1 : ∀ t ∈ ps.map fun p => (zero, p), t.2.WF := by
    intro t ht
    obtain ⟨p, hp, rfl⟩ := List.mem_map.mp ht
    rcases List.mem_append.mp hp with hp | hp
    · obtain ⟨t', ht', e⟩ := List.mem_map.mp hp; rw [← e]; exact hl t' ht'
    · obtain ⟨t', ht', e⟩ := List.mem_map.mp (List.mem_of_mem_filter hp); rw [← e]; exact hm t' ht'
  have h2 : LaterZero zero (ps.map fun p => (zero, p)) := by
    rw [LaterZero, List.pairwise_map]
    exact List.pairwise_of_forall fun _ _ _ => rfl
  have h3 := key l _ hl h1 h2
  have h4 := key m _ hm h3.1 h3.2
  refine ⟨?_, fun t ht => by simpa using (List.mem_filter.mp ht).2⟩
  have h5 := h4.2.sublist (List.filter_sublist (p := fun t : α × Pdop V => !isZero t.1))
  refine List.Pairwise.imp_of_mem (fun {s t} _ ht h6 => ?_) h5
  have h7 : isZero t.1 = false := by simpa using (List.mem_filter.mp ht).2
  by_contra h8
  rw [h6 (by simpa using h8), hz] at h7
  exact Bool.noConfusion h7

/-- A list with distinct derivatives is only filtered by a consolidation. -/
theorem accum_new {l : List (α × Pdop V)} {c : α} {p : Pdop V} (h : ∀ t ∈ l, t.2.eqv p = false) :
    accum add l c p = l ++ [(c, p)] := by
  induction l with
  | nil => rfl
  | cons t l ih =>
    rw [accum, if_neg (by rw [h t (by simp)]; exact Bool.false_ne_true),
      ih fun s hs => h s (by simp [hs])]
    rfl

theorem consolidate_of_distinct {l : List (α × Pdop V)} (h : Distinct l) :
    consolidateTerms isZero add l = l.filter fun t => !isZero t.1 := by
  rw [consolidate_eq_filter]
  have h1 := List.Pairwise.sublist (List.filter_sublist (p := fun t : α × Pdop V => !isZero t.1)) h
  have key : ∀ m k : List (α × Pdop V), Distinct (k ++ m) →
      m.foldl (fun a t => accum add a t.1 t.2) k = k ++ m := by
    intro m
    induction m with
    | nil => intro k _; simp
    | cons t m ih =>
      intro k hk
      rw [List.foldl_cons, accum_new, ih, List.append_assoc]
      · rfl
      · rw [List.append_assoc]; exact hk
      · intro s hs
        exact (List.pairwise_append.mp hk).2.2 s hs t (by simp)
  exact key _ [] h1

end terms

end GA
