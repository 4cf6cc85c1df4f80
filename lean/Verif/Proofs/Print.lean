import Verif.Model.Print
import Verif.Proofs.Coef
import Verif.Spec.Print
import Mathlib.Data.List.Sort

/-!
# The terms that are printed
-/

set_option linter.unusedSectionVars false

namespace GA
variable {n : ℕ} {R : Type*} [CommRing R] [DecidableEq R] [Invertible (2 : R)]
  {g : Matrix (Fin n) (Fin n) R}

section dict
variable {K V : Type*} [DecidableEq K]

theorem fst_mem_dictSet {d : Dict K V} {k : K} {v : V} {x : K} :
    x ∈ (d.set k v).map Prod.fst ↔ x = k ∨ x ∈ d.map Prod.fst := by
  induction d with
  | nil => simp [Dict.set]
  | cons e d ih =>
    obtain ⟨k', v'⟩ := e
    rw [Dict.set]
    split_ifs with h
    · subst h; simp
    · simp only [List.map_cons, List.mem_cons, ih]; tauto

theorem nodup_dictSet {d : Dict K V} (h : (d.map Prod.fst).Nodup) (k : K) (v : V) :
    ((d.set k v).map Prod.fst).Nodup := by
  induction d with
  | nil => simp [Dict.set]
  | cons e d ih =>
    obtain ⟨k', v'⟩ := e
    rw [List.map_cons, List.nodup_cons] at h
    rw [Dict.set]
    split_ifs with hk
    · subst hk; simpa using h
    · rw [List.map_cons, List.nodup_cons]
      refine ⟨fun hm => ?_, ih h.2⟩
      rcases fst_mem_dictSet.mp hm with h1 | h1
      · exact hk h1
      · exact h.1 h1

theorem mem_dictSet {d : Dict K V} (h : (d.map Prod.fst).Nodup) {k : K} {v : V} {e : K × V} :
    e ∈ d.set k v ↔ e = (k, v) ∨ (e.1 ≠ k ∧ e ∈ d) := by
  induction d with
  | nil => simp [Dict.set]
  | cons e' d ih =>
    obtain ⟨k', v'⟩ := e'
    rw [List.map_cons, List.nodup_cons] at h
    rw [Dict.set]
    split_ifs with hk
    · subst hk
      simp only [List.mem_cons]
      constructor
      · rintro (rfl | hm)
        · exact Or.inl rfl
        · exact Or.inr ⟨fun he => h.1 (List.mem_map.mpr ⟨e, hm, he⟩), Or.inr hm⟩
      · rintro (rfl | ⟨h1, rfl | hm⟩)
        · exact Or.inl rfl
        · exact absurd rfl h1
        · exact Or.inr hm
    · simp only [List.mem_cons, ih h.2]
      constructor
      · rintro (rfl | rfl | ⟨h1, hm⟩)
        · exact Or.inr ⟨hk, Or.inl rfl⟩
        · exact Or.inl rfl
        · exact Or.inr ⟨h1, Or.inr hm⟩
      · rintro (rfl | ⟨h1, rfl | hm⟩)
        · exact Or.inr (Or.inl rfl)
        · exact Or.inl rfl
        · exact Or.inr (Or.inr ⟨h1, hm⟩)

theorem dictGet_some {d : Dict K V} (h : (d.map Prod.fst).Nodup) {k : K} {v : V} :
    d.get? k = some v ↔ (k, v) ∈ d := by
  induction d with
  | nil => simp [Dict.get?]
  | cons e d ih =>
    obtain ⟨k', v'⟩ := e
    rw [List.map_cons, List.nodup_cons] at h
    rw [Dict.get?]
    split_ifs with hk
    · subst hk
      simp only [Option.some.injEq, List.mem_cons, Prod.mk.injEq, true_and]
      constructor
      · rintro rfl; exact Or.inl rfl
      · rintro (rfl | hm)
        · rfl
        · exact absurd (List.mem_map_of_mem hm) h.1
    · rw [ih h.2]
      simp [Ne.symm hk]

end dict

theorem coefOf_append (E F : Expr R n) (s : Sym n) : coefOf (E ++ F) s = coefOf E s + coefOf F s := by
  induction E with
  | nil => simp [coefOf, lin]
  | cons t E ih => rw [List.cons_append, coefOf_cons, coefOf_cons, ih, add_assoc]

theorem coefOf_singleton (t : R × Sym n) (s : Sym n) :
    coefOf [t] s = if t.2 = s then t.1 else 0 := by
  rw [coefOf_cons]; simp [coefOf, lin]

/-- What the collecting loop has found after the terms `P`. -/
structure CollectInv (keys : List (Sym n)) (grades : Dict (Sym n) ℕ) (P : Expr R n)
    (acc : R × Dict ℤ (R × Sym n × ℤ)) : Prop where
  scalar : acc.1 = coefOf P (.blade [])
  nodup : (acc.2.map Prod.fst).Nodup
  terms : ∀ e, e ∈ acc.2 ↔ ∃ s ∈ P.map Prod.snd, s ≠ .blade [] ∧
    e = ((keys.idxOf s : ℤ), coefOf P s, s, (((grades.get? s).getD 0 : ℕ) : ℤ))

theorem collect_inv (keys : List (Sym n)) (grades : Dict (Sym n) ℕ) (P : Expr R n)
    (hP : ∀ t ∈ P, t.2 ∈ keys) :
    CollectInv keys grades P (P.foldl (collectStep keys grades) (0, [])) := by
  induction P using List.reverseRecOn with
  | nil => exact ⟨rfl, by simp, by simp⟩
  | append_singleton P t ih =>
    have hP' : ∀ u ∈ P, u.2 ∈ keys := fun u hu => hP u (by simp [hu])
    have inv := ih hP'
    rw [List.foldl_append, List.foldl_cons, List.foldl_nil]
    set acc := P.foldl (collectStep keys grades) (0, []) with hacc
    have hco : ∀ s, coefOf (P ++ [t]) s = coefOf P s + if t.2 = s then t.1 else 0 := fun s => by
      rw [coefOf_append, coefOf_singleton]
    by_cases h1 : t.2 = .blade []
    · rw [collectStep, if_pos h1]
      refine ⟨by rw [hco, if_pos h1, inv.scalar], inv.nodup, fun e => ?_⟩
      rw [inv.terms]
      constructor
      · rintro ⟨s, hs, hs1, rfl⟩
        exact ⟨s, by simp only [List.map_append, List.mem_append]; exact Or.inl hs, hs1, by
          rw [hco, if_neg (fun h => hs1 (h.symm.trans h1)), add_zero]⟩
      · rintro ⟨s, hs, hs1, rfl⟩
        simp only [List.map_append, List.map_cons, List.map_nil, List.mem_append,
          List.mem_singleton] at hs
        rcases hs with hs | rfl
        · exact ⟨s, hs, hs1, by rw [hco, if_neg (fun h => hs1 (h.symm.trans h1)), add_zero]⟩
        · exact absurd h1 hs1
    · have hk : t.2 ∈ keys := hP t (by simp)
      rw [collectStep, if_neg h1, if_pos hk]
      dsimp only
      have hidx : ∀ s, ((keys.idxOf t.2 : ℕ) : ℤ) = (keys.idxOf s : ℕ) ↔ s = t.2 := fun s => by
        rw [Int.natCast_inj, List.idxOf_inj hk]; exact eq_comm
      -- the shape of the new dictionary
      have key : ∀ v : R × Sym n × ℤ,
          v = (coefOf (P ++ [t]) t.2, t.2, (((grades.get? t.2).getD 0 : ℕ) : ℤ)) →
          CollectInv keys grades (P ++ [t]) (acc.1, acc.2.set (keys.idxOf t.2 : ℕ) v) := by
        rintro v rfl
        refine ⟨?_, nodup_dictSet inv.nodup _ _, fun e => ?_⟩
        · change acc.1 = _
          rw [hco, if_neg h1, add_zero, inv.scalar]
        rw [mem_dictSet inv.nodup, inv.terms]
        constructor
        · rintro (rfl | ⟨hne, s, hs, hs1, rfl⟩)
          · exact ⟨t.2, by simp, h1, rfl⟩
          · refine ⟨s, by simp only [List.map_append, List.mem_append]; exact Or.inl hs, hs1, ?_⟩
            rw [hco, if_neg, add_zero]
            rintro rfl
            exact hne rfl
        · rintro ⟨s, hs, hs1, rfl⟩
          by_cases hst : s = t.2
          · subst hst; exact Or.inl rfl
          · refine Or.inr ⟨fun h => hst ((hidx s).mp h.symm), s, ?_, hs1, ?_⟩
            · simp only [List.map_append, List.map_cons, List.map_nil, List.mem_append,
                List.mem_singleton] at hs
              exact hs.resolve_right hst
            · rw [hco, if_neg (fun h => hst h.symm), add_zero]
      cases hg : Dict.get? acc.2 ((keys.idxOf t.2 : ℕ) : ℤ) with
      | some v =>
        obtain ⟨c, base, gr⟩ := v
        have hm := (inv.terms _).mp ((dictGet_some inv.nodup).mp hg)
        obtain ⟨s, hs, hs1, he⟩ := hm
        simp only [Prod.mk.injEq] at he
        obtain ⟨e1, rfl, rfl, rfl⟩ := he
        obtain rfl := (hidx _).mp e1
        exact key _ (by rw [hco, if_pos rfl])
      | none =>
        refine key _ ?_
        have : t.2 ∉ P.map Prod.snd := fun hm => by
          have h2 := (dictGet_some inv.nodup).mpr ((inv.terms _).mpr ⟨t.2, hm, h1, rfl⟩)
          rw [hg] at h2
          cases h2
        rw [hco, if_pos rfl, coefOf_eq_zero this, zero_add]

/-- The entries of `sorted_terms`. -/
theorem sortedTerms_spec (g0 : ℤ) (keys : List (Sym n)) (grades : Dict (Sym n) ℕ) (args : Expr R n)
    (hP : ∀ t ∈ args, t.2 ∈ keys) :
    (sortedTerms g0 keys grades args).Pairwise (fun a b => a.1 < b.1) ∧
    ∀ e, e ∈ sortedTerms g0 keys grades args ↔
      (coefOf args (.blade []) ≠ 0 ∧ e = (-1, coefOf args (.blade []), .blade [], g0)) ∨
      ∃ s ∈ args.map Prod.snd, s ≠ .blade [] ∧
        e = ((keys.idxOf s : ℤ), coefOf args s, s, (((grades.get? s).getD 0 : ℕ) : ℤ)) := by
  have inv := collect_inv keys grades args hP
  set acc := args.foldl (collectStep keys grades) (0, []) with hacc
  have hdef : sortedTerms g0 keys grades args =
      (if acc.1 ≠ 0 then Dict.set acc.2 (-1) (acc.1, .blade [], g0) else acc.2).insertionSort
        fun a b => a.1 ≤ b.1 := rfl
  have hno : ∀ e ∈ acc.2, e.1 ≠ (-1 : ℤ) := by
    intro e he h
    obtain ⟨s, -, -, rfl⟩ := (inv.terms e).mp he
    simp only at h
    omega
  set D : Dict ℤ (R × Sym n × ℤ) :=
    (if acc.1 ≠ 0 then Dict.set acc.2 (-1) (acc.1, .blade [], g0) else acc.2) with hD
  have hnd : (D.map Prod.fst).Nodup := by
    rw [hD]; split_ifs
    · exact nodup_dictSet inv.nodup _ _
    · exact inv.nodup
  have hmem : ∀ e, e ∈ D ↔ (acc.1 ≠ 0 ∧ e = (-1, acc.1, .blade [], g0)) ∨ e ∈ acc.2 := by
    intro e
    rw [hD]
    by_cases h0 : acc.1 = 0
    · simp [h0]
    · rw [if_pos h0, mem_dictSet inv.nodup]
      constructor
      · rintro (rfl | ⟨-, h⟩)
        · exact Or.inl ⟨h0, rfl⟩
        · exact Or.inr h
      · rintro (⟨-, rfl⟩ | h)
        · exact Or.inl rfl
        · exact Or.inr ⟨hno e h, h⟩
  have hperm := List.perm_insertionSort (fun a b : ℤ × (R × Sym n × ℤ) => a.1 ≤ b.1) D
  rw [hdef]
  constructor
  · have hsorted : (D.insertionSort fun a b => a.1 ≤ b.1).Pairwise (fun a b => a.1 ≤ b.1) := by
      have : Std.Total (fun a b : ℤ × (R × Sym n × ℤ) => a.1 ≤ b.1) := ⟨fun a b => le_total a.1 b.1⟩
      have : IsTrans _ (fun a b : ℤ × (R × Sym n × ℤ) => a.1 ≤ b.1) :=
        ⟨fun a b c => le_trans⟩
      exact List.pairwise_insertionSort _ _
    have hne : (D.insertionSort fun a b => a.1 ≤ b.1).Pairwise (fun a b => a.1 ≠ b.1) := by
      have := (hperm.map Prod.fst).nodup_iff.mpr hnd
      rwa [List.Nodup, List.pairwise_map] at this
    exact (hsorted.and hne).imp fun h => lt_of_le_of_ne h.1 h.2
  · intro e
    rw [hperm.mem_iff, hmem, inv.terms, inv.scalar]

/-- The terms that are printed, with their order. -/
def printed (L : List (ℤ × (R × Sym n × ℤ))) : Expr R n := L.map fun e => (e.2.1, e.2.2.1)

theorem printed_perm {g0 : ℤ} {keys : List (Sym n)} {grades : Dict (Sym n) ℕ} {args E : Expr R n}
    (hP : ∀ t ∈ args, t.2 ∈ keys) (hexp : expand args = E) (hn : (E.map Prod.snd).Nodup)
    (h0 : ∀ t ∈ E, t.1 ≠ 0) (hsub : ∀ t ∈ args, t.2 ∈ E.map Prod.snd) :
    (printed (sortedTerms g0 keys grades args)).Perm E := by
  obtain ⟨hlt, hmem⟩ := sortedTerms_spec g0 keys grades args hP
  have hco : ∀ s, coefOf args s = coefOf E s := fun s => by
    rw [← hexp]; exact (lin_expand _ _).symm
  have hE : ∀ t, t ∈ E ↔ t.2 ∈ E.map Prod.snd ∧ t.1 = coefOf E t.2 := by
    intro t
    constructor
    · intro h; exact ⟨List.mem_map_of_mem h, (coefOf_of_mem hn h).symm⟩
    · rintro ⟨h1, h2⟩
      obtain ⟨u, hu, he⟩ := List.mem_map.mp h1
      have : u = t := Prod.ext (by rw [h2, ← he, coefOf_of_mem hn hu]) he
      exact this ▸ hu
  have hback : ∀ s ∈ E.map Prod.snd, coefOf args s ≠ 0 ∧ s ∈ args.map Prod.snd := by
    intro s hs
    obtain ⟨u, hu, rfl⟩ := List.mem_map.mp hs
    have h1 : coefOf args u.2 ≠ 0 := by rw [hco, coefOf_of_mem hn hu]; exact h0 u hu
    exact ⟨h1, by by_contra hc; exact h1 (coefOf_eq_zero hc)⟩
  have hT : ∀ t, t ∈ printed (sortedTerms g0 keys grades args) ↔ t ∈ E := by
    intro t
    rw [hE, printed, List.mem_map]
    constructor
    · rintro ⟨e, he, rfl⟩
      rcases (hmem e).mp he with ⟨h1, rfl⟩ | ⟨s, hs, -, rfl⟩
      · refine ⟨?_, hco _⟩
        by_contra hc
        exact h1 (by rw [hco]; exact coefOf_eq_zero hc)
      · obtain ⟨u, hu, rfl⟩ := List.mem_map.mp hs
        exact ⟨hsub u hu, hco _⟩
    · rintro ⟨h1, h2⟩
      obtain ⟨h3, h4⟩ := hback _ h1
      by_cases hs : t.2 = .blade []
      · exact ⟨_, (hmem _).mpr (Or.inl ⟨hs ▸ h3, rfl⟩), Prod.ext (by rw [h2, hs, hco]) hs.symm⟩
      · exact ⟨_, (hmem _).mpr (Or.inr ⟨t.2, h4, hs, rfl⟩), Prod.ext (by rw [h2, hco]) rfl⟩
  have hnd : (printed (sortedTerms g0 keys grades args)).Nodup := by
    rw [printed, List.nodup_iff_pairwise_ne, List.pairwise_map]
    refine hlt.imp_of_mem fun {a b} ha hb hab he => ?_
    have hsym : a.2.2.1 = b.2.2.1 := (Prod.mk.inj he).2
    rcases (hmem a).mp ha with ⟨-, rfl⟩ | ⟨s, -, hs1, rfl⟩ <;>
      rcases (hmem b).mp hb with ⟨-, rfl⟩ | ⟨u, -, hu1, rfl⟩
    · simp at hab
    · exact hu1 hsym.symm
    · exact hs1 hsym
    · simp only at hsym hab
      subst hsym
      omega
  exact (List.perm_ext_iff_of_nodup hnd hn.of_map).mpr hT

/-- The printed terms are in the order of the keys, if the first key is the scalar one. -/
theorem printed_order {g0 : ℤ} {keys : List (Sym n)} {grades : Dict (Sym n) ℕ} {args : Expr R n}
    (hP : ∀ t ∈ args, t.2 ∈ keys) (h1 : keys.head? = some (.blade [])) :
    (printed (sortedTerms g0 keys grades args)).Pairwise fun t u =>
      keys.idxOf t.2 < keys.idxOf u.2 := by
  obtain ⟨hlt, hmem⟩ := sortedTerms_spec g0 keys grades args hP
  obtain ⟨ks, rfl⟩ : ∃ ks, keys = .blade [] :: ks := by
    cases keys with
    | nil => simp at h1
    | cons k ks => simp at h1; exact ⟨ks, by rw [h1]⟩
  have hpos : ∀ s : Sym n, s ≠ .blade [] → 0 < (Sym.blade [] :: ks).idxOf s := by
    intro s hs
    rw [List.idxOf_cons_ne _ (Ne.symm hs)]
    exact Nat.succ_pos _
  rw [printed, List.pairwise_map]
  refine hlt.imp_of_mem fun {a b} ha hb hab => ?_
  rcases (hmem a).mp ha with ⟨-, rfl⟩ | ⟨s, -, hs1, rfl⟩ <;>
    rcases (hmem b).mp hb with ⟨-, rfl⟩ | ⟨u, -, hu1, rfl⟩
  · simp at hab
  · simpa using hpos u hu1
  · simp only at hab; omega
  · simpa using hab


/-! ### the order of the index lists -/

theorem combinations_lex (k : ℕ) {xs : List (Fin n)} (h : xs.Pairwise (· < ·)) :
    (combinations k xs).Pairwise (· < ·) := by
  induction xs generalizing k with
  | nil => cases k <;> simp [combinations]
  | cons x xs ih =>
    rw [List.pairwise_cons] at h
    cases k with
    | zero => simp [combinations]
    | succ k =>
      rw [combinations, List.pairwise_append]
      refine ⟨?_, ih _ h.2, ?_⟩
      · rw [List.pairwise_map]
        exact (ih k h.2).imp fun hlt => List.cons_lt_cons_self.mpr hlt
      · intro a ha b hb
        obtain ⟨a', -, rfl⟩ := List.mem_map.mp ha
        obtain ⟨hsub, hlen⟩ := mem_combinations.mp hb
        cases b with
        | nil => simp at hlen
        | cons y b =>
          exact List.Lex.rel (h.1 y (hsub.subset List.mem_cons_self))

theorem indexes_before : (flat (indexes n)).Pairwise Before := by
  rw [flat, List.pairwise_flatten, indexes]
  constructor
  · intro l hl
    obtain ⟨k, -, rfl⟩ := List.mem_map.mp hl
    have hf : (List.finRange n).Pairwise (· < ·) := List.pairwise_lt_finRange n
    refine (combinations_lex k hf).imp_of_mem fun ha hb hab => Or.inr ⟨?_, hab⟩
    rw [(mem_combinations.mp ha).2, (mem_combinations.mp hb).2]
  · rw [List.pairwise_map]
    refine (List.pairwise_lt_range (n := n + 1)).imp fun hij a ha b hb => Or.inl ?_
    rw [(mem_combinations.mp ha).2, (mem_combinations.mp hb).2]
    exact hij

theorem before_of_idxOf {l m : List (Fin n)} (hl : l ∈ flat (indexes n)) (hm : m ∈ flat (indexes n))
    (h : (flat (indexes n)).idxOf l < (flat (indexes n)).idxOf m) : Before l m := by
  have := List.pairwise_iff_getElem.mp (indexes_before (n := n)) _ _ (List.idxOf_lt_length_of_mem hl)
    (List.idxOf_lt_length_of_mem hm) h
  rwa [List.getElem_idxOf, List.getElem_idxOf] at this

theorem idxOf_map_inj {α β : Type*} [BEq α] [LawfulBEq α] [BEq β] [LawfulBEq β] {f : α → β}
    (hf : Function.Injective f) (L : List α) (a : α) : (L.map f).idxOf (f a) = L.idxOf a := by
  induction L with
  | nil => rfl
  | cons x L ih =>
    rw [List.map_cons]
    by_cases h : x = a
    · subst h; simp
    · rw [List.idxOf_cons_ne _ h, List.idxOf_cons_ne _ (fun e => h (hf e)), ih]

/-! ### the text -/

theorem noSpace_append (s t : List Char) : noSpace (s ++ t) = noSpace s ++ noSpace t :=
  List.filter_append _ _

theorem printStep_none_iff (fmt : ℕ) (shows : R → Sym n → List Char) (acc : List Char × ℤ)
    (e : ℤ × (R × Sym n × ℤ)) {x : Char} {rest : List Char}
    (h : shows e.2.1 e.2.2.1 = x :: rest) :
    printStep fmt shows acc e =
      some (acc.1 ++ (if fmt = 2 ∧ acc.2 ≠ e.2.2.2 then ['\n'] else []) ++
        (if x = '-' then [' ', '-', ' '] ++ rest else [' ', '+', ' '] ++ x :: rest) ++
        (if fmt = 3 then ['\n'] else []),
        if fmt = 2 ∧ acc.2 ≠ e.2.2.2 then e.2.2.2 else acc.2) := by
  obtain ⟨s, old⟩ := acc
  obtain ⟨k, c, base, gr⟩ := e
  simp only at h
  simp only [printStep, h]
  by_cases h2 : fmt = 2 ∧ old ≠ gr <;> by_cases h3 : fmt = 3 <;> simp [h2, h3]

/-- What the printing loop has written so far. -/
structure PrintInv (fmt : ℕ) (shows : R → Sym n → List Char) (acc : List Char × ℤ) (T : Expr R n)
    (c : R) (b : Sym n) : Prop where
  text : ∃ s, acc.1 = s ++ (if fmt = 3 then ['\n'] else []) ∧ (∃ p q, s = p ++ q ∧ q ≠ [] ∧ '\n' ∉ q) ∧
    ReadsAs fmt shows (noSpace s) (T ++ [(c, b)])
  old : fmt = 2 → (acc.2 = -1 ∧ b = .blade []) ∨ acc.2 = ((symIndex b).length : ℤ)

theorem printLoop_spec (fmt : ℕ) {shows : R → Sym n → List Char} (hne : ∀ c b, shows c b ≠ [])
    (hnl : ∀ c b, '\n' ∉ shows c b)
    (hneg : ∀ c b s, b ≠ .blade [] → shows c b = '-' :: s → s = shows (-c) b)
    (es : List (ℤ × (R × Sym n × ℤ)))
    (hes : ∀ e ∈ es, e.2.2.1 ≠ .blade [] ∧ 0 < (symIndex e.2.2.1).length ∧
      e.2.2.2 = ((symIndex e.2.2.1).length : ℤ))
    {acc : List Char × ℤ} {T : Expr R n} {c : R} {b : Sym n} (inv : PrintInv fmt shows acc T c b) :
    ∃ r T' c' b', es.foldlM (printStep fmt shows) acc = some r ∧ PrintInv fmt shows r T' c' b' ∧
      T' ++ [(c', b')] = (T ++ [(c, b)]) ++ printed es := by
  induction es generalizing acc T c b with
  | nil => exact ⟨acc, T, c, b, rfl, inv, by simp [printed]⟩
  | cons e es ih =>
    obtain ⟨h1, hpos, hgr⟩ := hes e List.mem_cons_self
    obtain ⟨x, rest, hx⟩ : ∃ x rest, shows e.2.1 e.2.2.1 = x :: rest := by
      cases h : shows e.2.1 e.2.2.1 with
      | nil => exact absurd h (hne _ _)
      | cons x rest => exact ⟨x, rest, rfl⟩
    rw [List.foldlM_cons, printStep_none_iff fmt shows acc e hx]
    have hnew : PrintInv fmt shows
        (acc.1 ++ (if fmt = 2 ∧ acc.2 ≠ e.2.2.2 then ['\n'] else []) ++
          (if x = '-' then [' ', '-', ' '] ++ rest else [' ', '+', ' '] ++ x :: rest) ++
          (if fmt = 3 then ['\n'] else []),
          if fmt = 2 ∧ acc.2 ≠ e.2.2.2 then e.2.2.2 else acc.2) (T ++ [(c, b)]) e.2.1 e.2.2.1 := by
      obtain ⟨s, hs, -, hr⟩ := inv.text
      have hbr : (if fmt = 3 then ['\n'] else []) ++ (if fmt = 2 ∧ acc.2 ≠ e.2.2.2 then ['\n'] else [])
          = breaks fmt b e.2.2.1 := by
        rw [breaks]
        by_cases h3 : fmt = 3
        · simp [h3]
        · by_cases h2 : fmt = 2
          · have hiff : acc.2 ≠ e.2.2.2 ↔ (symIndex b).length ≠ (symIndex e.2.2.1).length := by
              rcases inv.old h2 with ⟨ha, hb⟩ | ha
              · have hb0 : (symIndex b).length = 0 := by rw [hb]; rfl
                rw [ha, hgr, hb0]; omega
              · rw [ha, hgr]; simp
            simp only [h2, hiff]
            simp
          · simp [h2, h3]
      refine ⟨⟨s ++ breaks fmt b e.2.2.1 ++
          (if x = '-' then [' ', '-', ' '] ++ rest else [' ', '+', ' '] ++ x :: rest), ?_, ?_, ?_⟩, ?_⟩
      · rw [← hbr]
        simp only [hs, List.append_assoc]
      · refine ⟨s ++ breaks fmt b e.2.2.1, _, rfl, by split_ifs <;> simp, ?_⟩
        have := hnl e.2.1 e.2.2.1
        rw [hx] at this
        simp only [List.mem_cons, not_or] at this
        split_ifs <;> simp [this.2, this.1]
      · have hb' : noSpace (breaks fmt b e.2.2.1) = breaks fmt b e.2.2.1 := by
          rw [breaks]; split_ifs <;> rfl
        rw [noSpace_append, noSpace_append, hb', List.append_assoc T]
        by_cases hm : x = '-'
        · subst hm
          rw [if_pos rfl]
          have hrest := hneg _ _ _ h1 hx
          have h2 := ReadsAs.minus (fmt := fmt) (shows := shows) (-e.2.1) e.2.2.1 hr
          rw [neg_neg] at h2
          rw [hrest]
          exact h2
        · rw [if_neg hm, ← hx]
          exact ReadsAs.plus e.2.1 e.2.2.1 hr
      · intro h2
        right
        simp only [h2, true_and]
        split_ifs with h
        · exact hgr
        · push Not at h; rw [h, hgr]
    obtain ⟨r, T', c', b', hf, hinv, hT⟩ := ih (fun e he => hes e (List.mem_cons_of_mem _ he)) hnew
    refine ⟨r, T', c', b', hf, hinv, ?_⟩
    rw [hT]
    simp [printed]

theorem printTerms_spec (fmt : ℕ) {shows : R → Sym n → List Char} (hne : ∀ c b, shows c b ≠ [])
    (hnl : ∀ c b, '\n' ∉ shows c b)
    (hneg : ∀ c b s, b ≠ .blade [] → shows c b = '-' :: s → s = shows (-c) b)
    (e : ℤ × (R × Sym n × ℤ)) (es : List (ℤ × (R × Sym n × ℤ)))
    (he : (e.2.2.2 = -1 ∧ e.2.2.1 = .blade []) ∨ e.2.2.2 = ((symIndex e.2.2.1).length : ℤ))
    (hes : ∀ e ∈ es, e.2.2.1 ≠ .blade [] ∧ 0 < (symIndex e.2.2.1).length ∧
      e.2.2.2 = ((symIndex e.2.2.1).length : ℤ)) :
    ∃ s, printTerms fmt shows (e :: es) = some s ∧
      ReadsAs fmt shows (noSpace s) (printed (e :: es)) := by
  set s0 : List Char := if fmt = 2 ∨ fmt = 3 then ' ' :: shows e.2.1 e.2.2.1 else shows e.2.1 e.2.2.1
    with hs0
  have hns : noSpace s0 = noSpace (shows e.2.1 e.2.2.1) := by
    rw [hs0]; split_ifs <;> simp [noSpace]
  have hinit : (let s := shows e.2.1 e.2.2.1
      let s := if fmt = 3 then ' ' :: s ++ ['\n'] else s
      if fmt = 2 then ' ' :: s else s) = s0 ++ (if fmt = 3 then ['\n'] else []) := by
    rw [hs0]
    by_cases h2 : fmt = 2
    · simp [h2]
    · by_cases h3 : fmt = 3 <;> simp [h2, h3]
  have inv : PrintInv fmt shows (s0 ++ (if fmt = 3 then ['\n'] else []), e.2.2.2) [] e.2.1 e.2.2.1 := by
    refine ⟨⟨s0, rfl, ⟨[], s0, rfl, ?_, ?_⟩, ?_⟩, fun _ => he⟩
    · rw [hs0]; split_ifs
      · simp
      · exact hne _ _
    · rw [hs0]; split_ifs <;> simp [hnl]
    · rw [hns]; exact ReadsAs.one _ _
  obtain ⟨r, T', c', b', hf, hinv, hT⟩ := printLoop_spec fmt hne hnl hneg es hes inv
  obtain ⟨s, hs, ⟨p, q, hpq, hq, hqn⟩, hr⟩ := hinv.text
  refine ⟨s, ?_, ?_⟩
  · have : printTerms fmt shows (e :: es) =
        (es.foldlM (printStep fmt shows) (s0 ++ (if fmt = 3 then ['\n'] else []), e.2.2.2)).bind fun r =>
          match r.1.getLast? with
          | none => none
          | some '\n' => some r.1.dropLast
          | some _ => some r.1 := by
      rw [← hinit]; rfl
    rw [this, hf, Option.bind_some, hs]
    by_cases h3 : fmt = 3
    · rw [if_pos h3]; simp
    · rw [if_neg h3, List.append_nil]
      have hlast : s.getLast? = some (q.getLast hq) := by
        rw [hpq, List.getLast?_append, List.getLast?_eq_some_getLast hq]; rfl
      rw [hlast]
      have hc : q.getLast hq ≠ '\n' := fun h => hqn (h ▸ List.getLast_mem hq)
      split
      · rename_i h; cases h
      · rename_i h; exact absurd (Option.some.inj h) hc
      · rfl
  · rw [hT] at hr
    simpa [printed] using hr

/-- The entries of `sorted_terms` for a multivector, with the keys and grades of the blades or of the
bases. -/
theorem sortedTerms_facts (g0 : ℤ)
    {mk : List (Fin n) → Sym n} (hmk : Function.Injective mk) (hmk0 : mk [] = .blade [])
    (hidx : ∀ l, symIndex (mk l) = l) {grades : Dict (Sym n) ℕ}
    (hgr : ∀ l : List (Fin n), l.Pairwise (· < ·) → grades.get? (mk l) = some l.length)
    {args E : Expr R n} (hP : ∀ t ∈ args, ∃ l : List (Fin n), l.Pairwise (· < ·) ∧ t.2 = mk l)
    (hexp : expand args = E) (hn : (E.map Prod.snd).Nodup)
    (h0 : ∀ t ∈ E, t.1 ≠ 0) (hsub : ∀ t ∈ args, t.2 ∈ E.map Prod.snd) (hE : E ≠ []) :
    ∃ e es, sortedTerms g0 ((flat (indexes n)).map mk) grades args = e :: es ∧
      (printed (e :: es)).Perm E ∧
      ((printed (e :: es)).Pairwise fun t u => Before (symIndex t.2) (symIndex u.2)) ∧
      ((e.2.2.2 = g0 ∧ e.2.2.1 = .blade []) ∨
        (e.2.2.1 ≠ .blade [] ∧ 0 < (symIndex e.2.2.1).length ∧
          e.2.2.2 = ((symIndex e.2.2.1).length : ℤ))) ∧
      ∀ e ∈ es, e.2.2.1 ≠ .blade [] ∧ 0 < (symIndex e.2.2.1).length ∧
        e.2.2.2 = ((symIndex e.2.2.1).length : ℤ) := by
  set keys := (flat (indexes n)).map mk with hkeys
  have hP' : ∀ t ∈ args, t.2 ∈ keys := fun t ht => by
    obtain ⟨l, hl, he⟩ := hP t ht
    rw [he]; exact List.mem_map_of_mem (mem_flat_indexes.mpr hl)
  have hperm := printed_perm (g0 := g0) (grades := grades) hP' hexp hn h0 hsub
  have hhead : keys.head? = some (.blade []) := by
    rw [hkeys, flat, indexes, List.range_succ_eq_map]
    simp [combinations, hmk0]
  have hord := printed_order (g0 := g0) (grades := grades) hP' hhead
  obtain ⟨hlt, hmem⟩ := sortedTerms_spec g0 keys grades args hP'
  have hsorted : ∀ t ∈ printed (sortedTerms g0 keys grades args),
      ∃ l : List (Fin n), l.Pairwise (· < ·) ∧ t.2 = mk l := by
    intro t ht
    have h1 : t ∈ E := hperm.mem_iff.mp ht
    rw [← hexp] at h1
    have h2 : t.2 ∈ args.map Prod.snd := by
      by_contra hc
      have h3 := coefOf_eq_zero hc
      have h4 : coefOf E t.2 = t.1 := coefOf_of_mem hn (hexp ▸ h1)
      rw [← hexp] at h4
      have h5 : coefOf (expand args) t.2 = coefOf args t.2 := lin_expand _ _
      exact h0 t (hexp ▸ h1) (by rw [← h4, h5, h3])
    obtain ⟨u, hu, he⟩ := List.mem_map.mp h2
    rw [← he]; exact hP u hu
  cases hL : sortedTerms g0 keys grades args with
  | nil =>
    rw [hL] at hperm
    exact absurd hperm.nil_eq.symm hE
  | cons e es =>
    have hentry : ∀ x ∈ sortedTerms g0 keys grades args, (0 : ℤ) ≤ x.1 →
        x.2.2.1 ≠ .blade [] ∧ 0 < (symIndex x.2.2.1).length ∧
          x.2.2.2 = ((symIndex x.2.2.1).length : ℤ) := by
      intro x hx h0x
      rcases (hmem x).mp hx with ⟨-, rfl⟩ | ⟨s, hs, hs1, rfl⟩
      · simp at h0x
      · obtain ⟨u, hu, rfl⟩ := List.mem_map.mp hs
        obtain ⟨l, hl, he⟩ := hP u hu
        refine ⟨hs1, ?_, ?_⟩
        · simp only [he, hidx]
          rcases List.eq_nil_or_concat l with rfl | ⟨_, _, rfl⟩
          · exact absurd (he.trans hmk0) hs1
          · simp
        · simp only [he, hidx, hgr l hl, Option.getD_some]
    rw [hL, List.pairwise_cons] at hlt
    have hge : (-1 : ℤ) ≤ e.1 := by
      rcases (hmem e).mp (by rw [hL]; exact List.mem_cons_self) with ⟨-, rfl⟩ | ⟨s, -, -, rfl⟩
      · exact le_refl _
      · simp only; omega
    have he : (e.2.2.2 = g0 ∧ e.2.2.1 = .blade []) ∨
        (e.2.2.1 ≠ .blade [] ∧ 0 < (symIndex e.2.2.1).length ∧
          e.2.2.2 = ((symIndex e.2.2.1).length : ℤ)) := by
      rcases (hmem e).mp (by rw [hL]; exact List.mem_cons_self) with ⟨-, rfl⟩ | ⟨s, -, -, he⟩
      · exact Or.inl ⟨rfl, rfl⟩
      · exact Or.inr (hentry e (by rw [hL]; exact List.mem_cons_self) (by rw [he]; simp))
    refine ⟨e, es, rfl, by rw [← hL]; exact hperm, ?_, he, fun x hx =>
      hentry x (by rw [hL]; exact List.mem_cons_of_mem _ hx) (by have := hlt.1 x hx; omega)⟩
    rw [← hL]
    refine hord.imp_of_mem fun {t u} ht hu h => ?_
    obtain ⟨l, hl, e1⟩ := hsorted t ht
    obtain ⟨m, hm, e2⟩ := hsorted u hu
    rw [e1, e2, hkeys, idxOf_map_inj hmk, idxOf_map_inj hmk] at h
    rw [e1, e2, hidx, hidx]
    exact before_of_idxOf (mem_flat_indexes.mpr hl) (mem_flat_indexes.mpr hm) h

/-- The text for the terms of a multivector, with the keys and grades of the blades or of the bases. -/
theorem printTerms_sorted (fmt : ℕ) {shows : R → Sym n → List Char} (hne : ∀ c b, shows c b ≠ [])
    (hnl : ∀ c b, '\n' ∉ shows c b)
    (hneg : ∀ c b s, b ≠ .blade [] → shows c b = '-' :: s → s = shows (-c) b)
    {mk : List (Fin n) → Sym n} (hmk : Function.Injective mk) (hmk0 : mk [] = .blade [])
    (hidx : ∀ l, symIndex (mk l) = l) {grades : Dict (Sym n) ℕ}
    (hgr : ∀ l : List (Fin n), l.Pairwise (· < ·) → grades.get? (mk l) = some l.length)
    {args E : Expr R n} (hP : ∀ t ∈ args, ∃ l : List (Fin n), l.Pairwise (· < ·) ∧ t.2 = mk l)
    (hexp : expand args = E) (hn : (E.map Prod.snd).Nodup)
    (h0 : ∀ t ∈ E, t.1 ≠ 0) (hsub : ∀ t ∈ args, t.2 ∈ E.map Prod.snd) (hE : E ≠ []) :
    ∃ s T, printTerms fmt shows (sortedTerms (-1) ((flat (indexes n)).map mk) grades args) = some s ∧
      T.Perm E ∧ (T.Pairwise fun t u => Before (symIndex t.2) (symIndex u.2)) ∧
      ReadsAs fmt shows (noSpace s) T := by
  obtain ⟨e, es, hL, hperm, hord, he, hes⟩ := sortedTerms_facts (-1) hmk hmk0 hidx hgr hP hexp hn h0 hsub hE
  obtain ⟨s, hs, hr⟩ := printTerms_spec fmt hne hnl hneg e es (he.imp_right fun h => h.2.2) hes
  exact ⟨s, printed (e :: es), hL ▸ hs, hperm, hord, hr⟩

end GA
