import Verif.Model.Table
import Verif.Model.Ga
import Verif.Proofs.Dict

/-!
# C32: product tables can be cached

`f` computes a product afresh.  A table starts out empty (ga.py:225); `lookups f d ks` are the results of
the lookups `ks`, one after the other.
-/

set_option linter.unusedSectionVars false

namespace GA
variable {K V : Type*} [DecidableEq K] {f : K → Option V}

/-- What is stored agrees with `f`, and every key stored or not was computed at most once when the
computation returned. -/
structure LazyDict.Ok (f : K → Option V) (d : LazyDict K V) : Prop where
  agrees : ∀ k v, d.entries.get? k = some v → f k = some v
  stored : ∀ k ∈ d.calls, f k ≠ none → d.entries.get? k ≠ none
  once : ∀ k, f k ≠ none → d.calls.count k ≤ 1

theorem LazyDict.Ok.empty : (LazyDict.empty : LazyDict K V).Ok f :=
  ⟨fun k v h => by simp [LazyDict.empty, Dict.get?] at h, fun k h => by simp [LazyDict.empty] at h,
    fun k _ => by simp [LazyDict.empty]⟩

theorem LazyDict.Ok.lookup {d : LazyDict K V} (h : d.Ok f) (k : K) :
    (d.lookup f k).1.Ok f ∧ (d.lookup f k).2 = f k := by
  rw [LazyDict.lookup]
  cases hk : d.entries.get? k with
  | some v => exact ⟨h, (h.agrees k v hk).symm⟩
  | none =>
    dsimp only
    have hnot : f k ≠ none → k ∉ d.calls := fun hf hm => h.stored k hm hf hk
    have hcount : ∀ k', f k' ≠ none → (d.calls ++ [k]).count k' ≤ 1 := by
      intro k' hf'
      rw [List.count_append]
      by_cases e : k' = k
      · subst e
        rw [List.count_eq_zero_of_not_mem (hnot hf')]
        simp
      · have := h.once k' hf'
        rw [List.count_singleton, if_neg (by simpa using Ne.symm e)]
        omega
    cases hf : f k with
    | none =>
      refine ⟨⟨h.agrees, fun k' hm hf' => ?_, hcount⟩, rfl⟩
      rcases List.mem_append.mp hm with hm | hm
      · exact h.stored k' hm hf'
      · rw [List.mem_singleton.mp hm, hf] at hf'; exact absurd rfl hf'
    | some v =>
      refine ⟨⟨fun k' v' hv => ?_, fun k' hm hf' => ?_, hcount⟩, rfl⟩
      · dsimp only at hv
        rw [Dict.get?_set] at hv
        split_ifs at hv with e
        · rw [← e, hf]; exact hv
        · exact h.agrees k' v' hv
      · dsimp only
        rw [Dict.get?_set]
        split_ifs with e
        · simp
        · rcases List.mem_append.mp hm with hm | hm
          · exact h.stored k' hm hf'
          · exact absurd (List.mem_singleton.mp hm).symm e

theorem LazyDict.Ok.lookups {d : LazyDict K V} (h : d.Ok f) (ks : List K) :
    (d.lookups f ks).1.Ok f ∧ (d.lookups f ks).2 = ks.map f := by
  induction ks generalizing d with
  | nil => exact ⟨h, rfl⟩
  | cons k ks ih =>
    obtain ⟨h1, h2⟩ := h.lookup k
    obtain ⟨h3, h4⟩ := ih h1
    exact ⟨h3, by rw [LazyDict.lookups, h2, h4, List.map_cons]⟩

/-- C32: whatever lookups are made, in any order and any number of times, every lookup gives what a
fresh computation gives. -/
theorem C32_lookups (f : K → Option V) (ks : List K) :
    ((LazyDict.empty : LazyDict K V).lookups f ks).2 = ks.map f :=
  (LazyDict.Ok.empty.lookups ks).2

/-- C32: each key (whose computation returns) is computed at most once, and only keys that were asked
for are computed. -/
theorem C32_once (f : K → Option V) (ks : List K) (k : K) (hk : f k ≠ none) :
    ((LazyDict.empty : LazyDict K V).lookups f ks).1.calls.count k = if k ∈ ks then 1 else 0 := by
  have hok := (LazyDict.Ok.empty (f := f) (V := V)).lookups ks
  have hsub : ∀ (ks : List K) (d : LazyDict K V), ∀ x ∈ (d.lookups f ks).1.calls, x ∈ d.calls ∨ x ∈ ks := by
    intro ks
    induction ks with
    | nil => intro d x hx; exact Or.inl hx
    | cons a ks ih =>
      intro d x hx
      rcases ih _ x hx with h | h
      · rw [LazyDict.lookup] at h
        split at h
        · exact Or.inl h
        · split at h
          all_goals
            rcases List.mem_append.mp h with h | h
            · exact Or.inl h
            · exact Or.inr (by rw [List.mem_singleton.mp h]; exact List.mem_cons_self)
      · exact Or.inr (List.mem_cons_of_mem _ h)
  have hkeep : ∀ (ks : List K) (d : LazyDict K V), ∀ x ∈ d.calls, x ∈ (d.lookups f ks).1.calls := by
    intro ks
    induction ks with
    | nil => intro d x hx; exact hx
    | cons a ks ih =>
      intro d x hx
      apply ih
      rw [LazyDict.lookup]
      split
      · exact hx
      · split <;> exact List.mem_append_left _ hx
  have hin : ∀ (ks : List K) (d : LazyDict K V), (∀ x, d.entries.get? x ≠ none → x ∈ d.calls) →
      ∀ x ∈ ks, x ∈ (d.lookups f ks).1.calls := by
    intro ks
    induction ks with
    | nil => intro d _ x hx; simp at hx
    | cons a ks ih =>
      intro d hd x hx
      have h1 : a ∈ (d.lookup f a).1.calls := by
        rw [LazyDict.lookup]
        split
        · rename_i v hv; exact hd a (by rw [hv]; simp)
        · split <;> simp
      have h2 : ∀ x, (d.lookup f a).1.entries.get? x ≠ none → x ∈ (d.lookup f a).1.calls := by
        intro x
        rw [LazyDict.lookup]
        split
        · exact hd x
        · split
          · dsimp only
            rw [Dict.get?_set]
            split_ifs with e
            · intro _; rw [← e]; simp
            · intro h; exact List.mem_append_left _ (hd x h)
          · intro h; exact List.mem_append_left _ (hd x h)
      rcases List.mem_cons.mp hx with rfl | hx
      · exact hkeep ks _ _ h1
      · exact ih _ h2 x hx
  split_ifs with h
  · have h1 := hin ks LazyDict.empty (fun x h => by simp [LazyDict.empty, Dict.get?] at h) k h
    have h2 := List.count_pos_iff.mpr h1
    have := hok.1.once k hk
    omega
  · refine List.count_eq_zero_of_not_mem fun hm => ?_
    rcases hsub ks _ k hm with h' | h'
    · simp [LazyDict.empty] at h'
    · exact h h'

variable {n : ℕ} {R : Type*} [CommRing R] [DecidableEq R]

theorem foldl_lazy {f : Sym n × Sym n → Option (Expr R n)} {tbl : Sym n → Sym n → Expr R n}
    (hf : ∀ s t, f (s, t) = some (tbl s t)) (l : List ((R × Sym n) × (R × Sym n)))
    {d : LazyDict (Sym n × Sym n) (Expr R n)} (hd : d.Ok f) (acc : Expr R n) :
    let r := l.foldl (fun (st : LazyDict (Sym n × Sym n) (Expr R n) × Option (Expr R n)) p =>
      match st.2 with
      | none => st
      | some expr =>
        let r := st.1.lookup f (p.1.2, p.2.2)
        (r.1, r.2.map fun v => addE expr (smulE (p.1.1 * p.2.1) v))) (d, some acc)
    r.1.Ok f ∧ r.2 = some (acc ++ l.flatMap fun p => smulE (p.1.1 * p.2.1) (tbl p.1.2 p.2.2)) := by
  induction l generalizing d acc with
  | nil => exact ⟨hd, by simp⟩
  | cons p l ih =>
    obtain ⟨h1, h2⟩ := hd.lookup (p.1.2, p.2.2)
    rw [hf] at h2
    dsimp only [List.foldl_cons]
    rw [h2, Option.map_some]
    have := ih h1 (addE acc (smulE (p.1.1 * p.2.1) (tbl p.1.2 p.2.2)))
    refine ⟨this.1, this.2.trans ?_⟩
    rw [List.flatMap_cons, addE, List.append_assoc]

/-- C32: products of multivectors evaluated one after the other, through one shared table that starts
empty, are the products computed without any table; the table stays correct for the next product. -/
theorem C32_products {f : Sym n × Sym n → Option (Expr R n)} {tbl : Sym n → Sym n → Expr R n}
    (hf : ∀ s t, f (s, t) = some (tbl s t)) (ops : List (Expr R n × Expr R n)) :
    (ops.foldl (fun (st : LazyDict (Sym n × Sym n) (Expr R n) × List (Option (Expr R n))) p =>
        ((updateLazy f st.1 p.1 p.2).1, st.2 ++ [(updateLazy f st.1 p.1 p.2).2]))
      (LazyDict.empty, [])).2 = ops.map fun p => some (updateAndSubstitute tbl p.1 p.2) := by
  have key : ∀ (ops : List (Expr R n × Expr R n)) (d : LazyDict (Sym n × Sym n) (Expr R n)), d.Ok f →
      ∀ acc, (ops.foldl (fun (st : LazyDict (Sym n × Sym n) (Expr R n) × List (Option (Expr R n))) p =>
        ((updateLazy f st.1 p.1 p.2).1, st.2 ++ [(updateLazy f st.1 p.1 p.2).2]))
      (d, acc)).2 = acc ++ ops.map fun p => some (updateAndSubstitute tbl p.1 p.2) := by
    intro ops
    induction ops with
    | nil => intro d _ acc; simp
    | cons p ops ih =>
      intro d hd acc
      have h : (updateLazy f d p.1 p.2).1.Ok f ∧ (updateLazy f d p.1 p.2).2 = _ :=
        foldl_lazy hf (((linearExpand p.1).flatMap fun t₁ =>
          (linearExpand p.2).map fun t₂ => (t₁, t₂))) hd []
      rw [List.foldl_cons]
      refine (ih _ h.1 _).trans ?_
      rw [List.map_cons, List.append_assoc, List.singleton_append]
      congr 2
      refine h.2.trans ?_
      rw [List.nil_append, updateAndSubstitute, List.flatMap_assoc]
      simp only [List.flatMap_map]
  simpa using key ops _ LazyDict.Ok.empty []

/-- Repeated and interleaved lookups in a table of wedge products. -/
example : let f : Sym 2 × Sym 2 → Option (Expr ℤ 2) := fun p => some (wedgeBlades p.1 p.2)
    let ks : List (Sym 2 × Sym 2) := [(.blade [0], .blade [1]), (.blade [1], .blade [0]),
      (.blade [0], .blade [1])]
    ((LazyDict.empty.lookups f ks).2 =
      [some [(1, .blade [0, 1])], some [(-1, .blade [0, 1])], some [(1, .blade [0, 1])]]) ∧
    (LazyDict.empty.lookups f ks).1.calls = [(.blade [0], .blade [1]), (.blade [1], .blade [0])] := by
  decide +kernel

end GA
