import Verif.Model.Ga
import Verif.Proofs.Index

/-! Lemmas on dictionaries and on the dictionaries of basis blades. -/

namespace GA

namespace Dict
variable {K V : Type*} [DecidableEq K]

theorem get?_set (d : Dict K V) (k : K) (v : V) (k' : K) :
    (d.set k v).get? k' = if k = k' then some v else d.get? k' := by
  induction d with
  | nil => simp [set, get?]
  | cons p d ih =>
    obtain ⟨a, b⟩ := p
    by_cases h : a = k
    · subst h
      by_cases h' : a = k' <;> simp [set, get?, h']
    · by_cases h' : k = k'
      · subst h'
        simp [set, get?, h, ih]
      · simp [set, get?, h, ih, h']

theorem foldl_set_get? (items : List (K × V)) (d : Dict K V) (k : K)
    (hk : k ∉ items.map Prod.fst) :
    Dict.get? (items.foldl (fun d kv => Dict.set d kv.1 kv.2) d) k = d.get? k := by
  induction items generalizing d with
  | nil => rfl
  | cons p items ih =>
    simp only [List.map_cons, List.mem_cons, not_or] at hk
    rw [List.foldl_cons, ih _ hk.2, get?_set, if_neg (Ne.symm hk.1)]

theorem get?_ofItems_none (items : List (K × V)) (k : K) (hk : k ∉ items.map Prod.fst) :
    (ofItems items).get? k = none := by
  rw [ofItems, foldl_set_get? items [] k hk]; rfl

theorem foldl_set_get?_mem (items : List (K × V)) (hnd : (items.map Prod.fst).Nodup)
    (d : Dict K V) (k : K) (v : V) (h : (k, v) ∈ items) :
    Dict.get? (items.foldl (fun d kv => Dict.set d kv.1 kv.2) d) k = some v := by
  induction items generalizing d with
  | nil => simp at h
  | cons p items ih =>
    rw [List.map_cons, List.nodup_cons] at hnd
    rw [List.foldl_cons]
    rcases List.mem_cons.mp h with h | h
    · subst h
      rw [foldl_set_get? items _ k hnd.1, get?_set, if_pos rfl]
    · exact ih hnd.2 _ h

theorem get?_ofItems (items : List (K × V)) (hnd : (items.map Prod.fst).Nodup) (k : K) (v : V) :
    (ofItems items).get? k = some v ↔ (k, v) ∈ items := by
  constructor
  · intro h
    by_cases hk : k ∈ items.map Prod.fst
    · obtain ⟨⟨k', v'⟩, hm, rfl⟩ := List.mem_map.mp hk
      have := foldl_set_get?_mem items hnd [] k' v' hm
      rw [ofItems, this] at h
      cases h; exact hm
    · rw [get?_ofItems_none items k hk] at h
      simp at h
  · exact foldl_set_get?_mem items hnd [] k v

end Dict

variable {n : ℕ}

theorem flat_map {α β : Type*} (f : α → β) (t : List (List α)) :
    flat (t.map fun x => x.map f) = (flat t).map f := by
  simp [flat, List.map_flatten]

theorem flat_blades (n : ℕ) : flat (blades n) = (flat (indexes n)).map mkBlade := flat_map _ _
theorem flat_bases (n : ℕ) : flat (bases n) = (flat (indexes n)).map mkBase := flat_map _ _

theorem zip_map_self {α β : Type*} (f : α → β) (l : List α) :
    l.zip (l.map f) = l.map fun x => (x, f x) := by
  induction l with
  | nil => rfl
  | cons x l ih => simp [ih]

theorem nodup_flat_indexes (n : ℕ) : (flat (indexes n)).Nodup := by
  rw [flat, List.nodup_flatten]
  constructor
  · intro l hl
    obtain ⟨k, -, rfl⟩ := List.mem_map.mp hl
    exact nodup_combinations k (List.nodup_finRange n)
  · rw [indexes, List.pairwise_map]
    refine List.Nodup.pairwise_of_forall_ne (List.nodup_range) ?_
    intro a _ b _ hab x hx hy
    exact hab ((mem_combinations.mp hx).2.symm.trans (mem_combinations.mp hy).2)

theorem mkBlade_inj : Function.Injective (mkBlade (n := n)) := by
  intro a b h; simpa [mkBlade] using h

theorem mkBase_inj : Function.Injective (mkBase (n := n)) := by
  intro a b h
  unfold mkBase at h
  split_ifs at h <;> simpa using h

theorem get?_zip_map {α β : Type*} [DecidableEq α] (f : α → β) (l : List α) (hl : l.Nodup)
    (x : α) : (Dict.ofItems (l.zip (l.map f))).get? x = if x ∈ l then some (f x) else none := by
  rw [zip_map_self]
  have hnd : ((l.map fun x => (x, f x)).map Prod.fst).Nodup := by
    rw [List.map_map]; simpa [Function.comp_def] using hl
  split_ifs with hx
  · rw [Dict.get?_ofItems _ hnd]
    exact List.mem_map.mpr ⟨x, hx, rfl⟩
  · apply Dict.get?_ofItems_none
    rw [List.map_map]; simpa [Function.comp_def] using hx

theorem get?_zip_map_inv {α β : Type*} [DecidableEq α] [DecidableEq β] (f : α → β)
    (hf : Function.Injective f) (l : List α) (hl : l.Nodup) (y : β) (x : α) :
    (Dict.ofItems ((l.zip (l.map f)).map fun kv => (kv.2, kv.1))).get? y = some x ↔
      x ∈ l ∧ y = f x := by
  rw [zip_map_self, List.map_map, Dict.get?_ofItems]
  · simp only [List.mem_map, Function.comp_apply, Prod.mk.injEq]
    constructor
    · rintro ⟨a, h1, rfl, rfl⟩; exact ⟨h1, rfl⟩
    · rintro ⟨h1, rfl⟩; exact ⟨x, h1, rfl, rfl⟩
  · rw [List.map_map]
    simpa [Function.comp_def] using hl.map hf

theorem get?_indexesToBlades (l : List (Fin n)) :
    (indexesToBlades n).fwd.get? l = if l.Pairwise (· < ·) then some (.blade l) else none := by
  rw [indexesToBlades, BiMap.ofItems, flat_blades]
  simp only [get?_zip_map _ _ (nodup_flat_indexes n), mem_flat_indexes, mkBlade]

theorem lookupBlade_of {l : List (Fin n)} (h : l.Pairwise (· < ·)) : lookupBlade l = .blade l := by
  rw [lookupBlade, get?_indexesToBlades, if_pos h]; rfl

theorem get?_indexesToBases (l : List (Fin n)) :
    (indexesToBases n).fwd.get? l = if l.Pairwise (· < ·) then some (mkBase l) else none := by
  rw [indexesToBases, BiMap.ofItems, flat_bases]
  simp only [get?_zip_map _ _ (nodup_flat_indexes n), mem_flat_indexes]

theorem lookupBase_of {l : List (Fin n)} (h : l.Pairwise (· < ·)) : lookupBase l = mkBase l := by
  rw [lookupBase, get?_indexesToBases, if_pos h]; rfl

theorem get?_bladesInv (s : Sym n) (l : List (Fin n)) :
    (indexesToBlades n).inverse.get? s = some l ↔ l.Pairwise (· < ·) ∧ s = .blade l := by
  rw [indexesToBlades, BiMap.ofItems, flat_blades]
  simp only [get?_zip_map_inv _ mkBlade_inj _ (nodup_flat_indexes n), mem_flat_indexes, mkBlade]

theorem get?_basesInv (s : Sym n) (l : List (Fin n)) :
    (indexesToBases n).inverse.get? s = some l ↔ l.Pairwise (· < ·) ∧ s = mkBase l := by
  rw [indexesToBases, BiMap.ofItems, flat_bases]
  simp only [get?_zip_map_inv _ mkBase_inj _ (nodup_flat_indexes n), mem_flat_indexes]

theorem keys_zipIdx {α : Type*} (t : List (List α)) (k : ℕ) :
    ((t.zipIdx k).flatMap fun p => p.1.map fun b => (b, p.2)).map Prod.fst = flat t := by
  induction t generalizing k with
  | nil => rfl
  | cons a t ih =>
    simp only [List.zipIdx_cons, List.flatMap_cons, List.map_append, ih, flat, List.flatten_cons]
    simp [Function.comp_def]

theorem mem_zipIdx_indexes {gr : List (List (Fin n))} {r : ℕ} :
    (gr, r) ∈ (indexes n).zipIdx ↔ r < n + 1 ∧ gr = combinations r (List.finRange n) := by
  rw [List.mem_zipIdx_iff_getElem?]
  simp only [indexes, List.getElem?_map]
  constructor
  · intro h
    rcases Nat.lt_or_ge r (n + 1) with hr | hr
    · rw [List.getElem?_range hr] at h
      simp at h; exact ⟨hr, h.symm⟩
    · rw [List.getElem?_eq_none (by simpa using hr)] at h; simp at h
  · rintro ⟨hr, rfl⟩
    rw [List.getElem?_range hr]; rfl

theorem length_le_of_lt {l : List (Fin n)} (h : l.Pairwise (· < ·)) : l.length ≤ n := by
  have := (sublist_finRange_iff.mpr h).length_le
  simpa using this

theorem get?_gradesDict (f : List (Fin n) → Sym n) (hf : Function.Injective f) (s : Sym n)
    (r : ℕ) :
    Dict.get? (Dict.ofItems (((indexes n).map fun gr => gr.map f).zipIdx.flatMap
      fun p => p.1.map fun b => (b, p.2))) s = some r ↔
      ∃ l : List (Fin n), l.Pairwise (· < ·) ∧ s = f l ∧ r = l.length := by
  rw [Dict.get?_ofItems]
  · simp only [List.zipIdx_map, List.mem_flatMap, List.mem_map, Prod.exists, Prod.mk.injEq]
    constructor
    · rintro ⟨gr, k, ⟨gr', k', hm, h1⟩, b, hb, h2, h3⟩
      simp only [Prod.map_apply, id_eq, Prod.mk.injEq] at h1
      obtain ⟨hk, rfl⟩ := mem_zipIdx_indexes.mp hm
      obtain ⟨rfl, rfl⟩ := h1
      obtain ⟨l, hl, rfl⟩ := List.mem_map.mp hb
      have := mem_combinations.mp hl
      exact ⟨l, sublist_finRange_iff.mp this.1, h2.symm, by rw [this.2, h3]⟩
    · rintro ⟨l, hl, rfl, rfl⟩
      refine ⟨_, l.length, ⟨_, l.length, mem_zipIdx_indexes.mpr
        ⟨Nat.lt_succ_of_le (length_le_of_lt hl), rfl⟩, rfl⟩, f l, ?_, rfl, rfl⟩
      exact List.mem_map.mpr ⟨l, mem_combinations.mpr ⟨sublist_finRange_iff.mpr hl, rfl⟩, rfl⟩
  · rw [keys_zipIdx, flat_map]
    exact (nodup_flat_indexes n).map hf

theorem get?_bladesToGrades (s : Sym n) (r : ℕ) :
    (bladesToGrades n).get? s = some r ↔
      ∃ l : List (Fin n), l.Pairwise (· < ·) ∧ s = .blade l ∧ r = l.length :=
  get?_gradesDict mkBlade mkBlade_inj s r

theorem get?_basesToGrades (s : Sym n) (r : ℕ) :
    (basesToGrades n).get? s = some r ↔
      ∃ l : List (Fin n), l.Pairwise (· < ·) ∧ s = mkBase l ∧ r = l.length :=
  get?_gradesDict mkBase mkBase_inj s r

theorem grade_of_blade {l : List (Fin n)} (h : l.Pairwise (· < ·)) :
    (bladesToGrades n).get? (.blade l) = some l.length :=
  (get?_bladesToGrades _ _).mpr ⟨l, h, rfl, rfl⟩

end GA
