import Verif.Proofs.Dict
import Mathlib.Algebra.BigOperators.Fin
import Mathlib.Data.Nat.Choose.Sum

/-!
# C01: basis blade enumeration

`Sym.blade l` is the symbol `e_{l₀}^e_{l₁}^...`; a basis blade of the algebra is one whose index
list is strictly increasing.
-/

namespace GA

/-- C01 (grade by grade): `blades` has one row per grade `0..n`; row `r` lists, without
repetition, exactly the blades with `r` strictly increasing indices, and has `C(n,r)` entries. -/
theorem C01_blades_by_grade (n r : ℕ) (hr : r ≤ n) :
    (blades n).length = n + 1 ∧ ∃ row, (blades n)[r]? = some row ∧ row.Nodup ∧
      row.length = n.choose r ∧
      ∀ s, s ∈ row ↔ ∃ l : List (Fin n), s = .blade l ∧ l.length = r ∧ l.Pairwise (· < ·) := by
  refine ⟨by simp [blades, indexes], (combinations r (List.finRange n)).map mkBlade, ?_, ?_, ?_, ?_⟩
  · rw [blades, List.getElem?_map, indexes, List.getElem?_map, List.getElem?_range (by omega)]
    rfl
  · exact (nodup_combinations r (List.nodup_finRange n)).map mkBlade_inj
  · rw [List.length_map, length_combinations, List.length_finRange]
  · intro s
    simp only [List.mem_map, mem_combinations, sublist_finRange_iff, mkBlade]
    constructor
    · rintro ⟨l, ⟨h1, h2⟩, rfl⟩; exact ⟨l, rfl, h2, h1⟩
    · rintro ⟨l, rfl, h2, h1⟩; exact ⟨l, ⟨h1, h2⟩, rfl⟩

example : ∃ row, (blades 3)[2]? = some row ∧ row.length = 3 ∧ Sym.blade [0, 2] ∈ row :=
  ⟨[.blade [0, 1], .blade [0, 2], .blade [1, 2]], by decide, by decide, by decide⟩

/-- C01 (flat list): all basis blades appear exactly once, `2^n` of them. -/
theorem C01_blades_flat (n : ℕ) :
    (flat (blades n)).Nodup ∧ (flat (blades n)).length = 2 ^ n ∧
      ∀ s, s ∈ flat (blades n) ↔ ∃ l : List (Fin n), s = .blade l ∧ l.Pairwise (· < ·) := by
  rw [flat_blades]
  refine ⟨(nodup_flat_indexes n).map mkBlade_inj, ?_, ?_⟩
  · rw [List.length_map, flat, indexes, List.length_flatten, List.map_map]
    rw [← Nat.sum_range_choose n, Finset.sum_range, ← List.sum_ofFn, List.ofFn_eq_map,
      ← List.map_coe_finRange_eq_range, List.map_map]
    congr 1
    apply List.map_congr_left
    intro r _
    simp [length_combinations]
  · intro s
    simp only [List.mem_map, mem_flat_indexes, mkBlade]
    exact ⟨fun ⟨l, h, e⟩ => ⟨l, e.symm, h⟩, fun ⟨l, e, h⟩ => ⟨l, h, e.symm⟩⟩

example : Sym.blade [0, 2, 3] ∈ flat (blades 4) := by decide

/-- C01 (dictionaries): the index → blade map and its inverse are mutually inverse, are defined
exactly on the basis blades, and the grade map gives the number of indices. -/
theorem C01_index_maps (n : ℕ) (l : List (Fin n)) (s : Sym n) (r : ℕ) :
    ((indexesToBlades n).fwd.get? l = some s ↔ (indexesToBlades n).inverse.get? s = some l) ∧
    ((indexesToBlades n).fwd.get? l = some s ↔ l.Pairwise (· < ·) ∧ s = .blade l) ∧
    ((bladesToGrades n).get? s = some r ↔
      ∃ l : List (Fin n), l.Pairwise (· < ·) ∧ s = .blade l ∧ r = l.length) := by
  have h : (indexesToBlades n).fwd.get? l = some s ↔ l.Pairwise (· < ·) ∧ s = .blade l := by
    rw [get?_indexesToBlades]
    split_ifs with h
    · simp [h, eq_comm]
    · simp [h]
  exact ⟨h.trans (get?_bladesInv s l).symm, h, get?_bladesToGrades s r⟩

example : (indexesToBlades 3).fwd.get? [0, 2] = some (.blade [0, 2]) ∧
    (indexesToBlades 3).fwd.get? [2, 0] = none ∧
    (bladesToGrades 3).get? (.blade [0, 2]) = some 2 := by decide

end GA
