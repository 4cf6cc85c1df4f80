import Verif.Model.SymMatrix
import Verif.Proofs.Session
import Mathlib.Algebra.BigOperators.Intervals
import Mathlib.Data.List.Nodup

/-!
# Symbolic matrices: the loops that fill them
-/

set_option linter.unusedSectionVars false

namespace GA
variable {n : ℕ} {R : Type*} [CommRing R] [DecidableEq R]

/-- The name of the `k`-th parameter that is popped, counted from zero. -/
def paramName (kernel : List Char) (k : ℕ) : List Char := kernel ++ '_' :: strNat (k + 1)

theorem paramName_inj {kernel : List Char} {k l : ℕ} (h : paramName kernel k = paramName kernel l) :
    k = l := by
  have h1 := List.append_cancel_left h
  have h2 := (List.cons.inj h1).2
  exact Nat.succ_injective (strNat_inj h2)

theorem matrixParameters_eq (kernel : List Char) (m : ℕ) :
    matrixParameters kernel m = ((List.range m).map (paramName kernel)).reverse := by
  apply List.ext_getElem
  · simp [matrixParameters]
  · intro i h1 h2
    simp only [matrixParameters, List.length_map, List.length_range] at h1
    simp only [matrixParameters, List.getElem_map, List.getElem_range, List.getElem_reverse,
      List.length_map, List.length_range, paramName]
    congr 3
    omega

theorem upperPairs_length (n d : ℕ) :
    (upperPairs n d).length = ∑ i ∈ Finset.range n, (n - (i + d)) := by
  rw [upperPairs, List.length_flatMap]
  simp only [List.length_map, List.length_range']
  rfl

theorem upperPairs_length_zero (n : ℕ) : (upperPairs n 0).length = n * (n + 1) / 2 := by
  rw [upperPairs_length]
  have h : ∑ i ∈ Finset.range n, (n - (i + 0)) = ∑ i ∈ Finset.range n, (i + 1) := by
    rw [← Finset.sum_range_reflect]
    refine Finset.sum_congr rfl fun i hi => ?_
    have := Finset.mem_range.mp hi
    omega
  rw [h]
  have h2 := Finset.sum_range_succ' (fun i => i) n
  rw [add_zero] at h2
  rw [← h2, Finset.sum_range_id, Nat.add_sub_cancel, mul_comm]

theorem upperPairs_length_one (n : ℕ) : (upperPairs n 1).length = n * (n - 1) / 2 := by
  rw [upperPairs_length, ← Finset.sum_range_id, ← Finset.sum_range_reflect]
  refine Finset.sum_congr rfl fun i hi => ?_
  have := Finset.mem_range.mp hi
  omega

theorem mem_upperPairs {n d i j : ℕ} : (i, j) ∈ upperPairs n d ↔ i + d ≤ j ∧ j < n := by
  simp only [upperPairs, List.mem_flatMap, List.mem_range, List.mem_map, List.mem_range'_1,
    Prod.mk.injEq]
  constructor
  · rintro ⟨a, h1, b, h2, rfl, rfl⟩; omega
  · rintro ⟨h1, h2⟩; exact ⟨i, by omega, j, by omega, rfl, rfl⟩

theorem upperPairs_nodup (n d : ℕ) : (upperPairs n d).Nodup := by
  rw [upperPairs, List.nodup_flatMap]
  refine ⟨fun i _ => List.Nodup.map (fun a b h => (Prod.mk.inj h).2) List.nodup_range', ?_⟩
  refine List.Nodup.pairwise_of_forall_ne List.nodup_range fun a _ b _ hab => ?_
  rw [Function.onFun, List.disjoint_left]
  rintro ⟨x, y⟩ h1 h2
  simp only [List.mem_map, Prod.mk.injEq] at h1 h2
  obtain ⟨_, _, rfl, _⟩ := h1
  obtain ⟨_, _, rfl, _⟩ := h2
  exact hab rfl

/-- The loops give entry `(i, j)` the value of the parameter with the number of `(i, j)` in the list of
pairs, entry `(j, i)` the flipped value, and leave the other entries alone. -/
theorem fillEntries_spec (val : List Char → R) (flip : R → R) :
    ∀ (ps : List (ℕ × ℕ)) (names : List (List Char)) (S : ℕ → ℕ → R),
      ps.length = names.length → ps.Nodup → (∀ p ∈ ps, p.1 ≤ p.2) →
      (∀ p ∈ ps, p.1 = p.2 → ∀ x, flip x = x) →
      ∃ T, fillEntries val flip ps names.reverse S = some T ∧
        (∀ k (h : k < ps.length) (h' : k < names.length),
          T ps[k].1 ps[k].2 = val names[k] ∧ T ps[k].2 ps[k].1 = flip (val names[k])) ∧
        ∀ i j, (i, j) ∉ ps → (j, i) ∉ ps → T i j = S i j
  | [], [], S, _, _, _, _ => ⟨S, rfl, by simp, by simp⟩
  | [], _ :: _, S, hl, _, _, _ => by simp at hl
  | _ :: _, [], S, hl, _, _, _ => by simp at hl
  | (i, j) :: ps, x :: names, S, hl, hnd, hle, hfl => by
      obtain ⟨hni, hnd'⟩ := List.nodup_cons.mp hnd
      have hij : i ≤ j := hle (i, j) (by simp)
      obtain ⟨T, h1, h2, h3⟩ := fillEntries_spec val flip ps names
        (setEntry (setEntry S i j (val x)) j i (flip (setEntry S i j (val x) i j)))
        (by simpa using hl) hnd' (fun p hp => hle p (by simp [hp])) (fun p hp => hfl p (by simp [hp]))
      have hji : i ≠ j → (j, i) ∉ ps := fun hne hp => by
        have := hle (j, i) (by simp [hp])
        simp only at this; omega
      have hji' : (j, i) ∉ ps := by
        by_cases h : i = j
        · subst h; exact hni
        · exact hji h
      refine ⟨T, ?_, ?_, ?_⟩
      · rw [fillEntries]
        simp only [List.reverse_cons, List.getLast?_concat, List.dropLast_concat]
        exact h1
      · intro k hk hk'
        cases k with
        | zero =>
          simp only [List.getElem_cons_zero]
          rw [h3 i j hni hji', h3 j i hji' hni]
          simp only [setEntry]
          by_cases h : i = j
          · subst h
            have := hfl (i, i) (by simp) rfl
            simp [this]
          · simp [h]
        | succ k =>
          simp only [List.getElem_cons_succ]
          exact h2 k (by simpa using hk) (by simpa using hk')
      · intro a b hab hba
        rw [h3 a b (fun h => hab (by simp [h])) (fun h => hba (by simp [h]))]
        have e1 : ¬ (a = i ∧ b = j) := by rintro ⟨rfl, rfl⟩; simp at hab
        have e2 : ¬ (a = j ∧ b = i) := by rintro ⟨rfl, rfl⟩; simp at hba
        simp [setEntry, e1, e2]

/-- Filling the pairs `(i, j)` with `i + d ≤ j < n`. -/
theorem fill_upper (kernel : List Char) (val : List Char → R) (flip : R → R) (n d m : ℕ)
    (hm : (upperPairs n d).length = m) (hd : d = 0 → ∀ x, flip x = x) :
    ∃ T, fillEntries val flip (upperPairs n d) (matrixParameters kernel m) (fun _ _ => 0) = some T ∧
      (∀ i j, i + d ≤ j → j < n →
        T i j = val (paramName kernel ((upperPairs n d).idxOf (i, j))) ∧
        T j i = flip (val (paramName kernel ((upperPairs n d).idxOf (i, j))))) ∧
      ∀ i j, ¬ i + d ≤ j → ¬ j + d ≤ i → T i j = 0 := by
  obtain ⟨T, h1, h2, h3⟩ := fillEntries_spec val flip (upperPairs n d)
    ((List.range m).map (paramName kernel)) (fun _ _ => 0) (by simp [hm]) (upperPairs_nodup n d)
    (fun p hp => by have := mem_upperPairs.mp (show (p.1, p.2) ∈ _ from hp); omega)
    (fun p hp he => hd (by have := mem_upperPairs.mp (show (p.1, p.2) ∈ _ from hp); omega))
  refine ⟨T, by rw [matrixParameters_eq]; exact h1, fun i j hij hj => ?_, fun i j hi hj => ?_⟩
  · have hmem : (i, j) ∈ upperPairs n d := mem_upperPairs.mpr ⟨hij, hj⟩
    have hk := List.idxOf_lt_length_iff.mpr hmem
    have := h2 _ hk (by simpa [hm] using hk)
    simpa [List.getElem_idxOf hk] using this
  · exact h3 i j (fun h => hi (mem_upperPairs.mp h).1) (fun h => hj (mem_upperPairs.mp h).1)

theorem upperName_inj (kernel : List Char) {n d i j k l : ℕ} (h1 : i + d ≤ j) (h2 : j < n)
    (_ : k + d ≤ l) (_ : l < n)
    (h : paramName kernel ((upperPairs n d).idxOf (i, j)) =
      paramName kernel ((upperPairs n d).idxOf (k, l))) : i = k ∧ j = l := by
  have := (List.idxOf_inj (mem_upperPairs.mpr ⟨h1, h2⟩)).mp (paramName_inj h)
  simpa using this

end GA
