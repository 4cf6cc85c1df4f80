import Verif.Proofs.Index
import Mathlib.GroupTheory.Perm.Fin
import Mathlib.Data.Fin.Tuple.Sort

/-!
# C55: `blade_reduce` computes permutation signs

The specification is Mathlib's sign of a permutation: `σ` sorts `l` if reading the entries of `l`
in the order `σ 0, σ 1, ...` gives a strictly increasing sequence.
-/

namespace GA
variable {n : ℕ}

theorem prod_Ioi_eq_inv (l : List (Fin n)) (h : l.Nodup) :
    ∏ i : Fin l.length, ∏ j ∈ Finset.Ioi i, (if l[i] < l[j] then (1 : ℤˣ) else -1)
      = (-1) ^ inv l := by
  induction l with
  | nil => simp [inv]
  | cons x l ih =>
    rw [List.nodup_cons] at h
    have h0 : ∀ m : List (Fin n), x ∉ m →
        ∏ j : Fin m.length, (if x < m[j] then (1 : ℤˣ) else -1) =
          (-1) ^ (m.filter (· < x)).length := by
      intro m hm
      induction m with
      | nil => simp
      | cons y m ihm =>
        simp only [List.mem_cons, not_or] at hm
        have e : ∏ j : Fin (y :: m).length, (if x < (y :: m)[j] then (1 : ℤˣ) else -1) =
            (if x < y then 1 else -1) * ∏ j : Fin m.length, (if x < m[j] then (1 : ℤˣ) else -1) :=
          Fin.prod_univ_succ (n := m.length) _
        rw [e, ihm hm.2]
        rcases lt_or_gt_of_ne hm.1 with hxy | hxy
        · have : ¬ y < x := not_lt.mpr hxy.le
          simp [hxy, this]
        · have : ¬ x < y := not_lt.mpr hxy.le
          simp [hxy, this, pow_succ]
    have e : ∏ i : Fin (x :: l).length, ∏ j ∈ Finset.Ioi i,
        (if (x :: l)[i] < (x :: l)[j] then (1 : ℤˣ) else -1) =
        (∏ j : Fin l.length, (if x < l[j] then (1 : ℤˣ) else -1)) *
          ∏ i : Fin l.length, ∏ j ∈ Finset.Ioi i, (if l[i] < l[j] then (1 : ℤˣ) else -1) := by
      refine (Fin.prod_univ_succ (n := l.length) _).trans ?_
      congr 1
      · exact Fin.prod_Ioi_zero (n := l.length) _
      · refine Finset.prod_congr rfl fun i _ => ?_
        exact Fin.prod_Ioi_succ (n := l.length) _ i
    rw [e, h0 l h.1, ih h.2, ← pow_add]
    rfl

theorem sign_eq_inv (l : List (Fin n)) (σ : Equiv.Perm (Fin l.length))
    (hσ : StrictMono fun k => l[σ k]) : (Equiv.Perm.sign σ : ℤ) = (-1) ^ inv l := by
  have hnd : l.Nodup := by
    rw [List.nodup_iff_injective_get]
    intro a b hab
    have := hσ.injective (a₁ := σ.symm a) (a₂ := σ.symm b) (by simpa using hab)
    simpa using this
  have h : Equiv.Perm.sign σ = (-1) ^ inv l := by
    rw [← Equiv.Perm.sign_inv, Equiv.Perm.sign_eq_prod_prod_Ioi, ← prod_Ioi_eq_inv l hnd]
    refine Finset.prod_congr rfl fun i _ => Finset.prod_congr rfl fun j _ => ?_
    have : σ⁻¹ i < σ⁻¹ j ↔ l[i] < l[j] := by
      rw [← hσ.lt_iff_lt]; simp
    simp only [this]
  rw [h]; simp

/-- C55 for arbitrary index lists: `(0, None)` exactly when an index repeats; otherwise the sorted
list of the same indices together with the sign of the permutation that sorts it. -/
theorem C55_blade_reduce (l : List (Fin n)) :
    (¬ l.Nodup → bladeReduce l = (0, none)) ∧
    (l.Nodup → ∃ m, m.Pairwise (· < ·) ∧ m.Perm l ∧
      ∀ σ : Equiv.Perm (Fin l.length), StrictMono (fun k => l[σ k]) →
        bladeReduce l = ((Equiv.Perm.sign σ : ℤ), some m)) := by
  rcases bladeReduce_spec l with ⟨h1, h2⟩ | ⟨m, h1, h2, h3, h4⟩
  · exact ⟨fun _ => h1, fun h => absurd h h2⟩
  · refine ⟨fun h => absurd h2 h, fun _ => ⟨m, h3, h4, ?_⟩⟩
    intro σ hσ
    rw [h1, sign_eq_inv l σ hσ]

/-- A sorting permutation exists for every list without repetitions, so the sign in
`C55_blade_reduce` is always determined. -/
theorem C55_sorting_permutation_exists (l : List (Fin n)) (h : l.Nodup) :
    ∃ σ : Equiv.Perm (Fin l.length), StrictMono fun k => l[σ k] := by
  refine ⟨Tuple.sort (fun k : Fin l.length => l[k]), ?_⟩
  refine Monotone.strictMono_of_injective (Tuple.monotone_sort _) ?_
  intro a b hab
  have h1 : (Tuple.sort fun k : Fin l.length => l[k]) a =
      (Tuple.sort fun k : Fin l.length => l[k]) b := (List.nodup_iff_injective_get.mp h) hab
  exact (Equiv.injective _) h1

/-- C55 for the concatenation of two basis blades, the case used by `^`: the result is zero
exactly when the blades share a basis vector. -/
theorem C55_blade_reduce_concat (I J : List (Fin n)) (hI : I.Pairwise (· < ·))
    (hJ : J.Pairwise (· < ·)) :
    (bladeReduce (I ++ J) = (0, none) ↔ ∃ x, x ∈ I ∧ x ∈ J) := by
  have hnd : (I ++ J).Nodup ↔ ¬ ∃ x, x ∈ I ∧ x ∈ J := by
    rw [List.nodup_append]
    constructor
    · rintro ⟨-, -, h⟩ ⟨x, h1, h2⟩; exact h x h1 x h2 rfl
    · intro h
      refine ⟨nodup_of_lt hI, nodup_of_lt hJ, ?_⟩
      intro a ha b hb hab
      exact h ⟨a, ha, hab ▸ hb⟩
  constructor
  · intro h
    by_contra hc
    obtain ⟨m, -, -, hs⟩ := (C55_blade_reduce (I ++ J)).2 (hnd.mpr hc)
    obtain ⟨σ, hσ⟩ := C55_sorting_permutation_exists (I ++ J) (hnd.mpr hc)
    rw [hs σ hσ] at h
    simp at h
  · intro h
    exact (C55_blade_reduce _).1 (fun hn => hnd.mp hn h)

example : bladeReduce ([0, 2] ++ [1] : List (Fin 3)) = (-1, some [0, 1, 2]) := by decide
example : bladeReduce ([2, 0, 1, 0] : List (Fin 3)) = (0, none) := by decide

end GA
