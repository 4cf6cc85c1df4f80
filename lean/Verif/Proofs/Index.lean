import Verif.Model.Index
import Mathlib.Data.List.Sublists
import Mathlib.Data.List.Perm.Basic
import Mathlib.Data.List.Sort
import Mathlib.Data.Nat.Choose.Sum
import Mathlib.Data.List.Count
import Mathlib.Data.List.TakeWhile

/-! Lemmas about the index-list algorithms. -/

namespace GA

/-! ### combinations -/

theorem mem_combinations {α : Type*} {k : ℕ} {xs l : List α} :
    l ∈ combinations k xs ↔ l.Sublist xs ∧ l.length = k := by
  induction xs generalizing k l with
  | nil =>
    cases k with
    | zero => simp [combinations]
    | succ k => simp [combinations]; rintro rfl; simp
  | cons x xs ih =>
    cases k with
    | zero =>
      simp only [combinations, List.mem_singleton]
      constructor
      · rintro rfl; simp
      · rintro ⟨-, h⟩; exact List.length_eq_zero_iff.mp h
    | succ k =>
      simp only [combinations, List.mem_append, List.mem_map, ih]
      constructor
      · rintro (⟨m, ⟨hm, hk⟩, rfl⟩ | ⟨h, hk⟩)
        · exact ⟨hm.cons_cons x, by simp [hk]⟩
        · exact ⟨h.cons x, hk⟩
      · rintro ⟨h, hk⟩
        cases h with
        | cons _ h => exact Or.inr ⟨h, hk⟩
        | cons_cons _ h => exact Or.inl ⟨_, ⟨h, by simpa using hk⟩, rfl⟩

theorem length_combinations {α : Type*} (k : ℕ) (xs : List α) :
    (combinations k xs).length = xs.length.choose k := by
  induction xs generalizing k with
  | nil => cases k <;> simp [combinations]
  | cons x xs ih =>
    cases k with
    | zero => simp [combinations]
    | succ k => simp [combinations, ih, Nat.choose_succ_succ]

theorem nodup_combinations {α : Type*} (k : ℕ) {xs : List α} (h : xs.Nodup) :
    (combinations k xs).Nodup := by
  induction xs generalizing k with
  | nil => cases k <;> simp [combinations]
  | cons x xs ih =>
    rw [List.nodup_cons] at h
    cases k with
    | zero => simp [combinations]
    | succ k =>
      simp only [combinations]
      refine List.Nodup.append ((ih k h.2).map (List.cons_injective)) (ih (k + 1) h.2) ?_
      intro l hl hl'
      simp only [List.mem_map, mem_combinations] at hl hl'
      obtain ⟨m, -, rfl⟩ := hl
      exact h.1 (hl'.1.subset (by simp))

variable {n : ℕ}

theorem nodup_of_lt {l : List (Fin n)} (h : l.Pairwise (· < ·)) : l.Nodup :=
  h.imp (fun h => h.ne)

theorem nodup_of_gt {l : List (Fin n)} (h : l.Pairwise (· > ·)) : l.Nodup :=
  h.imp (fun h => h.ne')

theorem sublist_finRange_iff {l : List (Fin n)} :
    l.Sublist (List.finRange n) ↔ l.Pairwise (· < ·) := by
  constructor
  · intro h
    exact (List.pairwise_lt_finRange n).sublist h
  · intro h
    refine List.sublist_of_subperm_of_pairwise ?_ h (List.pairwise_lt_finRange n)
    exact (nodup_of_lt h).subperm (fun x _ => List.mem_finRange x)

theorem mem_flat_indexes {l : List (Fin n)} : l ∈ flat (indexes n) ↔ l.Pairwise (· < ·) := by
  simp only [flat, indexes, List.mem_flatten, List.mem_map, List.mem_range]
  constructor
  · rintro ⟨_, ⟨k, -, rfl⟩, hl⟩
    exact sublist_finRange_iff.mp (mem_combinations.mp hl).1
  · intro h
    have hs := sublist_finRange_iff.mpr h
    exact ⟨_, ⟨l.length, by have := hs.length_le; simp at this; omega, rfl⟩,
      mem_combinations.mpr ⟨hs, rfl⟩⟩

/-! ### the shifting loop -/

theorem shift_eq (save : Fin n) (sgn : ℤ) (p moved : List (Fin n)) :
    shift save sgn p moved =
      (sgn * (-1) ^ (p.takeWhile (fun x => decide (x > save))).length,
        (p.takeWhile (fun x => decide (x > save))).reverse ++ moved,
        p.dropWhile (fun x => decide (x > save))) := by
  induction p generalizing sgn moved with
  | nil => simp [shift]
  | cons x p ih =>
    by_cases h : x > save
    · simp [shift, h, ih, pow_succ]
    · simp [shift, h]

/-- Entries greater than `save` at the front of the reversed prefix. -/
abbrev tw (save : Fin n) (p : List (Fin n)) := p.takeWhile (fun x => decide (x > save))
/-- The rest of the reversed prefix. -/
abbrev dw (save : Fin n) (p : List (Fin n)) := p.dropWhile (fun x => decide (x > save))

theorem tw_dw (save : Fin n) (p : List (Fin n)) : tw save p ++ dw save p = p :=
  List.takeWhile_append_dropWhile

theorem tw_gt {save : Fin n} {p : List (Fin n)} {x : Fin n} (h : x ∈ tw save p) : save < x := by
  simpa using List.mem_takeWhile_imp h

theorem dw_le {save : Fin n} {p : List (Fin n)} (hp : p.Pairwise (· ≥ ·)) {x : Fin n}
    (h : x ∈ dw save p) : x ≤ save := by
  rcases hd : dw save p with _ | ⟨y, r⟩
  · rw [hd] at h; simp at h
  · have hy : ¬ (decide (y > save) = true) := by
      have := List.head_dropWhile_not (fun x => decide (x > save)) (l := p) (by simp [dw] at hd; simp [hd])
      simp only [dw] at hd
      simp only [hd, List.head_cons] at this
      simpa using this
    have hp' : (y :: r).Pairwise (· ≥ ·) := by
      rw [← hd]; exact hp.sublist (List.dropWhile_sublist _)
    rw [hd] at h
    rcases List.mem_cons.mp h with rfl | h
    · simpa using hy
    · exact ((List.pairwise_cons.mp hp').1 x h).trans (by simpa using hy)

/-! ### products of anticommuting factors -/

section anti
variable {A : Type*} [Ring A] (f : Fin n → A)

theorem prod_mul_anti (hf : ∀ i j, i ≠ j → f i * f j = -(f j * f i)) (t : List (Fin n))
    (a : Fin n) (h : ∀ x ∈ t, x ≠ a) :
    (t.map f).prod * f a = (-1) ^ t.length * (f a * (t.map f).prod) := by
  induction t with
  | nil => simp
  | cons x t ih =>
    have hx := h x (by simp)
    rw [List.map_cons, List.prod_cons, mul_assoc, ih (fun y hy => h y (by simp [hy])),
      List.length_cons, pow_succ]
    have hc : f x * (-1) ^ t.length = (-1) ^ t.length * f x :=
      ((Commute.neg_one_right (f x)).pow_right _).eq
    rw [← mul_assoc, hc, mul_assoc ((-1 : A) ^ t.length), ← mul_assoc (f x), hf x a hx]
    simp [mul_assoc]

theorem prod_shift (hf : ∀ i j, i ≠ j → f i * f j = -(f j * f i)) (save : Fin n)
    (p suf : List (Fin n)) :
    ((p.reverse ++ save :: suf).map f).prod =
      ((-1 : ℤ) ^ (tw save p).length : ℤ) *
        (((tw save p ++ save :: dw save p).reverse ++ suf).map f).prod := by
  conv_lhs => rw [← tw_dw save p]
  have := prod_mul_anti f hf (tw save p).reverse save (by
    intro x hx; exact (tw_gt (List.mem_reverse.mp hx)).ne')
  simp only [List.reverse_append, List.map_append, List.prod_append, List.map_cons,
    List.prod_cons, List.reverse_cons, List.map_nil, List.prod_nil, mul_one] at *
  rw [mul_assoc ((dw save p).reverse.map f).prod, ← mul_assoc _ (f save), this]
  have hc : ∀ y : A, y * (-1) ^ (tw save p).length = (-1) ^ (tw save p).length * y :=
    fun y => ((Commute.neg_one_right y).pow_right _).eq
  simp only [List.length_reverse, Int.cast_pow, Int.cast_neg, Int.cast_one, ← mul_assoc, hc]

end anti

theorem inv_shift (l t m : List (Fin n)) (a : Fin n) (h : ∀ x ∈ t, a < x) :
    inv (l ++ t ++ a :: m) = inv (l ++ a :: t ++ m) + t.length := by
  induction t generalizing l with
  | nil => simp
  | cons x t ih =>
    have h1 := ih (l ++ [x]) (fun y hy => h y (by simp [hy]))
    have h2 := inv_swap l (t ++ m) (h x (by simp))
    simp only [List.append_assoc, List.cons_append, List.nil_append, List.length_cons] at *
    omega

theorem inv_sorted {l : List (Fin n)} (h : l.Pairwise (· ≤ ·)) : inv l = 0 := by
  induction l with
  | nil => rfl
  | cons x l ih =>
    rw [List.pairwise_cons] at h
    simp only [inv, ih h.2, add_zero, List.length_eq_zero_iff, List.filter_eq_nil_iff]
    intro y hy
    simpa using h.1 y hy

/-! ### blade_reduce -/

theorem prevEq_true_dup {save : Fin n} {p suf : List (Fin n)} (hp : p ≠ [])
    (h : prevEq save (tw save p).reverse (dw save p) suf = true) :
    save ∈ p ∨ save ∈ suf := by
  unfold prevEq at h
  split at h
  · next x r hr =>
    left
    have : x = save := by simpa using h
    rw [← tw_dw save p, hr, this]; simp
  · next hr =>
    rw [beq_iff_eq, List.getLast?_eq_some_iff] at h
    obtain ⟨ys, hys⟩ := h
    have ht : tw save p = p := by conv_rhs => rw [← tw_dw save p, hr, List.append_nil]
    have hmem : save ∈ (tw save p).reverse ++ suf := by
      cases ys with
      | nil =>
        exfalso
        simp [ht, hp] at hys
      | cons y ys =>
        simp only [List.cons_append, List.cons.injEq] at hys
        rw [hys.2]; simp
    rcases List.mem_append.mp hmem with h1 | h1
    · exact absurd (tw_gt (List.mem_reverse.mp h1)) (lt_irrefl _)
    · exact Or.inr h1

theorem prevEq_false_not_mem {save : Fin n} {p moved suf : List (Fin n)}
    (hp : p.Pairwise (· ≥ ·)) (h : prevEq save moved (dw save p) suf = false) :
    save ∉ p := by
  intro hm
  rw [← tw_dw save p, List.mem_append] at hm
  rcases hm with h1 | h1
  · exact absurd (tw_gt h1) (lt_irrefl _)
  · have hle := fun x hx => dw_le hp (x := x) (save := save) hx
    have hs : (dw save p).Pairwise (· ≥ ·) := hp.sublist (List.dropWhile_sublist _)
    unfold prevEq at h
    split at h
    · next x r hr =>
      rw [hr] at h1 hle hs
      have hx : x ≠ save := by simpa using h
      rcases List.mem_cons.mp h1 with h2 | h2
      · exact hx h2.symm
      · have := (List.pairwise_cons.mp hs).1 save h2
        exact hx (le_antisymm (hle x (by simp)) this)
    · next hr => rw [hr] at h1; simp at h1

theorem sorted_insert {save : Fin n} {p : List (Fin n)} (hp : p.Pairwise (· ≥ ·)) :
    (tw save p ++ save :: dw save p).Pairwise (· ≥ ·) := by
  have h1 : (tw save p).Pairwise (· ≥ ·) := hp.sublist (List.takeWhile_sublist _)
  have h2 : (dw save p).Pairwise (· ≥ ·) := hp.sublist (List.dropWhile_sublist _)
  rw [List.pairwise_append, List.pairwise_cons]
  refine ⟨h1, ⟨fun x hx => dw_le hp hx, h2⟩, ?_⟩
  intro x hx y hy
  rcases List.mem_cons.mp hy with rfl | hy
  · exact (tw_gt hx).le
  · exact (dw_le hp hy).trans (tw_gt hx).le

theorem perm_insert (save : Fin n) (p suf : List (Fin n)) :
    ((tw save p ++ save :: dw save p).reverse ++ suf).Perm (p.reverse ++ save :: suf) := by
  have h : (tw save p ++ save :: dw save p).Perm (save :: p) := by
    conv_rhs => rw [← tw_dw save p]
    exact List.perm_middle
  have h2 : (p.reverse ++ save :: suf).Perm (save :: (p.reverse ++ suf)) := List.perm_middle
  refine List.Perm.trans ?_ h2.symm
  exact (((List.reverse_perm _).trans h).trans ((List.reverse_perm p).symm.cons save)).append_right suf

theorem inv_insert (save : Fin n) (p suf : List (Fin n)) :
    inv (p.reverse ++ save :: suf) =
      inv ((tw save p ++ save :: dw save p).reverse ++ suf) + (tw save p).length := by
  have h0 : p.reverse = (dw save p).reverse ++ (tw save p).reverse := by
    rw [← List.reverse_append, tw_dw]
  have := inv_shift (dw save p).reverse (tw save p).reverse suf save
    (fun x hx => tw_gt (List.mem_reverse.mp hx))
  rw [h0]
  simpa using this

theorem strict_insert {save : Fin n} {p : List (Fin n)} (hp : p.Pairwise (· > ·))
    (hnm : save ∉ p) : (tw save p ++ save :: dw save p).Pairwise (· > ·) := by
  have hp' : p.Pairwise (· ≥ ·) := hp.imp (fun h => h.le)
  have h1 := sorted_insert (save := save) hp'
  have h2 : (tw save p ++ save :: dw save p).Nodup := by
    have h3 : (tw save p ++ save :: dw save p).Perm (save :: p) := by
      conv_rhs => rw [← tw_dw save p]
      exact List.perm_middle
    rw [h3.nodup_iff, List.nodup_cons]
    exact ⟨hnm, nodup_of_gt hp⟩
  exact (h1.and h2).imp (fun h => lt_of_le_of_ne h.1 h.2.symm)

theorem bladeReduceLoop_spec (sgn : ℤ) (p suf : List (Fin n)) (hne : p ≠ [])
    (hp : p.Pairwise (· > ·)) :
    (bladeReduceLoop sgn p suf = (0, none) ∧ ¬ (p.reverse ++ suf).Nodup) ∨
    ∃ m, bladeReduceLoop sgn p suf = (sgn * (-1) ^ inv (p.reverse ++ suf), some m) ∧
      (p.reverse ++ suf).Nodup ∧ m.Pairwise (· < ·) ∧ m.Perm (p.reverse ++ suf) := by
  induction suf generalizing sgn p with
  | nil =>
    right
    have hs : p.reverse.Pairwise (· < ·) := List.pairwise_reverse.mpr hp
    refine ⟨p.reverse, ?_, ?_, hs, by simp⟩
    · simp [bladeReduceLoop, inv_sorted (hs.imp (fun h => h.le))]
    · simpa using nodup_of_lt hs
  | cons save suf ih =>
    have hp' : p.Pairwise (· ≥ ·) := hp.imp (fun h => h.le)
    simp only [bladeReduceLoop, shift_eq, List.append_nil, List.reverse_reverse]
    by_cases hq : prevEq save (tw save p).reverse (dw save p) suf = true
    · left
      rw [if_pos hq]
      refine ⟨rfl, ?_⟩
      intro hnd
      rw [List.nodup_append] at hnd
      rcases prevEq_true_dup hne hq with h | h
      · exact hnd.2.2 save (by simpa using h) save (by simp) rfl
      · exact (List.nodup_cons.mp hnd.2.1).1 h
    · rw [if_neg hq]
      have hq' : prevEq save (tw save p).reverse (dw save p) suf = false := by simpa using hq
      have hnm := prevEq_false_not_mem hp' hq'
      have hperm := perm_insert save p suf
      have hnew := strict_insert hp hnm
      have hinv := inv_insert save p suf
      rcases ih (sgn * (-1) ^ (tw save p).length) (tw save p ++ save :: dw save p) (by simp) hnew
        with ⟨h1, h2⟩ | ⟨m, h1, h2, h3, h4⟩
      · left
        exact ⟨h1, fun h => h2 (hperm.nodup_iff.mpr h)⟩
      · right
        refine ⟨m, ?_, hperm.nodup_iff.mp h2, h3, h4.trans hperm⟩
        rw [h1, hinv, pow_add]
        congr 1
        ring

/-- `blade_reduce` on an arbitrary index list. -/
theorem bladeReduce_spec (l : List (Fin n)) :
    (bladeReduce l = (0, none) ∧ ¬ l.Nodup) ∨
    ∃ m, bladeReduce l = ((-1) ^ inv l, some m) ∧ l.Nodup ∧ m.Pairwise (· < ·) ∧ m.Perm l := by
  cases l with
  | nil => right; exact ⟨[], by simp [bladeReduce, inv]⟩
  | cons x l =>
    have := bladeReduceLoop_spec 1 [x] l (by simp) (by simp)
    simpa [bladeReduce] using this

/-- Sorting a product of anticommuting factors: the sign is the parity of the inversions.
Repeated factors are allowed. -/
theorem prod_eq_sorted {A : Type*} [Ring A] (f : Fin n → A)
    (hf : ∀ i j, i ≠ j → f i * f j = -(f j * f i)) (l m : List (Fin n))
    (hm : m.Pairwise (· ≤ ·)) (hp : m.Perm l) :
    (l.map f).prod = (((-1) ^ inv l : ℤ) : A) * (m.map f).prod := by
  -- follow the insertion sort itself
  have key : ∀ (suf p : List (Fin n)), p.Pairwise (· ≥ ·) →
      ∃ m' : List (Fin n), m'.Pairwise (· ≤ ·) ∧ m'.Perm (p.reverse ++ suf) ∧
      ((p.reverse ++ suf).map f).prod = (((-1) ^ inv (p.reverse ++ suf) : ℤ) : A) * (m'.map f).prod := by
    intro suf
    induction suf with
    | nil =>
      intro p hp
      have hs : p.reverse.Pairwise (· ≤ ·) := List.pairwise_reverse.mpr hp
      exact ⟨p.reverse, hs, by simp, by simp [inv_sorted hs]⟩
    | cons save suf ih =>
      intro p hp
      have hperm := perm_insert save p suf
      have hnew := sorted_insert (save := save) hp
      have hinv := inv_insert save p suf
      obtain ⟨m', h1, h2, h3⟩ := ih _ hnew
      refine ⟨m', h1, h2.trans hperm, ?_⟩
      rw [prod_shift f hf, h3, hinv, ← mul_assoc, ← Int.cast_mul, pow_add, mul_comm]
  obtain ⟨m', h1, h2, h3⟩ := key l [] (by simp)
  have hmm : m = m' := by
    refine List.Perm.eq_of_pairwise (fun a b _ _ h1 h2 => le_antisymm h1 h2) hm h1 ?_
    exact hp.trans (by simpa using h2.symm)
  simpa [hmm] using h3

end GA
