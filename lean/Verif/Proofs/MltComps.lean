import Verif.Model.MltComps
import Verif.Proofs.Session
import Mathlib.Algebra.BigOperators.Fin

/-!
# The order of `itertools.product`, and the text of `Mlt.comps`
-/

namespace GA
open MvPolynomial

theorem length_itProduct {α : Type*} (l : List α) (r : ℕ) : (itProduct (List.replicate r l)).length = l.length ^ r := by
  induction r with
  | zero => rfl
  | succ r ih => simp [List.replicate_succ, itProduct, List.length_flatMap, ih, pow_succ']

theorem getElem?_flatMap_const {α β : Type*} (f : α → List β) {m : ℕ} (hf : ∀ x, (f x).length = m) (l : List α) (i j : ℕ)
    (hj : j < m) : (l.flatMap f)[i * m + j]? = l[i]?.bind fun x => (f x)[j]? := by
  induction l generalizing i with
  | nil => simp
  | cons x l ih =>
    rw [List.flatMap_cons]
    cases i with
    | zero =>
      rw [Nat.zero_mul, Nat.zero_add, List.getElem?_append_left (by rw [hf]; exact hj)]
      rfl
    | succ i =>
      rw [List.getElem?_append_right (by rw [hf, Nat.succ_mul]; omega), hf,
        show (i + 1) * m + j - m = i * m + j by rw [Nat.succ_mul]; omega, ih]
      rfl

/-- The tuples come in lexicographic order. -/
theorem getElem?_itProduct {α : Type*} (l : List α) {r : ℕ} (I : Fin r → Fin l.length) :
    (itProduct (List.replicate r l))[∑ j : Fin r, (I j : ℕ) * l.length ^ (r - 1 - j)]? =
      some (List.ofFn fun j => l[I j]) := by
  induction r with
  | zero => simp [itProduct]
  | succ r ih =>
    rw [List.replicate_succ, itProduct, Fin.sum_univ_succ]
    have hlt : (∑ j : Fin r, (I j.succ : ℕ) * l.length ^ (r - 1 - j)) < l.length ^ r := by
      have := (List.getElem?_eq_some_iff.mp (ih fun j => I j.succ)).1
      rwa [length_itProduct] at this
    have he : ∀ j : Fin r, r + 1 - 1 - (j.succ : ℕ) = r - 1 - j := fun j => by simp; omega
    simp only [he]
    rw [show r + 1 - 1 - ((0 : Fin (r + 1)) : ℕ) = r by simp,
      getElem?_flatMap_const (m := l.length ^ r) _ (fun x => by rw [List.length_map, length_itProduct]) _ _ _ hlt]
    rw [List.getElem?_eq_getElem (I 0).2, Option.bind_some, List.getElem?_map, ih, Option.map_some, List.ofFn_succ]
    rfl

theorem mem_itProduct_length {α : Type*} (l : List α) {r : ℕ} {I : List α} (h : I ∈ itProduct (List.replicate r l)) :
    I.length = r := by
  induction r generalizing I with
  | zero => simp [itProduct] at h; simp [h]
  | succ r ih =>
    rw [List.replicate_succ, itProduct, List.mem_flatMap] at h
    obtain ⟨x, _, h⟩ := h
    obtain ⟨J, hJ, rfl⟩ := List.mem_map.mp h
    simp [ih hJ]

theorem comps_loop {α β : Type*} (w : ℕ → α → List ℕ → List β) (ndim : ℕ) (L : List ((α × List ℕ) × ℕ))
    (hL : ∀ p ∈ L, p.1.2 ≠ []) (s : ℕ × List β) :
    L.foldlM (fun (s : ℕ × List β) p => match p.1.2.getLast? with
      | none => none
      | some j =>
        let blank := if j % ndim = 0 then s.1 + 1 else s.1
        some (blank, s.2 ++ w p.2 p.1.1 p.1.2)) s =
      some (s.1 + L.countP (fun p => p.1.2.getLast?.any (· % ndim = 0)), s.2 ++ L.flatMap fun p => w p.2 p.1.1 p.1.2) := by
  induction L generalizing s with
  | nil => simp
  | cons p L ih =>
    obtain ⟨j, hj⟩ : ∃ j, p.1.2.getLast? = some j := by
      exact ⟨_, List.getLast?_eq_some_getLast (hL p (by simp))⟩
    rw [List.foldlM_cons, hj]
    simp only [Option.bind_eq_bind, Option.bind_some]
    rw [ih (fun q hq => hL q (by simp [hq]))]
    congr 1
    rw [List.countP_cons, List.flatMap_cons, hj]
    by_cases h : j % ndim = 0 <;> simp [h]; omega

theorem countP_itProduct {n : ℕ} (hn : 0 < n) (r : ℕ) :
    (itProduct (List.replicate (r + 1) (List.range n))).countP (fun I => I.getLast?.any (· % n = 0)) = n ^ r := by
  induction r with
  | zero =>
    have : itProduct (List.replicate 1 (List.range n)) = (List.range n).map fun i => [i] := by
      simp only [List.replicate_one, itProduct, List.map_cons, List.map_nil]
      induction List.range n <;> simp_all
    rw [this, List.countP_map]
    have : ∀ i ∈ List.range n, ((fun I : List ℕ => I.getLast?.any (· % n = 0)) ∘ fun i => [i]) i = (i == 0) := by
      intro i hi
      have := List.mem_range.mp hi
      simp [Nat.mod_eq_of_lt this]
      rfl
    rw [List.countP_congr (q := fun i => i == 0) (fun i hi => by rw [this i hi]), pow_zero]
    change List.count 0 (List.range n) = 1
    rw [List.count_range]
    simp [hn]
  | succ r ih =>
    rw [List.replicate_succ, itProduct, List.countP_flatMap]
    have : ∀ x, List.countP (fun I : List ℕ => I.getLast?.any (· % n = 0))
        ((itProduct (List.replicate (r + 1) (List.range n))).map (x :: ·)) = n ^ r := by
      intro x
      rw [List.countP_map, ← ih]
      refine List.countP_congr fun I hI => ?_
      have : I ≠ [] := by
        intro h
        have := mem_itProduct_length _ hI
        simp [h] at this
      obtain ⟨y, I, rfl⟩ := List.exists_cons_of_ne_nil this
      simp [List.getLast?_cons_cons]
    simp [Function.comp_def, this, pow_succ']

theorem zipIdx_map_countP {α β : Type*} (q : β → Bool) (f : α → β) : ∀ (L : List α) (k : ℕ),
    (L.zipIdx k).countP (fun p => q (f p.1)) = L.countP fun a => q (f a)
  | [], _ => rfl
  | a :: L, k => by simp [List.countP_cons, zipIdx_map_countP q f L]

end GA
