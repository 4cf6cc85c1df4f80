import Verif.Proofs.Index
import Mathlib.Tactic.Abel
import Mathlib.Algebra.Algebra.Basic
import Mathlib.LinearAlgebra.Matrix.Symmetric
import Mathlib.Tactic.NoncommRing

/-! `reduce_basis` preserves the product and ends in normal form. -/

namespace GA
variable {n : ℕ} {R : Type*} [CommRing R] {A : Type*} [Ring A] [Algebra R A]

section
variable (g : Matrix (Fin n) (Fin n) R) (f : Fin n → A)
  (hsq : ∀ i, f i * f i = algebraMap R A (g i i))
  (hsw : ∀ i j, f i * f j + f j * f i = algebraMap R A (2 * g i j))

include hsq hsw in
theorem reduceScan_spec (p q : List (Fin n)) (hp : p.Pairwise (· > ·)) :
    match reduceScan g p q with
    | .done => (p.reverse ++ q).Pairwise (· < ·)
    | .contracted a b flg =>
      ((p.reverse ++ q).map f).prod = a • (b.map f).prod ∧ (flg = true → b.Pairwise (· < ·))
    | .revised a1 b1 flg1 b =>
      ((p.reverse ++ q).map f).prod = a1 • (b1.map f).prod - (b.map f).prod ∧
        (flg1 = true → b1.Pairwise (· < ·)) := by
  have short : ∀ l : List (Fin n), l.length ≤ 1 → l.Pairwise (· < ·) := by
    intro l hl
    match l, hl with
    | [], _ => simp
    | [a], _ => simp
  fun_induction reduceScan g p q with
  | case1 p => simpa [List.pairwise_reverse] using hp
  | case2 y q ih => simpa using ih (by simp)
  | case3 p y q =>
    have hp' : p.reverse.Pairwise (· < ·) := List.pairwise_reverse.mpr (List.pairwise_cons.mp hp).2
    refine ⟨?_, ?_⟩
    · simp only [List.reverse_cons, List.append_assoc, List.cons_append, List.nil_append,
        List.map_append, List.map_cons, List.prod_append, List.prod_cons]
      rw [← mul_assoc (f y), hsq, Algebra.smul_def, ← mul_assoc, ← Algebra.commutes, mul_assoc]
    · intro h
      rw [Bool.or_eq_true, decide_eq_true_eq, decide_eq_true_eq] at h
      rcases h with h | h
      · exact short _ h
      · subst h; simpa using hp'
  | case4 x p y q hne hgt =>
    refine ⟨?_, fun h => short _ (by simpa using h)⟩
    simp only [List.reverse_cons, List.append_assoc, List.cons_append, List.nil_append,
      List.map_append, List.map_cons, List.prod_append, List.prod_cons]
    have h := hsw y x
    rw [Algebra.smul_def, eq_sub_iff_add_eq, ← h]
    have hc : (f y * f x + f x * f y) * ((p.reverse.map f).prod * (q.map f).prod) =
        (p.reverse.map f).prod * ((f y * f x + f x * f y) * (q.map f).prod) := by
      rw [h, ← mul_assoc, Algebra.commutes, mul_assoc]
    rw [hc]
    noncomm_ring
  | case5 x p y q hne hngt ih =>
    have hxy : x < y := lt_of_le_of_ne (not_lt.mp hngt) hne
    have hp2 : (y :: x :: p).Pairwise (· > ·) := by
      refine List.pairwise_cons.mpr ⟨?_, hp⟩
      intro a ha
      rcases List.mem_cons.mp ha with rfl | ha
      · exact hxy
      · exact lt_trans ((List.pairwise_cons.mp hp).1 a ha) hxy
    simpa using ih hp2

/-- Value of a list of entries. -/
def entriesVal (st : List (Entry n R)) : A := (st.map fun en => en.coef • (en.expand.map f).prod).sum

/-- Flagged entries are in normal order. -/
def EntryOk (en : Entry n R) : Prop := en.flg = true → en.expand.Pairwise (· < ·)

include hsq hsw in
theorem reviseEntry_spec (en : Entry n R) (h : EntryOk en) :
    en.coef • (en.expand.map f).prod =
      entriesVal f ((reviseEntry g en).1 :: (reviseEntry g en).2) ∧
    EntryOk (reviseEntry g en).1 ∧ ∀ e ∈ (reviseEntry g en).2, EntryOk e := by
  unfold reviseEntry
  split_ifs with hf
  · simpa [entriesVal] using h
  · rw [reduceBasisLoop]
    split_ifs with hl
    · simp only [entriesVal]
      refine ⟨by simp, ?_, by simp⟩
      intro _
      match hh : en.expand, hl with
      | [], _ => simp
      | [a], _ => simp
    · have := reduceScan_spec g f hsq hsw [] en.expand (by simp)
      match hr : reduceScan g [] en.expand with
      | .done =>
        rw [hr] at this
        exact ⟨by simp [entriesVal], fun _ => by simpa using this, by simp⟩
      | .contracted a b flg =>
        rw [hr] at this
        simp only [List.reverse_nil, List.nil_append] at this
        refine ⟨?_, this.2, by simp⟩
        simp [entriesVal, this.1, mul_smul, smul_comm a]
      | .revised a1 b1 flg1 b =>
        rw [hr] at this
        simp only [List.reverse_nil, List.nil_append] at this
        refine ⟨?_, fun h => by simp at h, ?_⟩
        · simp only [entriesVal, this.1, List.map_cons, List.map_nil, List.sum_cons, List.sum_nil,
            add_zero, neg_neg, smul_sub, mul_smul, neg_smul]
          abel
        · intro e he
          rw [List.mem_singleton] at he
          subst he
          exact this.2

theorem entriesVal_append (s t : List (Entry n R)) :
    entriesVal f (s ++ t) = entriesVal f s + entriesVal f t := by simp [entriesVal]

include hsq hsw in
theorem reviseRound_spec (st : List (Entry n R)) (h : ∀ en ∈ st, EntryOk en) :
    entriesVal f (reviseRound g st) = entriesVal f st ∧ ∀ en ∈ reviseRound g st, EntryOk en := by
  constructor
  · rw [reviseRound, entriesVal_append]
    induction st with
    | nil => simp [entriesVal]
    | cons en st ih =>
      have h1 := (reviseEntry_spec g f hsq hsw en (h en (by simp))).1
      have h2 := ih fun e he => h e (by simp [he])
      rw [List.flatMap_cons, entriesVal_append]
      simp only [entriesVal, List.map_cons, List.sum_cons] at h1 h2 ⊢
      rw [h1, ← h2]
      abel
  · intro e he
    rcases List.mem_append.mp he with he | he
    · obtain ⟨en, hen, rfl⟩ := List.mem_map.mp he
      exact (reviseEntry_spec g f hsq hsw en (h en hen)).2.1
    · obtain ⟨en, hen, he⟩ := List.mem_flatMap.mp he
      exact (reviseEntry_spec g f hsq hsw en (h en hen)).2.2 e he

include hsq hsw in
theorem reduceRounds_spec (st : List (Entry n R)) (h : ∀ en ∈ st, EntryOk en) :
    entriesVal f (reduceRounds g st) = entriesVal f st ∧
      ∀ en ∈ reduceRounds g st, en.expand.Pairwise (· < ·) := by
  fun_induction reduceRounds g st with
  | case1 st hall =>
    refine ⟨rfl, fun en hen => h en hen ?_⟩
    exact (List.all_eq_true.mp hall) en hen
  | case2 st hall ih =>
    obtain ⟨h1, h2⟩ := reviseRound_spec g f hsq hsw st h
    obtain ⟨h3, h4⟩ := ih h2
    exact ⟨h3.trans h1, h4⟩

end

/-! ### Only indices of the input occur -/

theorem reduceScan_subperm (g : Matrix (Fin n) (Fin n) R) (p q : List (Fin n)) :
    match reduceScan g p q with
    | .done => True
    | .contracted _ b _ => b.Subperm (p.reverse ++ q)
    | .revised _ b1 _ b => b1.Subperm (p.reverse ++ q) ∧ b.Subperm (p.reverse ++ q) := by
  fun_induction reduceScan g p q with
  | case1 p => trivial
  | case2 y q ih => simpa using ih
  | case3 p y q =>
    refine List.Sublist.subperm ?_
    simp only [List.reverse_cons, List.append_assoc, List.cons_append, List.nil_append]
    exact List.Sublist.append_left (by simp) _
  | case4 x p y q hne hgt =>
    simp only [List.reverse_cons, List.append_assoc, List.cons_append, List.nil_append]
    exact ⟨List.Sublist.subperm (List.Sublist.append_left (by simp) _),
      (List.Perm.append_left _ (List.Perm.swap x y q)).subperm⟩
  | case5 x p y q hne hngt ih => simpa using ih

theorem reviseEntry_subperm (g : Matrix (Fin n) (Fin n) R) (en : Entry n R) :
    (reviseEntry g en).1.expand.Subperm en.expand ∧
      ∀ e ∈ (reviseEntry g en).2, e.expand.Subperm en.expand := by
  unfold reviseEntry
  split_ifs with hf
  · simp [List.Subperm.refl]
  · rw [reduceBasisLoop]
    split_ifs with hl
    · simp [List.Subperm.refl]
    · have := reduceScan_subperm g [] en.expand
      match hr : reduceScan g [] en.expand with
      | .done => simp [List.Subperm.refl]
      | .contracted a b flg => rw [hr] at this; simpa using this
      | .revised a1 b1 flg1 b => rw [hr] at this; simpa using this.symm

theorem reduceRounds_subperm (g : Matrix (Fin n) (Fin n) R) (st : List (Entry n R))
    (l : List (Fin n)) (h : ∀ en ∈ st, en.expand.Subperm l) :
    ∀ en ∈ reduceRounds g st, en.expand.Subperm l := by
  fun_induction reduceRounds g st with
  | case1 st hall => exact h
  | case2 st hall ih =>
    refine ih fun e he => ?_
    rcases List.mem_append.mp he with he | he
    · obtain ⟨en, hen, rfl⟩ := List.mem_map.mp he
      exact (reviseEntry_subperm g en).1.trans (h en hen)
    · obtain ⟨en, hen, he⟩ := List.mem_flatMap.mp he
      exact ((reviseEntry_subperm g en).2 e he).trans (h en hen)

/-! ### Collecting equal lists -/

section gather
variable {α : Type*} [DecidableEq α] {M : Type*} [AddCommGroup M] [Module R M]

theorem addCoef_sum (φ : α → M) (c : R) (x : α) (l : List (R × α)) :
    ((addCoef c x l).map fun t => t.1 • φ t.2).sum = (l.map fun t => t.1 • φ t.2).sum + c • φ x := by
  induction l with
  | nil => simp [addCoef]
  | cons t l ih =>
    obtain ⟨d, y⟩ := t
    simp only [addCoef]
    split_ifs with h
    · subst h; simp [add_smul]; abel
    · simp [ih]; abel

theorem gather_sum (φ : α → M) (l : List (R × α)) :
    ((gather l).map fun t => t.1 • φ t.2).sum = (l.map fun t => t.1 • φ t.2).sum := by
  have : ∀ acc : List (R × α),
      ((l.foldl (fun acc t => addCoef t.1 t.2 acc) acc).map fun t => t.1 • φ t.2).sum =
        (acc.map fun t => t.1 • φ t.2).sum + (l.map fun t => t.1 • φ t.2).sum := by
    induction l with
    | nil => simp
    | cons t l ih => intro acc; rw [List.foldl_cons, ih, addCoef_sum]; simp; abel
  rw [gather, this]; simp

theorem addCoef_keys (c : R) (x : α) (l : List (R × α)) :
    (addCoef c x l).map Prod.snd =
      if x ∈ l.map Prod.snd then l.map Prod.snd else l.map Prod.snd ++ [x] := by
  induction l with
  | nil => simp [addCoef]
  | cons t l ih =>
    obtain ⟨d, y⟩ := t
    simp only [addCoef]
    split_ifs with h1 h2 h2
    · rfl
    · exact absurd (by simp [h1]) h2
    · rw [List.map_cons, ih, if_pos]
      · rfl
      · simpa [Ne.symm h1] using h2
    · rw [List.map_cons, ih, if_neg]
      · rfl
      · intro h; exact h2 (by simp only [List.map_cons, List.mem_cons]; exact Or.inr h)

theorem gather_keys (l : List (R × α)) :
    ((gather l).map Prod.snd).Nodup ∧ ∀ x, x ∈ (gather l).map Prod.snd ↔ x ∈ l.map Prod.snd := by
  have : ∀ acc : List (R × α), (acc.map Prod.snd).Nodup →
      ((l.foldl (fun acc t => addCoef t.1 t.2 acc) acc).map Prod.snd).Nodup ∧
      ∀ x, x ∈ (l.foldl (fun acc t => addCoef t.1 t.2 acc) acc).map Prod.snd ↔
        x ∈ acc.map Prod.snd ∨ x ∈ l.map Prod.snd := by
    induction l with
    | nil => intro acc h; exact ⟨h, by simp⟩
    | cons t l ih =>
      intro acc h
      have hn : ((addCoef t.1 t.2 acc).map Prod.snd).Nodup := by
        rw [addCoef_keys]
        split_ifs with hx
        · exact h
        · rw [List.nodup_append]
          refine ⟨h, by simp, ?_⟩
          intro a ha b hb
          rw [List.mem_singleton] at hb
          subst hb
          rintro rfl
          exact hx ha
      obtain ⟨h1, h2⟩ := ih _ hn
      refine ⟨h1, fun x => (h2 x).trans ?_⟩
      rw [addCoef_keys]
      split_ifs with hx
      · rw [List.map_cons, List.mem_cons]
        constructor
        · rintro (h | h)
          · exact Or.inl h
          · exact Or.inr (Or.inr h)
        · rintro (h | rfl | h)
          · exact Or.inl h
          · exact Or.inl hx
          · exact Or.inr h
      · rw [List.map_cons, List.mem_cons, List.mem_append, List.mem_singleton]
        tauto
  have := this [] (by simp)
  simpa [gather] using this

end gather

/-- Correctness of `reduce_basis`. -/
theorem reduceBasis_spec (g : Matrix (Fin n) (Fin n) R) (f : Fin n → A)
    (hsq : ∀ i, f i * f i = algebraMap R A (g i i))
    (hsw : ∀ i j, f i * f j + f j * f i = algebraMap R A (2 * g i j)) (l : List (Fin n)) :
    ((reduceBasis g l).map fun t => t.1 • (t.2.map f).prod).sum = (l.map f).prod ∧
    (∀ t ∈ reduceBasis g l, t.2.Pairwise (· < ·)) ∧
    (∀ t ∈ reduceBasis g l, t.2.Subperm l) ∧
    ((reduceBasis g l).map Prod.snd).Nodup := by
  rw [reduceBasis]
  split_ifs with h
  · subst h; simp
  · have h0 : ∀ en ∈ [(⟨1, l, false⟩ : Entry n R)], EntryOk en := by
      intro en hen
      rw [List.mem_singleton] at hen
      subst hen
      intro h
      simp at h
    obtain ⟨h1, h2⟩ := reduceRounds_spec g f hsq hsw [⟨1, l, false⟩] h0
    have h3 := reduceRounds_subperm g [⟨1, l, false⟩] l (by simp [List.Subperm.refl])
    have hk := gather_keys ((reduceRounds g [⟨1, l, false⟩]).map fun en => (en.coef, en.expand))
    have hmem : ∀ t ∈ gather ((reduceRounds g [⟨1, l, false⟩]).map fun en => (en.coef, en.expand)),
        ∃ en ∈ reduceRounds g [⟨1, l, false⟩], en.expand = t.2 := by
      intro t ht
      have := (hk.2 t.2).mp (List.mem_map_of_mem ht)
      simpa using this
    refine ⟨?_, ?_, ?_, hk.1⟩
    · rw [gather_sum (fun x : List (Fin n) => (x.map f).prod), List.map_map]
      simp only [entriesVal] at h1
      simpa [Function.comp_def] using h1
    · intro t ht
      obtain ⟨en, hen, h⟩ := hmem t ht
      rw [← h]; exact h2 en hen
    · intro t ht
      obtain ⟨en, hen, h⟩ := hmem t ht
      rw [← h]; exact h3 en hen

end GA
