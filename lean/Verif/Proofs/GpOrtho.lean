import Verif.Proofs.Index
import Verif.Proofs.Clifford

/-! Correctness of the orthogonal geometric product of basis blades. -/

namespace GA
variable {n : ℕ}

/-- One step of the sorting loop when the current entry is larger than everything before it. -/
theorem gpSort_append_sorted (sgn : ℤ) (p l suf rep : List (Fin n)) (hp : p ≠ [])
    (h : (p.reverse ++ l).Pairwise (· < ·)) :
    gpSort sgn p (l ++ suf) rep = gpSort sgn (l.reverse ++ p) suf rep := by
  induction l generalizing p with
  | nil => simp
  | cons x l ih =>
    have hx : ∀ y ∈ p, y < x := by
      intro y hy
      rw [List.pairwise_append] at h
      exact h.2.2 y (by simpa using hy) x (by simp)
    obtain ⟨y, p', rfl⟩ := List.exists_cons_of_ne_nil hp
    have hy : y < x := hx y (by simp)
    have ht : shift x sgn (y :: p') [] = (sgn, [], y :: p') := by
      simp [shift, not_lt.mpr hy.le]
    rw [List.cons_append, gpSort]
    simp only [ht, prevEq, List.reverse_nil, List.nil_append]
    have : (y == x) = false := by simpa using hy.ne
    rw [this]
    simp only [Bool.false_eq_true, if_false]
    rw [ih (x :: y :: p') (by simp) (by simpa using h)]
    simp

theorem prevEq_true_mem {save : Fin n} {p suf : List (Fin n)} (hne : p ≠ [])
    (hsuf : (save :: suf).Pairwise (· < ·))
    (h : prevEq save (tw save p).reverse (dw save p) suf = true) : save ∈ p := by
  rcases prevEq_true_dup hne h with h | h
  · exact h
  · exact absurd ((List.pairwise_cons.mp hsuf).1 save h) (lt_irrefl _)

/-- The loop invariant of the sorting loop over a strictly increasing tail. -/
theorem gpSort_spec (sgn : ℤ) (p suf rep : List (Fin n)) (hp : p ≠ [])
    (hs : p.Pairwise (· ≥ ·)) (hsuf : suf.Pairwise (· < ·))
    (hcount : ∀ x, (p.reverse ++ suf).count x ≤ 2)
    (hrep : rep.Nodup) (hrep' : ∀ x, x ∈ rep ↔ 2 ≤ p.count x) :
    ∃ m rep', gpSort sgn p suf rep = (sgn * (-1) ^ inv (p.reverse ++ suf), m, rep') ∧
      m.Pairwise (· ≤ ·) ∧ m.Perm (p.reverse ++ suf) ∧ rep'.Nodup ∧
      ∀ x, x ∈ rep' ↔ 2 ≤ m.count x := by
  induction suf generalizing sgn p rep with
  | nil =>
    have hs' : p.reverse.Pairwise (· ≤ ·) := List.pairwise_reverse.mpr hs
    refine ⟨p.reverse, rep, ?_, hs', by simp, hrep, by simpa using hrep'⟩
    simp [gpSort, inv_sorted hs']
  | cons save suf ih =>
    simp only [gpSort, shift_eq, List.append_nil, List.reverse_reverse]
    have hperm := perm_insert save p suf
    have hpermp : (tw save p ++ save :: dw save p).Perm (save :: p) := by
      conv_rhs => rw [← tw_dw save p]
      exact List.perm_middle
    have hcnt : ∀ x, (tw save p ++ save :: dw save p).count x = (save :: p).count x :=
      fun x => hpermp.count_eq x
    have hc2 : ∀ x, p.count x + (save :: suf).count x ≤ 2 := by
      intro x; have := hcount x; simpa [List.count_append] using this
    have hstep := ih (sgn * (-1) ^ (tw save p).length) (tw save p ++ save :: dw save p)
    have hfin : ∀ rep₁ : List (Fin n), rep₁.Nodup →
        (∀ x, x ∈ rep₁ ↔ 2 ≤ (tw save p ++ save :: dw save p).count x) →
        ∃ m rep', gpSort (sgn * (-1) ^ (tw save p).length) (tw save p ++ save :: dw save p) suf rep₁ =
          (sgn * (-1) ^ inv (p.reverse ++ save :: suf), m, rep') ∧
          m.Pairwise (· ≤ ·) ∧ m.Perm (p.reverse ++ save :: suf) ∧ rep'.Nodup ∧
          ∀ x, x ∈ rep' ↔ 2 ≤ m.count x := by
      intro rep₁ hr1 hr2
      obtain ⟨m, rep', h1, h2, h3, h4, h5⟩ := hstep rep₁ (by simp) (sorted_insert hs)
        (List.pairwise_cons.mp hsuf).2 (fun x => by rw [hperm.count_eq]; exact hcount x) hr1 hr2
      refine ⟨m, rep', ?_, h2, h3.trans hperm, h4, h5⟩
      rw [h1, inv_insert save p suf, pow_add]
      congr 1
      ring
    by_cases hq : prevEq save (tw save p).reverse (dw save p) suf = true
    · rw [if_pos hq]
      have hmem := prevEq_true_mem hp hsuf hq
      have h1 : p.count save = 1 := by
        have h2 := hc2 save
        have h3 : 0 < p.count save := List.count_pos_iff.mpr hmem
        simp only [List.count_cons_self] at h2
        omega
      apply hfin
      · rw [List.nodup_append]
        refine ⟨hrep, by simp, ?_⟩
        intro x hx y hy
        rw [List.mem_singleton] at hy
        rintro rfl
        rw [hrep' x, hy, h1] at hx
        omega
      · intro x
        rw [hcnt, List.mem_append, List.mem_singleton, hrep' x, List.count_cons]
        by_cases hx : x = save
        · subst hx; simp [h1]
        · have : (save == x) = false := by simpa using Ne.symm hx
          simp [hx, this]
    · rw [if_neg hq]
      have hnm := prevEq_false_not_mem hs (by simpa using hq)
      have h0 : p.count save = 0 := List.count_eq_zero.mpr hnm
      apply hfin _ hrep
      intro x
      rw [hcnt, hrep' x, List.count_cons]
      by_cases hx : x = save
      · subst hx; simp [h0]
      · have : (save == x) = false := by simpa using Ne.symm hx
        simp [this]

/-- The whole sorting phase on the concatenation of two basis blades. -/
theorem gpSortStart_spec (I J : List (Fin n)) (hI : I.Pairwise (· < ·)) (hJ : J.Pairwise (· < ·)) :
    ∃ m rep, gpSortStart (I ++ J) = ((-1) ^ inv (I ++ J), m, rep) ∧
      m.Pairwise (· ≤ ·) ∧ m.Perm (I ++ J) ∧ rep.Nodup ∧
      (∀ x, x ∈ rep ↔ 2 ≤ m.count x) ∧ (∀ x, m.count x ≤ 2) := by
  have hc : ∀ x, (I ++ J).count x ≤ 2 := by
    intro x
    have h1 := List.nodup_iff_count_le_one.mp (nodup_of_lt hI) x
    have h2 := List.nodup_iff_count_le_one.mp (nodup_of_lt hJ) x
    rw [List.count_append]; omega
  suffices h : ∃ m rep, gpSortStart (I ++ J) = ((-1) ^ inv (I ++ J), m, rep) ∧
      m.Pairwise (· ≤ ·) ∧ m.Perm (I ++ J) ∧ rep.Nodup ∧ (∀ x, x ∈ rep ↔ 2 ≤ m.count x) by
    obtain ⟨m, rep, h1, h2, h3, h4, h5⟩ := h
    exact ⟨m, rep, h1, h2, h3, h4, h5, fun x => by rw [h3.count_eq]; exact hc x⟩
  cases I with
  | nil =>
    cases J with
    | nil => exact ⟨[], [], by simp [gpSortStart, inv]⟩
    | cons y J =>
      obtain ⟨m, rep, h⟩ := gpSort_spec 1 [y] J [] (by simp) (by simp)
        (List.pairwise_cons.mp hJ).2 (by simpa using hc) (by simp) (by
          intro x
          have : [y].count x ≤ 1 := by simpa using List.count_le_length (a := x) (l := [y])
          constructor
          · intro h; simp at h
          · intro h; omega)
      exact ⟨m, rep, by simpa [gpSortStart] using h⟩
  | cons x I =>
    have hstart : gpSortStart (x :: I ++ J) = gpSort 1 (I.reverse ++ [x]) J [] := by
      simp only [List.cons_append, gpSortStart]
      exact gpSort_append_sorted 1 [x] I J [] (by simp) (by simpa using hI)
    have hrev : (I.reverse ++ [x]).reverse = x :: I := by simp
    have hnd : ∀ z, (I.reverse ++ [x]).count z ≤ 1 := by
      intro z
      rw [← List.count_reverse, hrev]
      exact List.nodup_iff_count_le_one.mp (nodup_of_lt hI) z
    obtain ⟨m, rep, h⟩ := gpSort_spec 1 (I.reverse ++ [x]) J [] (by simp) (by
        rw [← List.pairwise_reverse, hrev]; exact hI.imp (fun h => h.le)) hJ
        (by rw [hrev]; exact hc) (by simp) (by
          intro z; have := hnd z; simp only [List.not_mem_nil, false_iff]; omega)
    rw [hrev] at h
    rw [hstart]
    exact ⟨m, rep, by simpa using h⟩

/-- Removing an adjacent equal pair from a sorted product. -/
theorem prod_erase_pair {R A : Type*} [CommRing R] [Ring A] [Algebra R A] (f : Fin n → A)
    (q : Fin n → R) (hsq : ∀ i, f i * f i = algebraMap R A (q i)) (l : List (Fin n)) (i : Fin n)
    (hl : l.Pairwise (· ≤ ·)) (hi : 2 ≤ l.count i) :
    (l.map f).prod = q i • (((l.erase i).erase i).map f).prod := by
  induction l with
  | nil => simp at hi
  | cons x l ih =>
    rw [List.pairwise_cons] at hl
    by_cases hx : x = i
    · subst hx
      have h1 : 0 < l.count x := by rw [List.count_cons_self] at hi; omega
      have hmem := List.count_pos_iff.mp h1
      cases l with
      | nil => simp at hmem
      | cons y l =>
        have hy : y = x := by
          rcases List.mem_cons.mp hmem with h | h
          · exact h.symm
          · exact le_antisymm ((List.pairwise_cons.mp hl.2).1 x h) (hl.1 y (by simp))
        subst hy
        simp [← mul_assoc, hsq, Algebra.smul_def]
    · have hx' : (x == i) = false := by simpa using hx
      have h1 : 2 ≤ l.count i := by simpa [List.count_cons, hx'] using hi
      simp only [List.erase_cons, hx', Bool.false_eq_true, if_false, List.map_cons,
        List.prod_cons]
      rw [ih hl.2 h1, mul_smul_comm]

/-- The contraction phase never fails and removes exactly the repeated indices. -/
theorem gpContract_spec {R A : Type*} [CommRing R] [Ring A] [Algebra R A]
    (g : Matrix (Fin n) (Fin n) R) (f : Fin n → A)
    (hsq : ∀ i, f i * f i = algebraMap R A (g i i)) (rep : List (Fin n)) :
    ∀ (c : R) (m : List (Fin n)), m.Pairwise (· ≤ ·) → rep.Nodup →
      (∀ x, x ∈ rep ↔ 2 ≤ m.count x) → (∀ x, m.count x ≤ 2) →
      ∃ c' K, gpContract g c m rep = some (c', K) ∧ K.Pairwise (· < ·) ∧
        c • (m.map f).prod = c' • (K.map f).prod ∧
        ∀ x, x ∈ K ↔ m.count x = 1 := by
  induction rep with
  | nil =>
    intro c m hm _ hr hc
    have hcnt : ∀ x, m.count x ≤ 1 := by
      intro x
      by_contra h
      have : x ∈ ([] : List (Fin n)) := (hr x).mpr (by omega)
      simp at this
    have hnd : m.Nodup := List.nodup_iff_count_le_one.mpr hcnt
    refine ⟨c, m, rfl, (hm.and hnd).imp (fun h => lt_of_le_of_ne h.1 h.2), rfl, ?_⟩
    intro x
    rw [← List.count_pos_iff]
    have := hcnt x
    omega
  | cons i rep ih =>
    intro c m hm hnd hr hc
    have hi : m.count i = 2 := le_antisymm (hc i) ((hr i).mp (by simp))
    have h1 : i ∈ m := List.count_pos_iff.mp (by omega)
    have h2 : i ∈ m.erase i := List.count_pos_iff.mp (by rw [List.count_erase_self]; omega)
    rw [List.nodup_cons] at hnd
    have hcnt : ∀ x, ((m.erase i).erase i).count x = if x = i then 0 else m.count x := by
      intro x
      by_cases hx : x = i
      · subst hx; simp [List.count_erase_self, hi]
      · rw [if_neg hx, List.count_erase_of_ne hx, List.count_erase_of_ne hx]
    obtain ⟨c', K, e1, e2, e3, e4⟩ := ih (c * g i i) ((m.erase i).erase i)
      (hm.sublist ((List.erase_sublist).trans List.erase_sublist)) hnd.2 (by
        intro x
        rw [hcnt]
        by_cases hx : x = i
        · subst hx; simp [hnd.1]
        · rw [if_neg hx, ← hr x, List.mem_cons]; simp [hx]) (by
        intro x; rw [hcnt]; split_ifs
        · omega
        · exact hc x)
    refine ⟨c', K, ?_, e2, ?_, ?_⟩
    · rw [gpContract, if_pos h1, if_pos h2, e1]
    · rw [← e3, prod_erase_pair f (fun i => g i i) hsq m i hm (by omega), smul_smul]
    · intro x
      rw [e4, hcnt]
      by_cases hx : x = i
      · subst hx; simp [hi]
      · rw [if_neg hx]

/-- The orthogonal geometric product of two basis blades: never raises, gives a basis blade, and
is the product in any algebra generated by anticommuting elements with the metric's squares. -/
theorem gpOrtho_spec {R A : Type*} [CommRing R] [Ring A] [Algebra R A]
    (g : Matrix (Fin n) (Fin n) R) (f : Fin n → A)
    (hf : ∀ i j, i ≠ j → f i * f j = -(f j * f i))
    (hsq : ∀ i, f i * f i = algebraMap R A (g i i))
    (I J : List (Fin n)) (hI : I.Pairwise (· < ·)) (hJ : J.Pairwise (· < ·)) :
    ∃ c K, gpOrtho g I J = some (c, K) ∧ K.Pairwise (· < ·) ∧
      (I.map f).prod * (J.map f).prod = c • (K.map f).prod ∧
      ∀ x, x ∈ K ↔ Xor (x ∈ I) (x ∈ J) := by
  obtain ⟨m, rep, h1, h2, h3, h4, h5, h6⟩ := gpSortStart_spec I J hI hJ
  obtain ⟨c, K, e1, e2, e3, e4⟩ :=
    gpContract_spec g f hsq rep (((-1) ^ inv (I ++ J) : ℤ) : R) m h2 h4 h5 h6
  refine ⟨c, K, by simp only [gpOrtho, h1]; exact e1, e2, ?_, ?_⟩
  · rw [← e3, ← List.prod_append, ← List.map_append, prod_eq_sorted f hf (I ++ J) m h2 h3]
    rw [Algebra.smul_def]
    simp
  · intro x
    rw [e4, h3.count_eq, List.count_append]
    have a1 := List.nodup_iff_count_le_one.mp (nodup_of_lt hI) x
    have a2 := List.nodup_iff_count_le_one.mp (nodup_of_lt hJ) x
    rw [← List.count_pos_iff (l := I), ← List.count_pos_iff (l := J), xor_def]
    omega

end GA
