import Verif.Props.C48
import Mathlib.Algebra.Polynomial.Derivative

/-!
# C56: metric strings; C62: vector manifolds

`metricString dot rat s = some M` says that a metric string `s` is accepted and gives the metric tensor
`M`; `dot i j` is the symbol for `e_i.e_j` and `rat` the conversion of a string to a rational number.
-/

set_option linter.unusedSectionVars false
set_option maxRecDepth 10000

namespace GA
variable {n : ℕ} {K : Type*}

/-! ### Specification: what one entry of a metric string stands for -/

/-- `#` stands for the symbol of the inner product of the two basis vectors, the same symbol for `i, j`
and `j, i`; everything else for a number. -/
def EntryMeans (dot : Fin n → Fin n → K) (rat : List Char → Option K) (tok : List Char)
    (i j : Fin n) (x : K) : Prop :=
  (tok = ['#'] ∧ x = dot (min i j) (max i j)) ∨ (tok ≠ ['#'] ∧ rat tok = some x)

theorem metricElement_eq {dot : Fin n → Fin n → K} {rat : List Char → Option K} {tok : List Char}
    {i j : Fin n} {x : K} : metricElement dot rat tok i j = some x ↔ EntryMeans dot rat tok i j x := by
  rw [metricElement, EntryMeans]
  by_cases h : tok = ['#']
  · rw [if_pos h]
    simp only [h, true_and, ne_eq, not_true_eq_false, false_and, or_false, Option.some.injEq]
    by_cases hij : i ≤ j
    · rw [if_pos hij, min_eq_left hij, max_eq_right hij, eq_comm]
    · rw [if_neg hij, min_eq_right (le_of_not_ge hij), max_eq_left (le_of_not_ge hij), eq_comm]
  · rw [if_neg h]
    simp [h]

theorem mapM_isSome {α β : Type*} {f : α → Option β} : ∀ {l : List α} {d : List β},
    l.mapM f = some d → ∀ a ∈ l, (f a).isSome = true
  | [], _, _, _, ha => by simp at ha
  | x :: l, d, h, a, ha => by
    rw [List.mapM_cons] at h
    cases hx : f x with
    | none => rw [hx] at h; cases h
    | some b =>
      cases hl : l.mapM f with
      | none => rw [hx, hl] at h; cases h
      | some bs =>
        rcases List.mem_cons.mp ha with rfl | ha
        · rw [hx]; rfl
        · exact mapM_isSome hl a ha

theorem mapM_finRange {β : Type*} {f : Fin n → Option β} {d : List β} :
    (List.finRange n).mapM f = some d ↔ ∃ h : Fin n → β, (∀ i, f i = some (h i)) ∧ d = List.ofFn h := by
  have key : ∀ h : Fin n → β, (∀ i, f i = some (h i)) → (List.finRange n).mapM f = some (List.ofFn h) :=
    fun h h1 => by rw [mapM_eq_some_map fun i _ => h1 i, List.ofFn_eq_map]
  constructor
  · intro e
    have h1 := fun i => mapM_isSome e i (List.mem_finRange i)
    refine ⟨fun i => (f i).get (h1 i), fun i => by simp, ?_⟩
    have := key (fun i => (f i).get (h1 i)) fun i => by simp
    rw [e] at this
    exact Option.some.inj this
  · rintro ⟨h, h1, rfl⟩
    exact key h h1

theorem joinWith_splitOn (c : Char) (s : List Char) : joinWith c (splitOn c s) = s := by
  induction s with
  | nil => rfl
  | cons x s ih =>
    rw [splitOn]
    split_ifs with h
    · subst h
      cases hs : splitOn x s with
      | nil => exact absurd hs (splitOn_ne_nil x s)
      | cons w ws =>
        rw [hs] at ih
        rw [joinWith]
        · rw [ih]; rfl
        · simp
    · cases hs : splitOn c s with
      | nil => exact absurd hs (splitOn_ne_nil c s)
      | cons w ws =>
        rw [hs] at ih
        cases ws with
        | nil => simpa [joinWith] using ih
        | cons v vs =>
          rw [joinWith] at ih ⊢
          · rw [← ih]; rfl
          · simp
          · simp

theorem mem_splitOn {c x : Char} {s w : List Char} (hw : w ∈ splitOn c s) (hx : x ∈ w) : x ≠ c := by
  induction s generalizing w with
  | nil => simp [splitOn] at hw; subst hw; simp at hx
  | cons y s ih =>
    rw [splitOn] at hw
    split_ifs at hw with h
    · rcases List.mem_cons.mp hw with rfl | hw
      · simp at hx
      · exact ih hw hx
    · cases hs : splitOn c s with
      | nil => exact absurd hs (splitOn_ne_nil c s)
      | cons v vs =>
        rw [hs] at hw ih
        rcases List.mem_cons.mp hw with rfl | hw
        · rcases List.mem_cons.mp hx with rfl | hx
          · exact h
          · exact ih (by simp) hx
        · exact ih (by simp [hw]) hx

/-! ### `strip` -/

theorem dropWhile_blank (s : List Char) : ∃ a, s = List.replicate a ' ' ++ s.dropWhile (· = ' ') := by
  induction s with
  | nil => exact ⟨0, rfl⟩
  | cons x s ih =>
    by_cases h : x = ' '
    · obtain ⟨a, ha⟩ := ih
      refine ⟨a + 1, ?_⟩
      rw [List.dropWhile_cons_of_pos (by simpa using h), List.replicate_succ, List.cons_append, ← ha, h]
    · exact ⟨0, by rw [List.dropWhile_cons_of_neg (by simpa using h)]; rfl⟩

/-- `strip` only removes blanks at both ends. -/
theorem strip_eq (s : List Char) :
    ∃ a b, s = List.replicate a ' ' ++ strip s ++ List.replicate b ' ' := by
  obtain ⟨a, ha⟩ := dropWhile_blank s
  obtain ⟨b, hb⟩ := dropWhile_blank (s.dropWhile (· = ' ')).reverse
  refine ⟨a, b, ?_⟩
  have hb' := congrArg List.reverse hb
  rw [List.reverse_reverse, List.reverse_append, List.reverse_replicate] at hb'
  rw [strip, List.append_assoc, ← hb', ← ha]

theorem dropWhile_replicate (a : ℕ) (s : List Char) :
    (List.replicate a ' ' ++ s).dropWhile (· = ' ') = s.dropWhile (· = ' ') := by
  induction a with
  | zero => rfl
  | succ a ih => rw [List.replicate_succ, List.cons_append, List.dropWhile_cons_of_pos (by simp), ih]

theorem dropWhile_of_head {s : List Char} (h : s.head? ≠ some ' ') : s.dropWhile (· = ' ') = s := by
  cases s with
  | nil => rfl
  | cons x s => rw [List.dropWhile_cons_of_neg]; simpa using h

/-- … and all of them. -/
theorem strip_pad {s : List Char} (h1 : s.head? ≠ some ' ') (h2 : s.getLast? ≠ some ' ') (a b : ℕ) :
    strip (List.replicate a ' ' ++ s ++ List.replicate b ' ') = s := by
  rw [strip, List.append_assoc, dropWhile_replicate]
  by_cases hs : s = []
  · subst hs
    have := dropWhile_replicate b []
    simp only [List.append_nil] at this
    rw [List.nil_append, this]
    rfl
  · have h3 : (s ++ List.replicate b ' ').head? ≠ some ' ' := by rwa [List.head?_append_of_ne_nil _ hs]
    rw [dropWhile_of_head h3, List.reverse_append,
      List.reverse_replicate, dropWhile_replicate, dropWhile_of_head (by rwa [List.head?_reverse]),
      List.reverse_reverse]

theorem head?_joinWith {c : Char} : ∀ {l : List (List Char)}, (∀ w ∈ l, w ≠ []) →
    (joinWith c l).head? = l.head?.bind List.head?
  | [], _ => rfl
  | [w], _ => by simp [joinWith]
  | w :: w' :: l, h => by
    rw [joinWith, List.head?_append_of_ne_nil _ (h w (by simp))]
    · rfl
    · simp

theorem getLast?_joinWith {c : Char} : ∀ {l : List (List Char)}, (∀ w ∈ l, w ≠ []) →
    (joinWith c l).getLast? = l.getLast?.bind List.getLast?
  | [], _ => rfl
  | [w], _ => by simp [joinWith]
  | w :: w' :: l, h => by
    have ih := getLast?_joinWith (c := c) (l := w' :: l) fun x hx => h x (List.mem_cons_of_mem _ hx)
    rw [joinWith]
    · have hne : joinWith c (w' :: l) ≠ [] := by
        intro h0
        have h3 : w' ≠ [] := h w' (by simp)
        cases l with
        | nil => exact h3 (by simpa [joinWith] using h0)
        | cons v vs =>
          rw [joinWith] at h0
          · simp at h0
          · simp
      rw [List.getLast?_append_of_ne_nil _ (by simp), List.getLast?_cons_of_ne_nil hne, ih]
      simp
    · simp

/-! ### The theorems -/

section
variable [Zero K] {dot : Fin n → Fin n → K} {rat : List Char → Option K}

/-- C56: a single row of `n` entries gives a diagonal metric. -/
theorem C56_single_row (hn : 0 < n) {tok : Fin n → List Char}
    (ht : ∀ i, ',' ∉ tok i ∧ ' ' ∉ tok i) (M : Matrix (Fin n) (Fin n) K) :
    metricString dot rat (joinWith ' ' (List.ofFn tok)) = some M ↔
      (∀ i, EntryMeans dot rat (tok i) i i (M i i)) ∧ ∀ i j, i ≠ j → M i j = 0 := by
  have h1 : splitOn ' ' (joinWith ' ' (List.ofFn tok)) = List.ofFn tok := by
    refine splitOn_joinWith ?_ ?_
    · rw [ne_eq, List.ofFn_eq_nil_iff]; omega
    · intro w hw
      obtain ⟨i, rfl⟩ := List.mem_ofFn.mp hw
      exact (ht i).2
  have h2 : splitOn ',' (joinWith ' ' (List.ofFn tok)) = [joinWith ' ' (List.ofFn tok)] := by
    refine splitOn_of_not_mem fun h => ?_
    rcases mem_joinWith h with h | ⟨w, hw, h⟩
    · exact absurd h (by decide)
    · obtain ⟨i, rfl⟩ := List.mem_ofFn.mp hw
      exact (ht i).1 h
  have h3 : ∀ i : Fin n, (List.ofFn tok).getD i [] = tok i := by intro i; simp
  simp only [metricString, h1, h2, List.length_singleton, if_true, List.length_ofFn, ne_eq,
    not_true_eq_false, if_false, h3]
  rw [Option.map_eq_some_iff]
  constructor
  · rintro ⟨d, hd, rfl⟩
    obtain ⟨h, hh, rfl⟩ := mapM_finRange.mp hd
    refine ⟨fun i => ?_, fun i j hij => by rw [Matrix.of_apply, if_neg hij]⟩
    rw [Matrix.of_apply, if_pos rfl, ← metricElement_eq, hh]
    simp
  · rintro ⟨h4, h5⟩
    refine ⟨List.ofFn fun i => M i i, mapM_finRange.mpr ⟨fun i => M i i,
      fun i => metricElement_eq.mpr (h4 i), rfl⟩, ?_⟩
    ext i j
    rw [Matrix.of_apply]
    split_ifs with hij
    · subst hij; simp
    · rw [h5 i j hij]

/-- C56: `n` rows of `n` entries, separated by commas and any number of blanks, give the metric with
these entries. -/
theorem C56_rows (hn : 2 ≤ n) {tok : Fin n → Fin n → List Char}
    (ht : ∀ i j, tok i j ≠ [] ∧ ',' ∉ tok i j ∧ ' ' ∉ tok i j) (a b : Fin n → ℕ)
    (M : Matrix (Fin n) (Fin n) K) :
    metricString dot rat (joinWith ',' (List.ofFn fun i => List.replicate (a i) ' ' ++
        joinWith ' ' (List.ofFn (tok i)) ++ List.replicate (b i) ' ')) = some M ↔
      ∀ i j, EntryMeans dot rat (tok i j) i j (M i j) := by
  set row : Fin n → List Char := fun i => List.replicate (a i) ' ' ++
        joinWith ' ' (List.ofFn (tok i)) ++ List.replicate (b i) ' ' with hrow
  have hne : ∀ i, ∀ w ∈ List.ofFn (tok i), w ≠ [] := by
    intro i w hw
    obtain ⟨j, rfl⟩ := List.mem_ofFn.mp hw
    exact (ht i j).1
  have h1 : splitOn ',' (joinWith ',' (List.ofFn row)) = List.ofFn row := by
    refine splitOn_joinWith ?_ ?_
    · rw [ne_eq, List.ofFn_eq_nil_iff]; omega
    · intro w hw h
      obtain ⟨i, rfl⟩ := List.mem_ofFn.mp hw
      rw [hrow, List.mem_append, List.mem_append] at h
      rcases h with (h | h) | h
      · exact absurd (List.eq_of_mem_replicate h) (by decide)
      · rcases mem_joinWith h with h | ⟨w, hw, h⟩
        · exact absurd h (by decide)
        · obtain ⟨j, rfl⟩ := List.mem_ofFn.mp hw
          exact (ht i j).2.1 h
      · exact absurd (List.eq_of_mem_replicate h) (by decide)
  have h2 : ∀ i, splitOn ' ' (strip (row i)) = List.ofFn (tok i) := by
    intro i
    rw [hrow, strip_pad]
    · refine splitOn_joinWith ?_ ?_
      · rw [ne_eq, List.ofFn_eq_nil_iff]; omega
      · intro w hw
        obtain ⟨j, rfl⟩ := List.mem_ofFn.mp hw
        exact (ht i j).2.2
    · rw [head?_joinWith (hne i)]
      intro h
      obtain ⟨w, hw, h⟩ := Option.bind_eq_some_iff.mp h
      obtain ⟨j, rfl⟩ := List.mem_ofFn.mp (List.mem_of_head? hw)
      exact (ht i j).2.2 (List.mem_of_head? h)
    · rw [getLast?_joinWith (hne i)]
      intro h
      obtain ⟨w, hw, h⟩ := Option.bind_eq_some_iff.mp h
      obtain ⟨j, rfl⟩ := List.mem_ofFn.mp (List.mem_of_getLast? hw)
      exact (ht i j).2.2 (List.mem_of_getLast? h)
  have h3 : (List.ofFn row).map (fun r => splitOn ' ' (strip r)) = List.ofFn fun i => List.ofFn (tok i) := by
    rw [List.map_ofFn]
    congr 1
    funext i
    exact h2 i
  have h4 : ((List.ofFn fun i => List.ofFn (tok i)).any fun cols => decide (cols.length ≠ n)) = false := by
    rw [List.any_eq_false]
    intro w hw
    obtain ⟨i, rfl⟩ := List.mem_ofFn.mp hw
    simp
  have h5 : ∀ i j : Fin n, ((List.ofFn fun i => List.ofFn (tok i)).getD i []).getD j [] = tok i j := by
    intro i j; simp
  simp only [metricString, h1, List.length_ofFn, h3, h4, h5]
  rw [if_neg (by omega), if_neg (by simp), if_neg (by simp), Option.map_eq_some_iff]
  constructor
  · rintro ⟨d, hd, rfl⟩ i j
    obtain ⟨h, hh, rfl⟩ := mapM_finRange.mp hd
    obtain ⟨h', hh', e⟩ := mapM_finRange.mp (hh i)
    rw [← metricElement_eq, hh' j, Matrix.of_apply]
    simp [e]
  · intro h6
    refine ⟨List.ofFn fun i => List.ofFn fun j => M i j, mapM_finRange.mpr
      ⟨_, fun i => mapM_finRange.mpr ⟨fun j => M i j, fun j => metricElement_eq.mpr (h6 i j), rfl⟩, rfl⟩, ?_⟩
    ext i j
    simp

/-- C56: no other string is accepted: an accepted string is one row of `n` entries, or `n` rows of `n`
entries. -/
theorem C56_accepted_only {s : List Char} {M : Matrix (Fin n) (Fin n) K}
    (h : metricString dot rat s = some M) :
    (∃ tok : Fin n → List Char, s = joinWith ' ' (List.ofFn tok) ∧ ∀ i, ',' ∉ tok i ∧ ' ' ∉ tok i) ∨
    (∃ (tok : Fin n → Fin n → List Char) (a b : Fin n → ℕ),
      s = joinWith ',' (List.ofFn fun i => List.replicate (a i) ' ' ++
        joinWith ' ' (List.ofFn (tok i)) ++ List.replicate (b i) ' ') ∧
      ∀ i j, ',' ∉ tok i j ∧ ' ' ∉ tok i j) := by
  have toFn : ∀ {α : Type} {l : List α}, l.length = n → ∃ f : Fin n → α, l = List.ofFn f := by
    intro α l hl
    subst hl
    exact ⟨l.get, (List.ofFn_get l).symm⟩
  rw [metricString] at h
  dsimp only at h
  split_ifs at h with h1 h2 h3 h4
  · left
    have h2' : (splitOn ' ' s).length = n := by simpa using h2
    obtain ⟨tok, ht⟩ := toFn h2'
    have hc : ',' ∉ s := by
      intro hc
      have hj := joinWith_splitOn ',' s
      obtain ⟨w, hw⟩ := List.length_eq_one_iff.mp h1
      rw [hw] at hj
      have hj' : w = s := hj
      exact mem_splitOn (s := s) (w := w) (c := ',') (by rw [hw]; simp) (hj' ▸ hc) rfl
    refine ⟨tok, by rw [← ht, joinWith_splitOn], fun i => ?_⟩
    have hm : tok i ∈ splitOn ' ' s := by rw [ht]; exact List.mem_ofFn.mpr ⟨i, rfl⟩
    refine ⟨fun hx => hc ?_, fun hx => mem_splitOn hm hx rfl⟩
    have : ∀ {c x : Char} {l : List (List Char)} {w : List Char}, w ∈ l → x ∈ w → x ∈ joinWith c l := by
      intro c x l
      induction l with
      | nil => intro w hw; simp at hw
      | cons v l ih =>
        intro w hw hx
        cases l with
        | nil =>
          rw [List.mem_singleton] at hw
          subst hw
          simpa [joinWith] using hx
        | cons v' l =>
          rw [joinWith]
          · rcases List.mem_cons.mp hw with rfl | hw
            · simp [hx]
            · simp [ih hw hx]
          · simp
    have := this (c := ' ') hm hx
    rwa [joinWith_splitOn] at this
  · right
    rw [List.length_map] at h4
    have h4' : (splitOn ',' s).length = n := by simpa using h4
    obtain ⟨row, hr⟩ := toFn h4'
    have h3' : ∀ i, (splitOn ' ' (strip (row i))).length = n := by
      intro i
      by_contra hne
      apply h3
      rw [List.any_eq_true]
      refine ⟨splitOn ' ' (strip (row i)), ?_, ?_⟩
      · rw [hr]
        exact List.mem_map.mpr ⟨row i, List.mem_ofFn.mpr ⟨i, rfl⟩, rfl⟩
      · rw [h4']; simpa using hne
    choose tok ht using fun i => toFn (h3' i)
    choose a b hab using fun i => strip_eq (row i)
    have hrow : ∀ i, row i = List.replicate (a i) ' ' ++ joinWith ' ' (List.ofFn (tok i)) ++
        List.replicate (b i) ' ' := by
      intro i
      rw [← ht i, joinWith_splitOn]
      exact hab i
    refine ⟨tok, a, b, ?_, fun i j => ?_⟩
    · rw [show (fun i => List.replicate (a i) ' ' ++ joinWith ' ' (List.ofFn (tok i)) ++
        List.replicate (b i) ' ') = row from funext fun i => (hrow i).symm, ← hr, joinWith_splitOn]
    · have hm : tok i j ∈ splitOn ' ' (strip (row i)) := by rw [ht]; exact List.mem_ofFn.mpr ⟨j, rfl⟩
      refine ⟨fun hx => ?_, fun hx => mem_splitOn hm hx rfl⟩
      have hmr : row i ∈ splitOn ',' s := by rw [hr]; exact List.mem_ofFn.mpr ⟨i, rfl⟩
      refine mem_splitOn hmr (x := ',') ?_ rfl
      rw [hab i]
      refine List.mem_append_left _ (List.mem_append_right _ ?_)
      have hmj : ∀ {c x : Char} {l : List (List Char)} {w : List Char}, w ∈ l → x ∈ w → x ∈ joinWith c l := by
        intro c x l
        induction l with
        | nil => intro w hw; simp at hw
        | cons v l ih =>
          intro w hw hx
          cases l with
          | nil =>
            rw [List.mem_singleton] at hw
            subst hw
            simpa [joinWith] using hx
          | cons v' l =>
            rw [joinWith]
            · rcases List.mem_cons.mp hw with rfl | hw
              · simp [hx]
              · simp [ih hw hx]
            · simp
      have := hmj (c := ' ') hm hx
      rwa [joinWith_splitOn] at this

/-- C56: the metric is symmetric when the entries of the string are. -/
theorem C56_symmetric (hn : 2 ≤ n) {tok : Fin n → Fin n → List Char}
    (ht : ∀ i j, tok i j ≠ [] ∧ ',' ∉ tok i j ∧ ' ' ∉ tok i j) (hsym : ∀ i j, tok i j = tok j i)
    (a b : Fin n → ℕ) {M : Matrix (Fin n) (Fin n) K}
    (h : metricString dot rat (joinWith ',' (List.ofFn fun i => List.replicate (a i) ' ' ++
        joinWith ' ' (List.ofFn (tok i)) ++ List.replicate (b i) ' ')) = some M) : M.IsSymm := by
  have h1 := (C56_rows hn ht a b M).mp h
  ext i j
  rw [Matrix.transpose_apply]
  rcases h1 i j with ⟨h2, h3⟩ | ⟨h2, h3⟩
  · rcases h1 j i with ⟨h4, h5⟩ | ⟨h4, h5⟩
    · rw [h3, h5, min_comm, max_comm]
    · exact absurd (hsym i j ▸ h2) h4
  · rcases h1 j i with ⟨h4, h5⟩ | ⟨h4, h5⟩
    · exact absurd (hsym j i ▸ h4) h2
    · rw [hsym i j, h5] at h3
      exact Option.some.inj h3

/-- C56: without a metric the entries are the symbols `e_i.e_j`, with the same symbol for `e_j.e_i`. -/
theorem C56_default (hn : 0 < n) : metricString dot rat (defaultMetricString n) =
    some (Matrix.of fun i j => dot (min i j) (max i j)) := by
  have e1 : ∀ m, 0 < m → ((List.replicate m ['#', ' ']).flatten).dropLast =
      joinWith ' ' (List.replicate m ['#']) := by
    intro m
    induction m with
    | zero => simp
    | succ m ih =>
      intro _
      rcases Nat.eq_zero_or_pos m with rfl | hm
      · rfl
      · obtain ⟨k, rfl⟩ := Nat.exists_eq_succ_of_ne_zero hm.ne'
        rw [List.replicate_succ, List.flatten_cons, List.dropLast_append_of_ne_nil (by simp), ih hm]
        conv_rhs => rw [List.replicate_succ (n := k + 1), List.replicate_succ (n := k), joinWith.eq_3 _ _ _ (by simp),
          ← List.replicate_succ]
        rfl
  have e2 : ∀ (r : List Char) (m : ℕ), 0 < m → ((List.replicate m (r ++ [','])).flatten).dropLast =
      joinWith ',' (List.replicate m r) := by
    intro r m
    induction m with
    | zero => simp
    | succ m ih =>
      intro _
      rcases Nat.eq_zero_or_pos m with rfl | hm
      · simp [joinWith]
      · obtain ⟨k, rfl⟩ := Nat.exists_eq_succ_of_ne_zero hm.ne'
        rw [List.replicate_succ, List.flatten_cons, List.dropLast_append_of_ne_nil (by simp), ih hm]
        conv_rhs => rw [List.replicate_succ (n := k + 1), List.replicate_succ (n := k), joinWith.eq_3 _ _ _ (by simp),
          ← List.replicate_succ]
        simp
  have e : defaultMetricString n = joinWith ',' (List.replicate n (joinWith ' ' (List.replicate n ['#']))) := by
    rw [defaultMetricString, e1 n hn, e2 _ n hn]
  rcases Nat.lt_or_ge n 2 with h | h
  · obtain rfl : n = 1 := by omega
    have := (C56_single_row (dot := dot) (rat := rat) (n := 1) one_pos (tok := fun _ => ['#'])
      (by decide) (Matrix.of fun i j => dot (min i j) (max i j))).mpr
        ⟨fun i => Or.inl ⟨rfl, rfl⟩, fun i j hij => absurd (Subsingleton.elim i j) hij⟩
    rw [e]
    exact this
  · have := (C56_rows (dot := dot) (rat := rat) h (tok := fun _ _ => ['#']) (fun _ _ => by decide)
      (fun _ => 0) (fun _ => 0) (Matrix.of fun i j => dot (min i j) (max i j))).mpr
        fun i j => Or.inl ⟨rfl, rfl⟩
    rw [e]
    simpa [List.ofFn_const] using this

end

/-- C56: a symmetric string is not required: `"1 2,3 4"` is accepted. -/
theorem C56_asymmetric_accepted {dot : Fin 2 → Fin 2 → ℚ} {rat : List Char → Option ℚ}
    (h1 : rat ['1'] = some 1) (h2 : rat ['2'] = some 2) (h3 : rat ['3'] = some 3)
    (h4 : rat ['4'] = some 4) :
    metricString dot rat ['1', ' ', '2', ',', '3', ' ', '4'] = some !![1, 2; 3, 4] := by
  refine (C56_rows (dot := dot) (rat := rat) (n := 2) le_rfl (tok := ![![['1'], ['2']], ![['3'], ['4']]])
    (by decide) (fun _ => 0) (fun _ => 0) _).mpr ?_
  intro i j
  fin_cases i <;> fin_cases j <;> exact Or.inr ⟨by decide, by assumption⟩

/-- C56: in dimension zero the default metric raises. -/
theorem C56_dimension_zero_counterexample {dot : Fin 0 → Fin 0 → K} [Zero K] {rat : List Char → Option K} :
    metricString dot rat (defaultMetricString 0) = none := rfl

/-- C56: the general metric `g='g'` is not symmetric: the entries `i, j` and `j, i` have different
names, for coordinates of equal length. -/
theorem C56_general_metric_counterexample {coords : Fin n → List Char} {i j : Fin n}
    (hne : coords i ≠ coords j) (hl : (coords i).length = (coords j).length) :
    generalMetricName coords i j ≠ generalMetricName coords j i := by
  intro h
  rw [generalMetricName, generalMetricName, List.append_assoc, List.append_assoc, List.append_assoc,
    List.append_assoc] at h
  exact hne (List.append_inj_left (List.append_cancel_left h) hl)

/-! ### C62: vector manifolds -/

section manifold
variable [CommRing K] {D : Fin n → K → K} {X : List K}

/-- C62: entry `i, j` of the metric of a vector manifold is the sum over the components of `X` of the
product of the derivatives. -/
theorem C62_entry (i j : Fin n) :
    manifoldMetric D X i j = ∑ k : Fin X.length, D i (X.get k) * D j (X.get k) := by
  have h : ∀ (l : List K) (a : K), ((l.map (D i)).zip (l.map (D j))).foldl
      (fun d p => d + p.1 * p.2) a = a + (l.map fun x => D i x * D j x).sum := by
    intro l
    induction l with
    | nil => simp
    | cons x l ih => intro a; simp only [List.map_cons, List.zip_cons_cons, List.foldl_cons, ih,
        List.sum_cons, add_assoc]
  rw [manifoldMetric, Matrix.of_apply, dotOrthogonal]
  simp only [h, zero_add, Option.getD_some]
  rw [← List.sum_ofFn]
  congr 1
  conv_lhs => rw [← List.ofFn_get X]
  rw [List.map_ofFn]
  rfl

/-- C62: the metric of a vector manifold is symmetric. -/
theorem C62_symmetric : (manifoldMetric D X).IsSymm := by
  ext i j
  rw [Matrix.transpose_apply, C62_entry, C62_entry]
  exact Finset.sum_congr rfl fun k _ => mul_comm _ _

/-- C62: at every point (an evaluation `ev`) the metric of a vector manifold is positive semidefinite,
and it vanishes exactly on the vectors that the derivative of the embedding maps to zero. -/
theorem C62_positive {F : Type*} [Field F] [LinearOrder F] [IsStrictOrderedRing F] (ev : K →+* F)
    (a : Fin n → F) :
    0 ≤ ∑ i, ∑ j, a i * ev (manifoldMetric D X i j) * a j ∧
    (∑ i, ∑ j, a i * ev (manifoldMetric D X i j) * a j = 0 ↔
      ∀ k : Fin X.length, ∑ i, a i * ev (D i (X.get k)) = 0) := by
  have e : ∑ i, ∑ j, a i * ev (manifoldMetric D X i j) * a j =
      ∑ k : Fin X.length, (∑ i, a i * ev (D i (X.get k))) * (∑ i, a i * ev (D i (X.get k))) := by
    simp only [C62_entry, map_sum, map_mul, Finset.mul_sum, Finset.sum_mul]
    rw [Finset.sum_comm' (t' := Finset.univ) (s' := fun _ => Finset.univ) (by simp)]
    have : ∀ f : Fin n → Fin n → Fin X.length → F, ∑ j, ∑ i, ∑ k, f i j k = ∑ k, ∑ i, ∑ j, f i j k := by
      intro f
      calc ∑ j, ∑ i, ∑ k, f i j k = ∑ i, ∑ j, ∑ k, f i j k := Finset.sum_comm
        _ = ∑ i, ∑ k, ∑ j, f i j k := Finset.sum_congr rfl fun i _ => Finset.sum_comm
        _ = ∑ k, ∑ i, ∑ j, f i j k := Finset.sum_comm
    rw [this]
    exact Finset.sum_congr rfl fun k _ => Finset.sum_congr rfl fun i _ =>
      Finset.sum_congr rfl fun j _ => by ring
  rw [e]
  refine ⟨Finset.sum_nonneg fun k _ => mul_self_nonneg _, ?_⟩
  rw [Finset.sum_eq_zero_iff_of_nonneg fun k _ => mul_self_nonneg _]
  simp

/-- C62: the inner product of the embedding space with weights `g` raises exactly if there are not as many
weights as components, and otherwise is the weighted sum of the products of the components; without weights
they are all one. -/
theorem C62_dot_orthogonal {m : ℕ} (u v : Fin m → K) (g : List K) :
    (g.length ≠ m → dotOrthogonal (List.ofFn u) (List.ofFn v) (some g) = none) ∧
    (∀ w : Fin m → K, g = List.ofFn w →
      dotOrthogonal (List.ofFn u) (List.ofFn v) (some g) = some (∑ i, u i * v i * w i)) ∧
    dotOrthogonal (List.ofFn u) (List.ofFn v) none = some (∑ i, u i * v i) := by
  refine ⟨fun h => by simp [dotOrthogonal, h], ?_, ?_⟩
  · rintro w rfl
    simp only [dotOrthogonal, List.length_ofFn, if_true]
    congr 1
    have : ∀ (m : ℕ) (u v w : Fin m → K) (a : K), ((List.ofFn u).zip ((List.ofFn v).zip (List.ofFn w))).foldl
        (fun d p => d + p.1 * p.2.1 * p.2.2) a = a + ∑ i, u i * v i * w i := by
      intro m
      induction m with
      | zero => simp
      | succ m ih =>
        intro u v w a
        simp only [List.ofFn_succ, List.zip_cons_cons, List.foldl_cons, ih, Fin.sum_univ_succ, add_assoc]
    rw [this, zero_add]
  · simp only [dotOrthogonal]
    congr 1
    have : ∀ (m : ℕ) (u v : Fin m → K) (a : K), ((List.ofFn u).zip (List.ofFn v)).foldl
        (fun d p => d + p.1 * p.2) a = a + ∑ i, u i * v i := by
      intro m
      induction m with
      | zero => simp
      | succ m ih =>
        intro u v a
        simp only [List.ofFn_succ, List.zip_cons_cons, List.foldl_cons, ih, Fin.sum_univ_succ, add_assoc]
    rw [this, zero_add]

end manifold

/-- Weights of a Minkowski space. -/
example : dotOrthogonal [1, 2, 3] [4, 5, 6] (some [1, -1, (-1 : ℤ)]) = some (-24) := by decide

/-- A manifold: the curve `t ↦ (t, t²)` has metric `1 + 4 t²`. -/
example : manifoldMetric (n := 1) (fun _ => Polynomial.derivative)
    ([Polynomial.X, Polynomial.X ^ 2] : List (Polynomial ℚ)) 0 0 = 1 + 4 * Polynomial.X ^ 2 := by
  rw [manifoldMetric, Matrix.of_apply, dotOrthogonal]
  simp
  ring

end GA
