import Verif.Model.SymbolTex
import Verif.Spec.SymbolTex
import Mathlib.Tactic.IntervalCases

/-!
# `str.replace`, placeholders and glyphs
-/

set_option linter.unusedSectionVars false

namespace GA
section replace
variable {α : Type*} [DecidableEq α] {β : Type*} {pat new : List α}

theorem strReplace_nil (k : ℕ) : strReplace pat new k [] = [] := by cases k <;> rfl

theorem strReplace_skip (k : ℕ) (s : List α) : strReplace pat new k s = strReplace pat new 0 (s.drop k) := by
  induction k generalizing s with
  | zero => rfl
  | succ k ih =>
    cases s with
    | nil => simp [strReplace_nil]
    | cons c s => rw [strReplace, ih]; rfl

theorem strReplace_match (hp : pat ≠ []) (s : List α) :
    strReplace pat new 0 (pat ++ s) = new ++ strReplace pat new 0 s := by
  obtain ⟨c, p, rfl⟩ := List.exists_cons_of_ne_nil hp
  rw [List.cons_append, strReplace, if_pos (by simp), strReplace_skip]
  simp

theorem strReplace_cons {c : α} {s : List α} (h : ¬ pat <+: c :: s) :
    strReplace pat new 0 (c :: s) = c :: strReplace pat new 0 s := by
  rw [strReplace, if_neg (by simpa using h)]

/-- Induction along the replacements. -/
theorem replace_induct (hp : pat ≠ []) {P : List α → Prop} (nil : P [])
    (found : ∀ s, P s → P (pat ++ s)) (step : ∀ c s, ¬ pat <+: c :: s → P s → P (c :: s)) (s : List α) : P s := by
  induction h : s.length using Nat.strong_induction_on generalizing s with
  | _ n ih =>
    subst h
    cases s with
    | nil => exact nil
    | cons c s =>
      by_cases hc : pat <+: c :: s
      · obtain ⟨r, hr⟩ := hc
        rw [← hr]
        refine found r (ih _ ?_ r rfl)
        have := congrArg List.length hr
        have := List.length_pos_iff.2 hp
        simp at *
        omega
      · exact step c s hc (ih _ (by simp) s rfl)

/-- Replacing a text by one with the same expansion does not change the expansion. -/
theorem flatMap_strReplace (hp : pat ≠ []) (f : α → List β) (h : pat.flatMap f = new.flatMap f) (s : List α) :
    (strReplace pat new 0 s).flatMap f = s.flatMap f := by
  induction s using replace_induct hp with
  | nil => rfl
  | found s ih => rw [strReplace_match hp, List.flatMap_append, List.flatMap_append, ih, h]
  | step c s hc ih => rw [strReplace_cons hc, List.flatMap_cons, List.flatMap_cons, ih]

theorem prefix_strReplace (hp : pat ≠ []) {x : α} {p : List α} (hx : x ∉ p) {s : List α}
    (h : p <+: strReplace pat [x] 0 s) : p <+: s := by
  induction s using replace_induct hp generalizing p with
  | nil => rwa [strReplace_nil] at h
  | found s ih =>
    rw [strReplace_match hp] at h
    cases p with
    | nil => simp
    | cons a p => simp at h; simp [h.1] at hx
  | step c s hc ih =>
    rw [strReplace_cons hc] at h
    cases p with
    | nil => simp
    | cons a p =>
      rw [List.cons_prefix_cons] at h ⊢
      exact ⟨h.1, ih (fun hm => hx (by simp [hm])) h.2⟩

theorem infix_strReplace (hp : pat ≠ []) {x : α} {p : List α} (hx : x ∉ p) {s : List α}
    (h : p <:+: strReplace pat [x] 0 s) : p <:+: s := by
  induction s using replace_induct hp with
  | nil => rwa [strReplace_nil] at h
  | found s ih =>
    rw [strReplace_match hp, List.singleton_append, List.infix_cons_iff] at h
    rcases h with h | h
    · cases p with
      | nil => exact List.nil_infix
      | cons a p => simp at h; simp [h.1] at hx
    · exact (ih h).trans (List.suffix_append _ _).isInfix
  | step c s hc ih =>
    have h0 := strReplace_cons (new := [x]) hc
    rw [h0, List.infix_cons_iff, ← h0] at h
    rcases h with h | h
    · exact (prefix_strReplace hp hx h).isInfix
    · exact (ih h).trans (List.suffix_cons _ _).isInfix

theorem not_infix_strReplace (hp : pat ≠ []) {x : α} (hx : x ∉ pat) (s : List α) :
    ¬ pat <:+: strReplace pat [x] 0 s := by
  induction s using replace_induct hp with
  | nil => rw [strReplace_nil]; simpa using hp
  | found s ih =>
    rw [strReplace_match hp, List.singleton_append, List.infix_cons_iff]
    rintro (h | h)
    · obtain ⟨c, p, rfl⟩ := List.exists_cons_of_ne_nil hp
      simp at h; simp [h.1] at hx
    · exact ih h
  | step c s hc ih =>
    have h0 := strReplace_cons (new := [x]) hc
    rw [h0, List.infix_cons_iff, ← h0]
    rintro (h | h)
    · exact hc (prefix_strReplace hp hx h)
    · exact ih h

theorem strReplace_of_not_infix {s : List α} (h : ¬ pat <:+: s) : strReplace pat new 0 s = s := by
  induction s with
  | nil => rfl
  | cons c s ih =>
    rw [List.infix_cons_iff, not_or] at h
    rw [strReplace_cons h.1, ih h.2]

theorem strReplace_single (x : α) (s : List α) :
    strReplace [x] new 0 s = s.flatMap fun y => if y = x then new else [y] := by
  induction s with
  | nil => rfl
  | cons c s ih =>
    rw [List.flatMap_cons, ← ih]
    by_cases hc : c = x
    · subst hc
      exact (strReplace_match (pat := [c]) (by simp) s).trans (by simp)
    · rw [strReplace_cons (by simpa using Ne.symm hc), if_neg hc]; rfl

/-- Characters that are not in the text sought are passed over. -/
theorem strReplace_pass {a : List α} (ha : ∀ c ∈ a, c ∉ pat) (hp : pat ≠ []) (b : List α) :
    strReplace pat new 0 (a ++ b) = a ++ strReplace pat new 0 b := by
  induction a with
  | nil => rfl
  | cons c a ih =>
    rw [List.cons_append, strReplace_cons, ih fun c hc => ha c (by simp [hc])]
    · rfl
    · obtain ⟨d, p, rfl⟩ := List.exists_cons_of_ne_nil hp
      intro h
      rw [List.cons_prefix_cons] at h
      exact ha c (by simp) (by simp [h.1])

theorem infix_pass {a p : List α} (ha : ∀ c ∈ a, c ∉ p) (hp : p ≠ []) {b : List α} (h : p <:+: a ++ b) :
    p <:+: b := by
  induction a with
  | nil => exact h
  | cons c a ih =>
    rw [List.cons_append, List.infix_cons_iff] at h
    rcases h with h | h
    · obtain ⟨d, p, rfl⟩ := List.exists_cons_of_ne_nil hp
      rw [List.cons_prefix_cons] at h
      exact absurd (by simp [h.1]) (ha c (by simp))
    · exact ih (fun c hc => ha c (by simp [hc])) h

theorem prefix_sep {c : α} {p : List α} (hc : c ∉ p) {a b : List α} (h : p <+: a ++ c :: b) : p <+: a := by
  induction a generalizing p with
  | nil =>
    cases p with
    | nil => simp
    | cons d p =>
      rw [List.nil_append, List.cons_prefix_cons] at h
      simp [h.1] at hc
  | cons d a ih =>
    cases p with
    | nil => simp
    | cons e p =>
      rw [List.cons_append, List.cons_prefix_cons] at h
      exact List.cons_prefix_cons.2 ⟨h.1, ih (fun hm => hc (by simp [hm])) h.2⟩

/-- Text before a character that is not in the text sought is replaced on its own. -/
theorem strReplace_sep {c : α} (hc : c ∉ pat) (hp : pat ≠ []) (a b : List α) :
    strReplace pat new 0 (a ++ c :: b) = strReplace pat new 0 a ++ c :: strReplace pat new 0 b := by
  induction a using replace_induct hp with
  | nil =>
    have := strReplace_pass (pat := pat) (new := new) (a := [c]) (by simpa using hc) hp b
    simpa [strReplace_nil] using this
  | found s ih => rw [List.append_assoc, strReplace_match hp, strReplace_match hp, ih, List.append_assoc]
  | step d s hd ih =>
    rw [strReplace_cons hd, List.cons_append, strReplace_cons, ih]
    · rfl
    · intro h
      apply hd
      have h1 : pat <+: (d :: s) ++ c :: b := h
      exact prefix_sep hc h1

end replace

/-! ### Placeholders -/

/-- The text of characters and placeholders. -/
def phText : Char ⊕ ℕ → List Char := Sum.elim (fun c => [c]) parseSym

theorem parseSym_eq {k : ℕ} (h : k < 10) : parseSym k = ['?', '?', '?', '?', Nat.digitChar k] := by
  interval_cases k <;> decide

theorem digit_ne {k : ℕ} (h : k < 10) : Nat.digitChar k ≠ '?' ∧ (Nat.digitChar k).isAlpha = false ∧
    Nat.digitChar k ≠ '\\' := by
  interval_cases k <;> decide

theorem digit_inj {j k : ℕ} (hj : j < 10) (hk : k < 10) (h : Nat.digitChar j = Nat.digitChar k) : j = k := by
  interval_cases j <;> interval_cases k <;> first | rfl | (revert h; decide)

theorem mem_parseSym {k : ℕ} (h : k < 10) {c : Char} (hc : c ∈ parseSym k) : c.isAlpha = false ∧ c ≠ '\\' := by
  rw [parseSym_eq h] at hc
  simp only [List.mem_cons, List.not_mem_nil, or_false] at hc
  rcases hc with rfl | rfl | rfl | rfl | rfl
  · decide
  · decide
  · decide
  · decide
  · exact (digit_ne h).2

/-- Characters that are no question marks, and placeholders of one digit. -/
def PhGood (L : List (Char ⊕ ℕ)) : Prop := ∀ x ∈ L, (∀ c, x = .inl c → c ≠ '?') ∧ ∀ k, x = .inr k → k < 10

theorem PhGood.tail {x : Char ⊕ ℕ} {L : List (Char ⊕ ℕ)} (h : PhGood (x :: L)) : PhGood L :=
  fun y hy => h y (by simp [hy])

theorem prefix_phText {p : List Char} (hp : ∀ c ∈ p, c.isAlpha = true) {L : List (Char ⊕ ℕ)} (hL : PhGood L) :
    p <+: L.flatMap phText ↔ p.map Sum.inl <+: L := by
  induction p generalizing L with
  | nil => simp
  | cons c p ih =>
    cases L with
    | nil => simp
    | cons x L =>
      cases x with
      | inl d =>
        simp only [List.flatMap_cons, phText, Sum.elim_inl, List.singleton_append, List.cons_prefix_cons,
          List.map_cons, Sum.inl.injEq]
        exact and_congr_right fun _ => ih (fun c hc => hp c (by simp [hc])) hL.tail
      | inr k =>
        simp only [List.flatMap_cons, phText, Sum.elim_inr, List.map_cons, List.cons_prefix_cons, reduceCtorEq,
          false_and, iff_false]
        rw [parseSym_eq ((hL _ (by simp)).2 k rfl)]
        intro h
        simp only [List.cons_append, List.cons_prefix_cons] at h
        have := hp c (by simp)
        rw [h.1] at this
        revert this
        decide

theorem parseSym_pass {p : List Char} (hp : ∀ c ∈ p, c.isAlpha = true) {k : ℕ} (hk : k < 10) :
    ∀ c ∈ parseSym k, c ∉ p := fun c hc hcp => by
  have := (mem_parseSym hk hc).1
  rw [hp c hcp] at this
  cases this

theorem infix_phText {p : List Char} (hp : ∀ c ∈ p, c.isAlpha = true) (h0 : p ≠ []) {L : List (Char ⊕ ℕ)}
    (hL : PhGood L) : p <:+: L.flatMap phText ↔ p.map Sum.inl <:+: L := by
  constructor
  · intro h
    induction L with
    | nil => simp at h; simp [h] at h0
    | cons x L ih =>
      cases x with
      | inl d =>
        rw [List.flatMap_cons, show phText (Sum.inl d) = [d] from rfl, List.singleton_append,
          List.infix_cons_iff] at h
        rcases h with h | h
        · refine ((prefix_phText hp hL).1 ?_).isInfix
          simpa [phText] using h
        · exact (ih hL.tail h).trans (List.suffix_cons _ _).isInfix
      | inr k =>
        rw [List.flatMap_cons] at h
        exact (ih hL.tail (infix_pass (parseSym_pass hp ((hL _ (by simp)).2 k rfl)) h0 h)).trans
          (List.suffix_cons _ _).isInfix
  · rintro ⟨a, b, rfl⟩
    refine ⟨a.flatMap phText, b.flatMap phText, ?_⟩
    simp [List.flatMap_append, List.flatMap_map, phText]

theorem strReplace_phText {p : List Char} (hp : ∀ c ∈ p, c.isAlpha = true) (h0 : p ≠ []) (k : ℕ)
    {L : List (Char ⊕ ℕ)} (hL : PhGood L) :
    strReplace p (parseSym k) 0 (L.flatMap phText) =
      (strReplace (p.map Sum.inl) [Sum.inr k] 0 L).flatMap phText := by
  have h1 : p.map (Sum.inl (β := ℕ)) ≠ [] := by simpa using h0
  induction L using replace_induct h1 with
  | nil => rfl
  | found s ih =>
    rw [strReplace_match h1, List.flatMap_append, List.flatMap_append, ← ih fun x hx => hL x (by simp [hx])]
    have : (p.map (Sum.inl (β := ℕ))).flatMap phText = p := by simp [List.flatMap_map, phText]
    rw [this, strReplace_match h0]
    simp [phText]
  | step c s hc ih =>
    rw [strReplace_cons hc, List.flatMap_cons, List.flatMap_cons, ← ih hL.tail]
    cases c with
    | inl d =>
      rw [show phText (Sum.inl d) = [d] from rfl, List.singleton_append, List.singleton_append, strReplace_cons]
      intro h
      apply hc
      rw [← prefix_phText hp hL]
      simpa [phText] using h
    | inr j => exact strReplace_pass (parseSym_pass hp ((hL _ (by simp)).2 j rfl)) h0 _

theorem strReplace_parseSym {k : ℕ} (hk : k < 10) (v : List Char) {L : List (Char ⊕ ℕ)} (hL : PhGood L) :
    strReplace (parseSym k) v 0 (L.flatMap phText) =
      (L.flatMap fun x => if x = Sum.inr k then v.map Sum.inl else [x]).flatMap phText := by
  have h0 : parseSym k ≠ [] := by simp [parseSym]
  induction L with
  | nil => rfl
  | cons x L ih =>
    rw [List.flatMap_cons, List.flatMap_cons, List.flatMap_append, ← ih hL.tail]
    cases x with
    | inl c =>
      have hc := (hL _ (List.mem_cons_self ..)).1 c rfl
      rw [show phText (Sum.inl c) = [c] from rfl, List.singleton_append, strReplace_cons]
      · simp [phText]
      · rw [parseSym_eq hk]; simpa using fun h => absurd h.symm hc
    | inr j =>
      have hj := (hL _ (List.mem_cons_self ..)).2 j rfl
      by_cases hjk : j = k
      · subst hjk
        rw [if_pos rfl, show phText (Sum.inr j) = parseSym j from rfl, strReplace_match h0]
        simp [List.flatMap_map, phText]
      · rw [if_neg (by simpa using hjk), show phText (Sum.inr j) = parseSym j from rfl, parseSym_eq hj]
        have h1 : Nat.digitChar k ≠ Nat.digitChar j := fun h => hjk (digit_inj hk hj h).symm
        have h2 := (digit_ne hj).1
        have h3 := (digit_ne hk).1
        rw [parseSym_eq hk]
        simp only [List.cons_append, List.nil_append]
        rw [strReplace_cons (by simp [h1]), strReplace_cons (by simp [h2.symm]),
          strReplace_cons (by simp [h2.symm]), strReplace_cons (by simp [h2.symm]),
          strReplace_cons (by simp [h2.symm])]
        simp [phText, parseSym_eq hj]

theorem mem_strReplace {α : Type*} [DecidableEq α] {pat new : List α} (hp : pat ≠ []) {x : α} {s : List α}
    (h : x ∈ strReplace pat new 0 s) : x ∈ s ∨ x ∈ new := by
  induction s using replace_induct hp with
  | nil => simp [strReplace_nil] at h
  | found s ih =>
    rw [strReplace_match hp, List.mem_append] at h
    rcases h with h | h
    · exact Or.inr h
    · exact (ih h).imp (fun h => by simp [h]) id
  | step c s hc ih =>
    rw [strReplace_cons hc, List.mem_cons] at h
    rcases h with h | h
    · exact Or.inl (by simp [h])
    · exact (ih h).imp (fun h => by simp [h]) id

/-! ### The loops of `translate` -/

/-- The values in place of the placeholders `1, ..., m`. -/
def phSub (V : ℕ → List Char) (m : ℕ) : Char ⊕ ℕ → List (Char ⊕ ℕ)
  | .inl c => [.inl c]
  | .inr k => if 1 ≤ k ∧ k ≤ m then (V k).map .inl else [.inr k]

theorem mem_phSub {V : ℕ → List Char} {m : ℕ} (hV : ∀ k, 1 ≤ k → k ≤ m → '?' ∉ V k) {L : List (Char ⊕ ℕ)}
    (hL : PhGood L) : PhGood (L.flatMap (phSub V m)) := by
  intro x hx
  obtain ⟨y, hy, hxy⟩ := List.mem_flatMap.1 hx
  cases y with
  | inl c =>
    simp only [phSub, List.mem_singleton] at hxy
    subst hxy
    exact hL _ hy
  | inr k =>
    rw [phSub] at hxy
    split_ifs at hxy with hk
    · obtain ⟨c, hc, rfl⟩ := List.mem_map.1 hxy
      refine ⟨fun d hd => ?_, fun k hk => by cases hk⟩
      cases hd
      rintro rfl
      exact hV k hk.1 hk.2 hc
    · rw [List.mem_singleton] at hxy
      subst hxy
      exact hL _ hy

theorem foldl_multiplicities {V : ℕ → List Char} {m : ℕ} (hm : m < 10) (hV : ∀ k, 1 ≤ k → k ≤ m → '?' ∉ V k)
    {L : List (Char ⊕ ℕ)} (hL : PhGood L) :
    ((List.range m).map fun i => (parseSym (i + 1), V (i + 1))).foldl
      (fun tmp p => strReplace p.1 p.2 0 tmp) (L.flatMap phText) = (L.flatMap (phSub V m)).flatMap phText := by
  induction m with
  | zero =>
    have : L.flatMap (phSub V 0) = L := by
      conv_rhs => rw [← List.flatMap_singleton' L]
      refine List.flatMap_congr fun x _ => ?_
      cases x with
      | inl c => rfl
      | inr k => rw [phSub, if_neg (by omega)]
    rw [this]; rfl
  | succ m ih =>
    rw [List.range_succ, List.map_append, List.foldl_append, ih (by omega) fun k h1 h2 => hV k h1 (by omega)]
    simp only [List.map_cons, List.map_nil, List.foldl_cons, List.foldl_nil]
    rw [strReplace_parseSym hm _ (mem_phSub (fun k h1 h2 => hV k h1 (by omega)) hL)]
    refine congrArg (List.flatMap phText) ?_
    rw [List.flatMap_assoc]
    refine List.flatMap_congr fun x _ => ?_
    cases x with
    | inl c => simp [phSub]
    | inr k =>
      simp only [phSub]
      by_cases h1 : 1 ≤ k ∧ k ≤ m
      · rw [if_pos h1, if_pos ⟨h1.1, by omega⟩]
        conv_rhs => rw [← List.flatMap_singleton' ((V k).map Sum.inl)]
        refine List.flatMap_congr fun x hx => ?_
        obtain ⟨c, _, rfl⟩ := List.mem_map.1 hx
        simp
      · rw [if_neg h1]
        by_cases h2 : k = m + 1
        · subst h2
          rw [if_pos ⟨by omega, le_rfl⟩]
          simp
        · rw [if_neg (by omega)]
          simp [h2]

/-- The state of the loop over the glyphs after those of `seen`. -/
structure Marked (seen : List (List Char)) (s : List Char) (t : Translation) (m : ℕ) (G : ℕ → List Char)
    (L : List (Char ⊕ ℕ)) : Prop where
  tmp : t.tmp = L.flatMap phText
  iSub : t.iSub = m + 1
  dict : t.dict = (List.range m).map fun i => (parseSym (i + 1), '\\' :: G (i + 1) ++ [' '])
  idx : ∀ k, Sum.inr k ∈ L → 1 ≤ k ∧ k ≤ m
  name : L.flatMap (Sum.elim (fun c => [c]) G) = s
  mem : ∀ k, 1 ≤ k → k ≤ m → G k ∈ seen
  rest : ∀ g ∈ seen, ¬ g.map Sum.inl <:+: L
  count : m ≤ (seen.filter (· <:+: s)).length

theorem Marked.char {seen : List (List Char)} {s : List Char} {t : Translation} {m : ℕ} {G : ℕ → List Char}
    {L : List (Char ⊕ ℕ)} (h : Marked seen s t m G L) {c : Char} (hc : Sum.inl c ∈ L) : c ∈ s := by
  rw [← h.name, List.mem_flatMap]
  exact ⟨_, hc, by simp⟩

theorem Marked.good {seen : List (List Char)} {s : List Char} {t : Translation} {m : ℕ} {G : ℕ → List Char}
    {L : List (Char ⊕ ℕ)} (h : Marked seen s t m G L) (hm : m < 10) (hq : '?' ∉ s) : PhGood L := by
  refine fun x hx => ⟨fun c hc => ?_, fun k hk => ?_⟩
  · subst hc; rintro rfl; exact hq (h.char hx)
  · subst hk; have := (h.idx k hx).2; omega

theorem Marked.step {seen : List (List Char)} {s : List Char} {t : Translation} {m : ℕ} {G : ℕ → List Char}
    {L : List (Char ⊕ ℕ)} (h : Marked seen s t m G L) (hq : '?' ∉ s) (hb : '\\' ∉ s) {g : List Char}
    (hg : ∀ c ∈ g, c.isAlpha = true) (h0 : g ≠ []) (hn : ((seen ++ [g]).filter (· <:+: s)).length ≤ 9) :
    ∃ m' G' L', Marked (seen ++ [g]) s (markGlyph t g) m' G' L' := by
  have hle : (seen.filter (· <:+: s)).length ≤ ((seen ++ [g]).filter (· <:+: s)).length := by
    rw [List.filter_append, List.length_append]; omega
  have hm : m < 10 := by have := h.count; omega
  have hL := h.good hm hq
  have h1 : g.map (Sum.inl (β := ℕ)) ≠ [] := by simpa using h0
  have hfound : g <:+: t.tmp ↔ g.map Sum.inl <:+: L := by rw [h.tmp, infix_phText hg h0 hL]
  rw [markGlyph]
  by_cases hc : g <:+: t.tmp
  · rw [if_pos hc]
    have hesc : ¬ ('\\' :: g) <:+: t.tmp := by
      intro he
      have : '\\' ∈ t.tmp := he.subset (by simp)
      rw [h.tmp, List.mem_flatMap] at this
      obtain ⟨x, hx, hxc⟩ := this
      cases x with
      | inl c =>
        simp only [phText, Sum.elim_inl, List.mem_singleton] at hxc
        subst hxc
        exact hb (h.char hx)
      | inr k => exact (mem_parseSym ((hL _ hx).2 k rfl) hxc).2 rfl
    rw [if_neg hesc]
    have hgs : g <:+: s := by
      obtain ⟨a, b, hab⟩ := hfound.1 hc
      refine ⟨a.flatMap (Sum.elim (fun c => [c]) G), b.flatMap (Sum.elim (fun c => [c]) G), ?_⟩
      rw [← h.name, ← hab]
      simp [List.flatMap_append, List.flatMap_map]
    refine ⟨m + 1, Function.update G (m + 1) g, strReplace (g.map Sum.inl) [Sum.inr (m + 1)] 0 L, ?_⟩
    refine ⟨?_, by simp [h.iSub], ?_, ?_, ?_, ?_, ?_, ?_⟩
    · simp only [h.tmp, h.iSub]
      exact strReplace_phText hg h0 _ hL
    · simp only [h.dict, h.iSub]
      rw [List.range_succ, List.map_append]
      congr 1
      · refine List.map_congr_left fun i hi => ?_
        rw [List.mem_range] at hi
        rw [Function.update_of_ne (by omega)]
      · simp
    · intro k hk
      rcases mem_strReplace h1 hk with hk | hk
      · have := h.idx k hk; omega
      · simp at hk; omega
    · rw [flatMap_strReplace h1]
      · rw [← h.name]
        refine List.flatMap_congr fun x hx => ?_
        cases x with
        | inl c => rfl
        | inr k =>
          have := h.idx k hx
          simp only [Sum.elim_inr]
          rw [Function.update_of_ne (by omega)]
      · rw [List.flatMap_singleton, Sum.elim_inr, Function.update_self, List.flatMap_map]
        exact List.flatMap_singleton' g
    · intro k hk1 hk2
      by_cases hk : k = m + 1
      · subst hk; simp
      · rw [Function.update_of_ne hk, List.mem_append]
        exact Or.inl (h.mem k hk1 (by omega))
    · intro g' hg'
      rw [List.mem_append, List.mem_singleton] at hg'
      rcases hg' with hg' | rfl
      · exact fun hi => h.rest g' hg' (infix_strReplace h1 (by simp) hi)
      · exact not_infix_strReplace h1 (by simp) L
    · rw [List.filter_append, List.length_append]
      have := h.count
      rw [List.filter_cons_of_pos (by simpa using hgs), List.length_cons]
      omega
  · rw [if_neg hc]
    refine ⟨m, G, L, h.tmp, h.iSub, h.dict, h.idx, h.name, fun k h1 h2 => by simp [h.mem k h1 h2], ?_,
      h.count.trans hle⟩
    intro g' hg'
    rw [List.mem_append, List.mem_singleton] at hg'
    rcases hg' with hg' | rfl
    · exact h.rest g' hg'
    · exact fun hi => hc (hfound.2 hi)

theorem marked_foldl {s : List Char} (hq : '?' ∉ s) (hb : '\\' ∉ s) (rest : List (List Char)) :
    ∀ (seen : List (List Char)) (t : Translation) (m : ℕ) (G : ℕ → List Char) (L : List (Char ⊕ ℕ)),
      Marked seen s t m G L → (∀ g ∈ rest, g ≠ [] ∧ ∀ c ∈ g, c.isAlpha = true) →
      ((seen ++ rest).filter (· <:+: s)).length ≤ 9 →
      ∃ m' G' L', Marked (seen ++ rest) s (rest.foldl markGlyph t) m' G' L' := by
  induction rest with
  | nil => intro seen t m G L h _ _; exact ⟨m, G, L, by simpa using h⟩
  | cons g rest ih =>
    intro seen t m G L h hg hn
    have hn' : ((seen ++ [g]).filter (· <:+: s)).length ≤ 9 := by
      refine le_trans ?_ hn
      rw [List.append_cons seen g rest]
      rw [List.filter_append (seen ++ [g]) rest, List.length_append]
      omega
    obtain ⟨m', G', L', h'⟩ := h.step hq hb (hg g (by simp)).2 (hg g (by simp)).1 hn'
    have := ih (seen ++ [g]) _ m' G' L' h' (fun g hg' => hg g (by simp [hg'])) (by
      rwa [List.append_cons] at hn)
    rwa [← List.append_cons] at this

theorem marked_start (s : List Char) : Marked [] s ⟨1, [], s⟩ 0 (fun _ => []) (s.map Sum.inl) := by
  refine ⟨?_, rfl, rfl, ?_, ?_, ?_, ?_, by simp⟩
  · simp [List.flatMap_map, phText]
  · simp
  · simp [List.flatMap_map]
  · intro k h1 h2; omega
  · simp

/-! ### The words for the glyphs -/

theorem infix_sep {α : Type*} [DecidableEq α] {c : α} {p a b : List α} (hc : c ∉ p) (hp : p ≠ []) (h : p <:+: a ++ c :: b) :
    p <:+: a ∨ p <:+: b := by
  induction a with
  | nil =>
    rw [List.nil_append, List.infix_cons_iff] at h
    rcases h with h | h
    · obtain ⟨d, p, rfl⟩ := List.exists_cons_of_ne_nil hp
      rw [List.cons_prefix_cons] at h
      simp [h.1] at hc
    · exact Or.inr h
  | cons d a ih =>
    rw [List.cons_append, List.infix_cons_iff] at h
    rcases h with h | h
    · exact Or.inl (prefix_sep (a := d :: a) hc h).isInfix
    · exact (ih h).imp (fun h => h.trans (List.suffix_cons _ _).isInfix) id

/-- A row with the words `w` for the glyphs. -/
def rowText (w : List Char → List Char) (T : Row) : List Char :=
  T.flatMap (Sum.elim (fun c => [c]) fun g => '\\' :: w g ++ [' '])

theorem rowText_inl (w : List Char → List Char) (c : Char) (T : Row) :
    rowText w (.inl c :: T) = c :: rowText w T := rfl

theorem rowText_inr (w : List Char → List Char) (g : List Char) (T : Row) :
    rowText w (.inr g :: T) = ['\\'] ++ (w g ++ ' ' :: rowText w T) := by simp [rowText]

theorem prefix_rowText {w : List Char → List Char} {p : List Char} (hp : '\\' ∉ p) {T : Row}
    (h : p <+: rowText w T) : p.map Sum.inl <+: T := by
  induction p generalizing T with
  | nil => simp
  | cons c p ih =>
    cases T with
    | nil => simp [rowText] at h
    | cons x T =>
      cases x with
      | inl d =>
        rw [rowText_inl, List.cons_prefix_cons] at h
        rw [List.map_cons, List.cons_prefix_cons]
        exact ⟨by rw [h.1], ih (fun hm => hp (by simp [hm])) h.2⟩
      | inr g =>
        rw [rowText_inr, List.singleton_append, List.cons_prefix_cons] at h
        simp [h.1] at hp

theorem infix_rowText {w : List Char → List Char} {p : List Char} (hp : '\\' ∉ p) (hb : ' ' ∉ p) (h0 : p ≠ [])
    {T : Row} (h : p <:+: rowText w T) :
    p.map Sum.inl <:+: T ∨ ∃ g, Sum.inr g ∈ T ∧ p <:+: w g := by
  induction T with
  | nil => simp [rowText, h0] at h
  | cons x T ih =>
    have key : p <:+: rowText w T →
        p.map Sum.inl <:+: x :: T ∨ ∃ g, Sum.inr g ∈ x :: T ∧ p <:+: w g := fun h =>
      (ih h).imp (fun h => h.trans (List.suffix_cons _ _).isInfix) fun ⟨g, h1, h2⟩ => ⟨g, by simp [h1], h2⟩
    cases x with
    | inl c =>
      rw [rowText_inl, List.infix_cons_iff] at h
      rcases h with h | h
      · exact Or.inl (prefix_rowText (w := w) (T := .inl c :: T) hp h).isInfix
      · exact key h
    | inr g =>
      rw [rowText_inr] at h
      rcases infix_sep hb h0 (infix_pass (by simpa using hp) h0 h) with h | h
      · exact Or.inr ⟨g, by simp, h⟩
      · exact key h

theorem strReplace_rowText {w w' : List Char → List Char} {p q : List Char} (hp : '\\' ∉ p) (hb : ' ' ∉ p)
    (h0 : p ≠ []) {T : Row} (hT : ¬ p.map Sum.inl <:+: T)
    (hw : ∀ g, Sum.inr g ∈ T → strReplace p q 0 (w g) = w' g) :
    strReplace p q 0 (rowText w T) = rowText w' T := by
  induction T with
  | nil => rfl
  | cons x T ih =>
    have hT' : ¬ p.map Sum.inl <:+: T := fun h => hT (h.trans (List.suffix_cons _ _).isInfix)
    have ih' := ih hT' fun g hg => hw g (by simp [hg])
    cases x with
    | inl c =>
      rw [rowText_inl, rowText_inl, strReplace_cons, ih']
      exact fun h => hT (prefix_rowText (w := w) (T := .inl c :: T) hp h).isInfix
    | inr g =>
      rw [rowText_inr, rowText_inr, strReplace_pass (by simpa using hp) h0, strReplace_sep hb h0, ih',
        hw g (by simp)]

theorem greek_step (p q t : List Char) :
    (if p <:+: t then strReplace p q 0 t else t) = strReplace p q 0 t := by
  split_ifs with h
  · rfl
  · rw [strReplace_of_not_infix h]

theorem lex_rowText_append {w : List Char → List Char} {T : Row} (hc : Sum.inl '\\' ∉ T)
    (hw : ∀ g, Sum.inr g ∈ T → w g ≠ [] ∧ ∀ c ∈ w g, c.isAlpha = true) (b : List Char) :
    Tex.lex (rowText w T ++ b) =
      T.flatMap (Sum.elim (fun c => if c = ' ' then [] else [[c]]) fun g => ['\\' :: w g]) ++ Tex.lex b := by
  have word : ∀ (u v b : List Char), u ≠ [] → (∀ c ∈ v, c.isAlpha = true) →
      Tex.lexGo ('\\' :: u) (v ++ ' ' :: b) = ('\\' :: (u ++ v)) :: Tex.lexGo [] b := by
    intro u v b hu hv
    induction v generalizing u with
    | nil =>
      obtain ⟨c, u, rfl⟩ := List.exists_cons_of_ne_nil hu
      simp [Tex.lexGo]
    | cons c v ih =>
      obtain ⟨d, u, rfl⟩ := List.exists_cons_of_ne_nil hu
      rw [List.cons_append, Tex.lexGo, if_neg (by simp), if_neg (by simp), if_pos (hv c (by simp))]
      have := ih (d :: u ++ [c]) (by simp) fun c hc => hv c (by simp [hc])
      simpa using this
  induction T with
  | nil => rfl
  | cons x T ih =>
    have ih' := ih (fun h => hc (by simp [h])) fun g hg => hw g (by simp [hg])
    cases x with
    | inl c =>
      have hcc : c ≠ '\\' := by rintro rfl; simp at hc
      rw [rowText_inl, List.flatMap_cons, List.append_assoc, ← ih', List.cons_append, Tex.lex, Tex.lexGo,
        if_pos rfl]
      simp only [Sum.elim_inl]
      split_ifs with h1
      · rfl
      · rfl
    | inr g =>
      obtain ⟨h1, h2⟩ := hw g (by simp)
      obtain ⟨c, u, hu⟩ := List.exists_cons_of_ne_nil h1
      rw [rowText_inr, List.flatMap_cons, List.append_assoc, List.append_assoc _ _ (Tex.lex b), ← ih']
      simp only [Sum.elim_inr]
      rw [hu] at h2 ⊢
      rw [Tex.lex, List.append_assoc, List.singleton_append, Tex.lexGo, if_pos rfl, if_neg (by decide), if_pos rfl,
        List.cons_append, Tex.lexGo, if_neg (by simp), if_pos rfl, if_pos (h2 c (by simp))]
      exact word [c] u (rowText w T ++ b) (by simp) fun d hd => h2 d (by simp [hd])

/-- What `translate` does with a name. -/
theorem translate_row {alphabet : List (List Char)} {s : List Char} (ha : GlyphNames alphabet)
    (hs : PlainName alphabet s) :
    ∃ T : Row, T.Spells alphabet s ∧ translate alphabet s = rowText texWord T := by
  obtain ⟨ha, hl, hl'⟩ := ha
  obtain ⟨hq, hb, hL, hn⟩ := hs
  obtain ⟨m, G, L, h⟩ := marked_foldl hq hb alphabet [] _ 0 _ _ (marked_start s) ha (by simpa using hn)
  rw [List.nil_append] at h
  have hm : m < 10 := by have := h.count; omega
  have hgood := h.good hm hq
  have hname : Row.name (L.map (Sum.map id G)) = s := by
    rw [← h.name, Row.name, List.flatMap_map]
    refine List.flatMap_congr fun x _ => ?_
    cases x <;> rfl
  have hmem : ∀ g, Sum.inr g ∈ L.map (Sum.map id G) → g ∈ alphabet := by
    intro g hg
    obtain ⟨x, hx, hxg⟩ := List.mem_map.1 hg
    cases x with
    | inl c => simp at hxg
    | inr k =>
      simp only [Sum.map_inr, Sum.inr.injEq] at hxg
      subst hxg
      exact h.mem k (h.idx k hx).1 (h.idx k hx).2
  have hrest : ∀ g ∈ alphabet, ¬ g.map Sum.inl <:+: L.map (Sum.map id G) := by
    rintro g hg ⟨a, b, hab⟩
    apply h.rest g hg
    obtain ⟨l1, l3, rfl, h1, _⟩ := List.map_eq_append_iff.1 hab.symm
    obtain ⟨l1, l2, rfl, _, h2⟩ := List.map_eq_append_iff.1 h1
    refine ⟨l1, l3, ?_⟩
    congr 2
    clear hg hab
    clear * - h2
    induction l2 generalizing g with
    | nil => cases g with
      | nil => rfl
      | cons c g => simp at h2
    | cons x l ih =>
      cases g with
      | nil => simp at h2
      | cons c g =>
        simp only [List.map_cons, List.cons.injEq] at h2 ⊢
        refine ⟨?_, ih _ h2.2⟩
        cases x with
        | inl d => simpa using h2.1.symm
        | inr k => simp at h2
  refine ⟨L.map (Sum.map id G), ⟨hname, hmem, hrest⟩, ?_⟩
  rw [translate]
  simp only [h.tmp, h.dict]
  rw [foldl_multiplicities (V := fun k => '\\' :: G k ++ [' ']) hm ?_ hgood]
  · have h1 : (L.flatMap (phSub (fun k => '\\' :: G k ++ [' ']) m)).flatMap phText =
        rowText id (L.map (Sum.map id G)) := by
      rw [List.flatMap_assoc, rowText, List.flatMap_map]
      refine List.flatMap_congr fun x hx => ?_
      cases x with
      | inl c => rfl
      | inr k =>
        rw [phSub, if_pos (h.idx k hx)]
        simp [List.flatMap_map, phText]
    rw [h1, greekTranslated, List.foldl_cons, List.foldl_cons, List.foldl_nil, greek_step, greek_step]
    dsimp only
    rw [strReplace_rowText (w' := texWord) (by decide) (by decide) (by decide) (hrest _ hl), strReplace_of_not_infix]
    · intro hi
      rcases infix_rowText (by decide) (by decide) (by decide) hi with hi | ⟨g, hg, hi⟩
      · apply hL
        rw [← hname]
        obtain ⟨a, b, hab⟩ := hi
        refine ⟨Row.name a, Row.name b, ?_⟩
        rw [← hab]
        simp [Row.name, List.flatMap_append]
      · rw [texWord] at hi
        split_ifs at hi with hg'
        · revert hi; decide
        · apply hL
          rw [← hname]
          obtain ⟨a, b, hab⟩ := List.append_of_mem hg
          refine hi.trans ⟨Row.name a, Row.name b, ?_⟩
          rw [hab]
          simp [Row.name]
    · intro g hg
      rw [texWord]
      split_ifs with hg'
      · subst hg'; decide
      · exact strReplace_of_not_infix fun hi => hg' (hl' g (hmem g hg) hi)
  · intro k h1 h2 hk
    have := (ha _ (h.mem k h1 h2)).2
    simp only [List.cons_append, List.mem_cons, List.mem_append, List.not_mem_nil, or_false] at hk
    rcases hk with hk | hk | hk
    · revert hk; decide
    · have := this _ hk; revert this; decide
    · revert hk; decide

/-! ### Derivatives -/

section derivative
variable {V : Type*} [DecidableEq V]

theorem multiplicities_eq (x : V) (l : List V) (i : ℕ) :
    (multiplicities x (i + 1) l).map (fun p => List.replicate p.2 p.1) =
      (List.replicate (i + 1) x ++ l).splitBy (· == ·) := by
  induction l generalizing x i with
  | nil =>
    rw [multiplicities, List.append_nil, List.splitBy_of_isChain (by simp)]
    · simp
    · exact List.isChain_replicate_of_rel _ (by simp)
  | cons y l ih =>
    rw [multiplicities]
    split_ifs with h
    · subst h
      rw [ih, List.replicate_succ', List.append_assoc]
      rfl
    · rw [List.map_cons, ih y 0, List.splitBy_append_cons,
        List.splitBy_of_isChain (l := List.replicate (i + 1) x) (by simp)]
      · rfl
      · exact List.isChain_replicate_of_rel _ (by simp)
      · intro z hz
        have := List.eq_of_mem_replicate (List.mem_of_mem_getLast? hz)
        subst this
        simpa using Ne.symm h

theorem multiplicities_pos (x : V) (l : List V) (i : ℕ) : ∀ p ∈ multiplicities x (i + 1) l, 0 < p.2 := by
  induction l generalizing x i with
  | nil => simp [multiplicities]
  | cons y l ih =>
    rw [multiplicities]
    split_ifs with h
    · exact ih x (i + 1)
    · intro p hp
      rcases List.mem_cons.1 hp with rfl | hp
      · simp
      · exact ih y 0 p hp

theorem runsTex_eq (flat : Bool) (print : V → List Char) (x : V) (l : List V) :
    runsTex flat print (x :: l) =
      (multiplicities x 1 l).flatMap fun p => partialTex flat (print p.1) p.2 := by
  have h := multiplicities_eq x l 0
  rw [zero_add, List.replicate_one, List.singleton_append] at h
  rw [runsTex, ← h, List.flatMap_map]
  refine List.flatMap_congr fun p hp => ?_
  have := multiplicities_pos x l 0 p hp
  obtain ⟨k, hk⟩ := Nat.exists_eq_succ_of_ne_zero this.ne'
  rw [hk]
  simp [List.replicate_succ]

theorem foldl_append_flatMap {α : Type*} (f : α → List Char) (l : List α) (a : List Char) :
    l.foldl (fun tex p => tex ++ f p) a = a ++ l.flatMap f := by
  induction l generalizing a with
  | nil => simp
  | cons x l ih => rw [List.foldl_cons, ih, List.flatMap_cons, List.append_assoc]

end derivative
end GA
