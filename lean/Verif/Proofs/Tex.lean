import Verif.Model.Tex
import Verif.Spec.Tex
import Verif.Proofs.Session
import Mathlib.Data.List.Chain
import Mathlib.Data.List.TakeWhile

/-!
# Lemmas about the post-processing of captured output
-/

set_option linter.unusedSectionVars false
set_option maxRecDepth 10000

namespace GA.Tex

theorem isWord_iff {c : Char} : isWord c = true ↔ IsWordChar c := by
  simp [isWord, IsWordChar]

theorem not_op_of_word {c : Char} (h : isWord c = true) :
    c ≠ '|' ∧ c ≠ '^' ∧ c ≠ '*' ∧ c ≠ '<' ∧ c ≠ '>' ∧ c ≠ '{' := by
  refine ⟨?_, ?_, ?_, ?_, ?_, ?_⟩ <;> rintro rfl <;> exact absurd h (by decide)

/-- The head of the rest is no word character. -/
def Stop (r : List Char) : Prop := ∀ c ∈ r.head?, isWord c = false

theorem matchAt_word {c : Char} (h : isWord c = true) (pw : Bool) (s : List Char) :
    matchAt pw (c :: s) =
      ((wholeWord "rgrad".toList pw (c :: s)).map fun k =>
        (k, "\\bar{\\boldsymbol{\\nabla}} ".toList)).or
      ((wholeWord "grad".toList pw (c :: s)).map fun k => (k, "\\boldsymbol{\\nabla} ".toList)) := by
  obtain ⟨h1, h2, h3, h4, h5, -⟩ := not_op_of_word h
  have e1 := Ne.symm h1
  have e3 := Ne.symm h3
  have e4 := Ne.symm h4
  have e5 := Ne.symm h5
  simp only [matchAt, replPairs, List.findSome?_cons, List.findSome?_nil, lit, caret,
    List.isPrefixOf, beq_iff_eq, e1, e3, e4, e5, h2,
    Bool.and_eq_true, false_and, if_false, Option.map_none]
  cases wholeWord "rgrad".toList pw (c :: s) <;> cases wholeWord "grad".toList pw (c :: s) <;> simp


theorem prefix_word_iff {p w r : List Char} (hp : ∀ c ∈ p, isWord c = true)
    (hw : ∀ c ∈ w, isWord c = true) (hr : Stop r) :
    (p.isPrefixOf (w ++ r) = true ∧ (((w ++ r).drop p.length).head?.map isWord).getD false = false) ↔
      p = w := by
  constructor
  · rintro ⟨h1, h2⟩
    rw [List.isPrefixOf_iff_prefix] at h1
    obtain ⟨t, ht⟩ := h1
    rw [← ht, List.drop_left] at h2
    rcases List.append_eq_append_iff.mp ht with ⟨a, rfl, e⟩ | ⟨a, rfl, e⟩
    · cases a with
      | nil => simp
      | cons c a =>
        have : isWord c = true := hw c (by simp)
        rw [e] at h2
        simp [this] at h2
    · cases a with
      | nil => simp
      | cons c a =>
        have h3 : isWord c = true := hp c (by simp)
        have h4 := hr c (by rw [e]; simp)
        rw [h3] at h4
        simp at h4
  · rintro rfl
    refine ⟨by simp, ?_⟩
    rw [List.drop_left]
    cases r with
    | nil => rfl
    | cons c r => simpa using hr c (by simp)

theorem wholeWord_word {p w r : List Char} (hp : ∀ c ∈ p, isWord c = true)
    (hw : ∀ c ∈ w, isWord c = true) (hr : Stop r) :
    wholeWord p false (w ++ r) = if w = p then some p.length else none := by
  have := prefix_word_iff hp hw hr
  unfold wholeWord
  by_cases h : w = p
  · rw [if_pos h, if_pos ⟨rfl, this.mpr h.symm⟩]
  · rw [if_neg h, if_neg]
    rintro ⟨-, h2⟩
    exact h (this.mp h2).symm

theorem wholeWord_true (p s : List Char) : wholeWord p true s = none := by
  simp [wholeWord]

theorem sub_skip {w : List Char} (hw : ∀ c ∈ w, isWord c = true) (r : List Char) :
    sub w.length true (w ++ r) = sub 0 true r := by
  induction w with
  | nil => rfl
  | cons c w ih =>
    rw [List.length_cons, List.cons_append, sub, hw c (by simp)]
    exact ih fun x hx => hw x (by simp [hx])

theorem sub_inside {w : List Char} (hw : ∀ c ∈ w, isWord c = true) (r : List Char) :
    sub 0 true (w ++ r) = w ++ sub 0 true r := by
  induction w with
  | nil => rfl
  | cons c w ih =>
    have hc := hw c (by simp)
    rw [List.cons_append, sub, matchAt_word hc, wholeWord_true, wholeWord_true, hc]
    simp only [Option.map_none, Option.or_none]
    rw [ih fun x hx => hw x (by simp [hx])]
    rfl

set_option maxHeartbeats 4000000 in
/-- A whole word. -/
theorem sub_word {w : List Char} (hw : ∀ c ∈ w, isWord c = true) (hn : w ≠ []) {r : List Char}
    (hr : Stop r) : sub 0 false (w ++ r) = (Tok.word w).latex ++ sub 0 true r := by
  obtain ⟨c, w, rfl⟩ := List.exists_cons_of_ne_nil hn
  have hc := hw c (by simp)
  have hw' : ∀ x ∈ w, isWord x = true := fun x hx => hw x (by simp [hx])
  have t1 : "rgrad".toList = ['r', 'g', 'r', 'a', 'd'] := rfl
  have t2 : "grad".toList = ['g', 'r', 'a', 'd'] := rfl
  have e1 := wholeWord_word (p := ['r', 'g', 'r', 'a', 'd']) (by decide) hw hr
  have e2 := wholeWord_word (p := ['g', 'r', 'a', 'd']) (by decide) hw hr
  rw [List.cons_append] at e1 e2 ⊢
  rw [sub, matchAt_word hc, t1, t2, e1, e2, hc, Tok.latex, wordLatex, t1, t2]
  generalize "\\bar{\\boldsymbol{\\nabla}} ".toList = x1
  generalize "\\boldsymbol{\\nabla} ".toList = x2
  by_cases h1 : c :: w = ['r', 'g', 'r', 'a', 'd']
  · obtain ⟨rfl, rfl⟩ := List.cons.inj h1
    have := sub_skip hw' r
    simpa using this
  · by_cases h2 : c :: w = ['g', 'r', 'a', 'd']
    · obtain ⟨rfl, rfl⟩ := List.cons.inj h2
      have := sub_skip hw' r
      simpa using this
    · rw [if_neg h1, if_neg h2, if_neg h2, if_neg h1]
      simp only [Option.map_none, Option.or_none]
      rw [sub_inside hw']
      rfl

theorem matchAt_other {c : Char} (h : isWord c = false) (ho : c ∉ ['|', '^', '*', '<', '>'])
    (pw : Bool) (s : List Char) : matchAt pw (c :: s) = none := by
  simp only [List.mem_cons, List.not_mem_nil, or_false, not_or] at ho
  obtain ⟨h1, h2, h3, h4, h5⟩ := ho
  have e1 := Ne.symm h1
  have e3 := Ne.symm h3
  have e4 := Ne.symm h4
  have e5 := Ne.symm h5
  have er : ¬ 'r' = c := by rintro rfl; exact absurd h (by decide)
  have eg : ¬ 'g' = c := by rintro rfl; exact absurd h (by decide)
  have t1 : "rgrad".toList = ['r', 'g', 'r', 'a', 'd'] := rfl
  have t2 : "grad".toList = ['g', 'r', 'a', 'd'] := rfl
  simp [matchAt, replPairs, lit, caret, wholeWord, t1, t2, List.isPrefixOf, e1, e3, e4, e5, h2, er, eg]

theorem head_source {t : Tok} (h : t.Valid) (r : List Char) :
    ∃ c, (t.source ++ r).head? = some c ∧ (isWord c = true ↔ ∃ w, t = .word w) ∧
      (c = '<' ↔ t = .leftContraction ∨ t = .anticommutator) ∧
      (c = '>' ↔ t = .rightContraction ∨ t = .commutator) ∧
      (c = '{' ↔ t = .other '{') := by
  cases t with
  | word w =>
    obtain ⟨c, w, rfl⟩ := List.exists_cons_of_ne_nil h.1
    have hc : isWord c = true := isWord_iff.mpr (h.2 c (by simp))
    obtain ⟨-, -, -, h4, h5, h6⟩ := not_op_of_word hc
    exact ⟨c, rfl, by simp [hc], by simp [h4], by simp [h5], by simp [h6]⟩
  | other c =>
    obtain ⟨h1, h2⟩ := h
    simp only [List.mem_cons, List.not_mem_nil, or_false, not_or] at h2
    have : ¬ isWord c = true := fun e => h1 (isWord_iff.mp e)
    exact ⟨c, rfl, by simp [this], by simp [h2], by simp [h2], by simp⟩
  | _ => exact ⟨_, rfl, by simp; decide, by simp, by simp, by simp⟩

theorem stop_of_chain {ts : List Tok} (hv : ∀ t ∈ ts, t.Valid)
    (hc : ∀ y ∈ ts.head?, ∀ w, y ≠ .word w) : Stop (ts.flatMap Tok.source) := by
  cases ts with
  | nil => intro c hc; simp at hc
  | cons u ts =>
    intro c hh
    rw [List.flatMap_cons] at hh
    obtain ⟨d, h1, h2, -⟩ := head_source (hv u (by simp)) (ts.flatMap Tok.source)
    rw [h1] at hh
    simp only [Option.mem_def, Option.some.injEq] at hh
    subst hh
    by_contra hne
    rw [Bool.not_eq_false] at hne
    obtain ⟨w, hw⟩ := h2.mp hne
    exact hc u (by simp) w hw

set_option maxHeartbeats 4000000 in
/-- Reading and translating token by token. -/
theorem sub_tokens : ∀ (ts : List Tok) (pw : Bool), Reading ts →
    (pw = true → ∀ y ∈ ts.head?, ∀ w, y ≠ .word w) →
    sub 0 pw (ts.flatMap Tok.source) = ts.flatMap Tok.latex
  | [], pw, _, _ => by simp [sub]
  | t :: ts, pw, h, hpw => by
    obtain ⟨hv, hch⟩ := h
    obtain ⟨hf, hch⟩ := List.isChain_cons.mp hch
    have hts : Reading ts := ⟨fun x hx => hv x (by simp [hx]), hch⟩
    have ih := sub_tokens ts
    have hhead : ∀ c, (ts.flatMap Tok.source).head? = some c → ∃ y ∈ ts.head?,
        (c = '<' ↔ y = .leftContraction ∨ y = .anticommutator) ∧
        (c = '>' ↔ y = .rightContraction ∨ y = .commutator) ∧ (c = '{' ↔ y = .other '{') := by
      intro c hc
      cases ts with
      | nil => simp at hc
      | cons u us =>
        obtain ⟨d, h1, -, h2⟩ := head_source (hts.1 u (by simp)) (us.flatMap Tok.source)
        rw [List.flatMap_cons, h1] at hc
        simp only [Option.some.injEq] at hc
        subst hc
        exact ⟨u, by simp, h2⟩
    rw [List.flatMap_cons, List.flatMap_cons]
    have hnw := sub_tokens ts false hts (by simp)
    cases t with
    | word w =>
      obtain ⟨h1, h2⟩ := hv (.word w) (by simp)
      have hpw' : pw = false := by
        cases pw with
        | false => rfl
        | true => exact absurd rfl (hpw rfl (.word w) (by simp) w)
      subst hpw'
      have hnotw : ∀ y ∈ ts.head?, ∀ w, y ≠ .word w := by
        intro y hy w' e
        have := hf y hy
        rw [e] at this
        exact this
      rw [Tok.source, sub_word (fun c hc => isWord_iff.mpr (h2 c hc)) h1
        (stop_of_chain hts.1 hnotw)]
      rw [sub_tokens ts true hts fun _ => hnotw]
    | other c =>
      obtain ⟨h1, h2⟩ := hv (.other c) (by simp)
      have hc : isWord c = false := by
        rw [← Bool.not_eq_true]
        exact fun e => h1 (isWord_iff.mp e)
      simp only [Tok.source, Tok.latex, List.cons_append, List.nil_append]
      rw [sub, matchAt_other hc h2, hc]
      simp only
      rw [hnw]
    | inner =>
      simp only [Tok.source, Tok.latex, List.cons_append, List.nil_append]
      rw [sub]
      have : matchAt pw ('|' :: ts.flatMap Tok.source) = some (1, "\\cdot ".toList) := by
        simp [matchAt, replPairs, lit, List.isPrefixOf]
      rw [this]
      simp only
      rw [show isWord '|' = false by decide, hnw]
      rfl
    | wedge =>
      simp only [Tok.source, Tok.latex, List.cons_append, List.nil_append]
      rw [sub]
      have hb : (ts.flatMap Tok.source).head? ≠ some '{' := by
        intro e
        obtain ⟨y, hy, -, -, h3⟩ := hhead _ e
        have := hf y hy
        rw [h3.mp rfl] at this
        exact this rfl
      have : matchAt pw ('^' :: ts.flatMap Tok.source) = some (1, "\\W ".toList) := by
        simp [matchAt, replPairs, lit, caret, List.isPrefixOf, hb]
      rw [this]
      simp only
      rw [show isWord '^' = false by decide, hnw]
      rfl
    | product =>
      simp only [Tok.source, Tok.latex, List.cons_append, List.nil_append]
      rw [sub]
      have : matchAt pw ('*' :: ts.flatMap Tok.source) = some (1, [' ']) := by
        simp [matchAt, replPairs, lit, caret, List.isPrefixOf]
      rw [this]
      simp only
      rw [show isWord '*' = false by decide, hnw]
      rfl
    | commutator =>
      simp only [Tok.source, Tok.latex, List.cons_append, List.nil_append]
      rw [sub]
      have t1 : "rgrad".toList = ['r', 'g', 'r', 'a', 'd'] := rfl
      have t2 : "grad".toList = ['g', 'r', 'a', 'd'] := rfl
      have : matchAt pw ('>' :: '>' :: ts.flatMap Tok.source) = some (2, " \\times ".toList) := by
        simp [matchAt, replPairs, lit, caret, wholeWord, t1, t2, List.isPrefixOf]
      rw [this]
      simp only
      rw [show isWord '>' = false by decide, sub, show isWord '>' = false by decide, hnw]
      rfl
    | anticommutator =>
      simp only [Tok.source, Tok.latex, List.cons_append, List.nil_append]
      rw [sub]
      have t1 : "rgrad".toList = ['r', 'g', 'r', 'a', 'd'] := rfl
      have t2 : "grad".toList = ['g', 'r', 'a', 'd'] := rfl
      have : matchAt pw ('<' :: '<' :: ts.flatMap Tok.source) =
          some (2, " \\bar{\\times} ".toList) := by
        simp [matchAt, replPairs, lit, caret, wholeWord, t1, t2, List.isPrefixOf]
      rw [this]
      simp only
      rw [show isWord '<' = false by decide, sub, show isWord '<' = false by decide, hnw]
      rfl
    | leftContraction =>
      simp only [Tok.source, Tok.latex, List.cons_append, List.nil_append]
      rw [sub]
      have hb : (ts.flatMap Tok.source).head? ≠ some '<' := by
        intro e
        obtain ⟨y, hy, h3, -, -⟩ := hhead _ e
        have := hf y hy
        rcases h3.mp rfl with h | h <;> rw [h] at this <;> exact this
      have t1 : "rgrad".toList = ['r', 'g', 'r', 'a', 'd'] := rfl
      have t2 : "grad".toList = ['g', 'r', 'a', 'd'] := rfl
      have : matchAt pw ('<' :: ts.flatMap Tok.source) = some (1, "\\rfloor ".toList) := by
        cases hs : ts.flatMap Tok.source with
        | nil => simp [matchAt, replPairs, lit, caret, wholeWord, t1, t2, List.isPrefixOf]
        | cons d s =>
          have hd : ¬ '<' = d := by
            rintro rfl
            exact hb (by rw [hs]; rfl)
          simp [matchAt, replPairs, lit, caret, wholeWord, t1, t2, List.isPrefixOf, hd]
      rw [this]
      simp only
      rw [show isWord '<' = false by decide, hnw]
      rfl
    | rightContraction =>
      simp only [Tok.source, Tok.latex, List.cons_append, List.nil_append]
      rw [sub]
      have hb : (ts.flatMap Tok.source).head? ≠ some '>' := by
        intro e
        obtain ⟨y, hy, -, h3, -⟩ := hhead _ e
        have := hf y hy
        rcases h3.mp rfl with h | h <;> rw [h] at this <;> exact this
      have t1 : "rgrad".toList = ['r', 'g', 'r', 'a', 'd'] := rfl
      have t2 : "grad".toList = ['g', 'r', 'a', 'd'] := rfl
      have : matchAt pw ('>' :: ts.flatMap Tok.source) = some (1, "\\lfloor ".toList) := by
        cases hs : ts.flatMap Tok.source with
        | nil => simp [matchAt, replPairs, lit, caret, wholeWord, t1, t2, List.isPrefixOf]
        | cons d s =>
          have hd : ¬ '>' = d := by
            rintro rfl
            exact hb (by rw [hs]; rfl)
          simp [matchAt, replPairs, lit, caret, wholeWord, t1, t2, List.isPrefixOf, hd]
      rw [this]
      simp only
      rw [show isWord '>' = false by decide, hnw]
      rfl
    | superscript =>
      simp only [Tok.source, Tok.latex, List.cons_append, List.nil_append]
      rw [sub]
      have t1 : "rgrad".toList = ['r', 'g', 'r', 'a', 'd'] := rfl
      have t2 : "grad".toList = ['g', 'r', 'a', 'd'] := rfl
      have : matchAt pw ('^' :: '{' :: ts.flatMap Tok.source) = none := by
        simp [matchAt, replPairs, lit, caret, wholeWord, t1, t2, List.isPrefixOf]
      rw [this]
      simp only
      rw [show isWord '^' = false by decide, sub, matchAt_other (by decide) (by decide)]
      simp only
      rw [show isWord '{' = false by decide, hnw]

/-- Every string has a reading. -/
theorem exists_reading : ∀ (k : ℕ) (s : List Char), s.length ≤ k →
    ∃ ts, Reading ts ∧ ts.flatMap Tok.source = s
  | _, [], _ => ⟨[], ⟨by simp, by simp⟩, rfl⟩
  | 0, c :: s, h => by simp at h
  | k + 1, c :: s, h => by
    have hk : s.length ≤ k := by simpa using h
    -- a token in front of a reading
    have key : ∀ (t : Tok) (s' : List Char), s'.length ≤ k → t.Valid → t.source ++ s' = c :: s →
        (∀ ts, Reading ts → ts.flatMap Tok.source = s' → ∀ y ∈ ts.head?, t.MayFollow y) →
        ∃ ts, Reading ts ∧ ts.flatMap Tok.source = c :: s := by
      intro t s' hl ht he hf
      obtain ⟨ts, h1, h2⟩ := exists_reading k s' hl
      refine ⟨t :: ts, ⟨?_, List.isChain_cons.mpr ⟨hf ts h1 h2, h1.2⟩⟩, ?_⟩
      · intro x hx
        rcases List.mem_cons.mp hx with rfl | hx
        · exact ht
        · exact h1.1 x hx
      · rw [List.flatMap_cons, h2, he]
    have hhead : ∀ (ts : List Tok), Reading ts → ∀ y ∈ ts.head?, ∃ c,
        (ts.flatMap Tok.source).head? = some c ∧ (isWord c = true ↔ ∃ w, y = .word w) ∧
        (c = '<' ↔ y = .leftContraction ∨ y = .anticommutator) ∧
        (c = '>' ↔ y = .rightContraction ∨ y = .commutator) ∧ (c = '{' ↔ y = .other '{') := by
      intro ts hts y hy
      cases ts with
      | nil => simp at hy
      | cons u us =>
        simp only [List.head?_cons, Option.mem_def, Option.some.injEq] at hy
        subst hy
        rw [List.flatMap_cons]
        exact head_source (hts.1 u (by simp)) _
    by_cases hw : isWord c = true
    · refine key (.word ((c :: s).takeWhile isWord)) ((c :: s).dropWhile isWord) ?_ ?_ ?_ ?_
      · rw [List.dropWhile_cons_of_pos hw]
        exact (List.dropWhile_suffix _).length_le.trans hk
      · refine ⟨?_, ?_⟩
        · rw [List.takeWhile_cons_of_pos hw]; simp
        · intro d hd
          exact isWord_iff.mp (List.mem_takeWhile_imp hd)
      · exact List.takeWhile_append_dropWhile
      · intro ts hts he y hy
        obtain ⟨d, h1, h2, -⟩ := hhead ts hts y hy
        rw [he] at h1
        have hd : isWord d = false := by
          have hne : (c :: s).dropWhile isWord ≠ [] := by
            intro e; rw [e] at h1; simp at h1
          have h3 := List.head_dropWhile_not isWord (l := c :: s) hne
          rw [List.head?_eq_some_head hne, Option.some.injEq] at h1
          rw [h1] at h3
          exact h3
        cases y with
        | word w =>
          have := h2.mpr ⟨w, rfl⟩
          rw [hd] at this
          exact absurd this (by simp)
        | _ => trivial
    · rw [Bool.not_eq_true] at hw
      by_cases h1 : c = '|'
      · subst h1
        exact key .inner s hk trivial rfl fun _ _ _ y _ => by cases y <;> trivial
      by_cases h2 : c = '*'
      · subst h2
        exact key .product s hk trivial rfl fun _ _ _ y _ => by cases y <;> trivial
      by_cases h3 : c = '^'
      · subst h3
        by_cases hs : s.head? = some '{'
        · obtain ⟨s', rfl⟩ : ∃ s', s = '{' :: s' := by
            cases s with
            | nil => simp at hs
            | cons d s => simp only [List.head?_cons, Option.some.injEq] at hs; exact ⟨s, by rw [hs]⟩
          refine key .superscript s' ?_ trivial rfl fun _ _ _ y _ => by cases y <;> trivial
          simp at hk; omega
        · refine key .wedge s hk trivial rfl fun ts hts he y hy => ?_
          cases y with
          | other d =>
            obtain ⟨e, g1, -, -, -, g2⟩ := hhead ts hts _ hy
            rintro rfl
            rw [he, g2.mpr rfl] at g1
            exact hs g1
          | _ => trivial
      by_cases h4 : c = '<'
      · subst h4
        by_cases hs : s.head? = some '<'
        · obtain ⟨s', rfl⟩ : ∃ s', s = '<' :: s' := by
            cases s with
            | nil => simp at hs
            | cons d s => simp only [List.head?_cons, Option.some.injEq] at hs; exact ⟨s, by rw [hs]⟩
          refine key .anticommutator s' ?_ trivial rfl fun _ _ _ y _ => by cases y <;> trivial
          simp at hk; omega
        · refine key .leftContraction s hk trivial rfl fun ts hts he y hy => ?_
          obtain ⟨e, g1, -, g2, -, -⟩ := hhead ts hts _ hy
          rw [he] at g1
          cases y with
          | leftContraction => exact absurd (g2.mpr (by simp) ▸ g1) hs
          | anticommutator => exact absurd (g2.mpr (by simp) ▸ g1) hs
          | _ => trivial
      by_cases h5 : c = '>'
      · subst h5
        by_cases hs : s.head? = some '>'
        · obtain ⟨s', rfl⟩ : ∃ s', s = '>' :: s' := by
            cases s with
            | nil => simp at hs
            | cons d s => simp only [List.head?_cons, Option.some.injEq] at hs; exact ⟨s, by rw [hs]⟩
          refine key .commutator s' ?_ trivial rfl fun _ _ _ y _ => by cases y <;> trivial
          simp at hk; omega
        · refine key .rightContraction s hk trivial rfl fun ts hts he y hy => ?_
          obtain ⟨e, g1, -, -, g2, -⟩ := hhead ts hts _ hy
          rw [he] at g1
          cases y with
          | rightContraction => exact absurd (g2.mpr (by simp) ▸ g1) hs
          | commutator => exact absurd (g2.mpr (by simp) ▸ g1) hs
          | _ => trivial
      · refine key (.other c) s hk ⟨fun e => ?_, ?_⟩ rfl fun _ _ _ y _ => by cases y <;> trivial
        · rw [isWord_iff.mpr e] at hw; exact absurd hw (by simp)
        · simp [h1, h2, h3, h4, h5]

end GA.Tex
