import Verif.Proofs.Tex
import Verif.Props.C56

/-!
# C77: post-processing of captured output

`texify` is `_texify`, which turns the notation of Python operators into LaTeX; `body` makes the body of
the document of `tex` out of the captured text.  `Reading` (in `Spec/Tex`) says how a string is read as
words and operators.
-/

set_option linter.unusedSectionVars false
set_option maxRecDepth 10000

namespace GA.Tex

/-- C77: every string is a sequence of words, operators and other characters … -/
theorem C77_readable (s : List Char) : ∃ ts, Reading ts ∧ ts.flatMap Tok.source = s :=
  exists_reading s.length s le_rfl

/-- C77: … and the left hand side of an equation is translated word by word and operator by operator. -/
theorem C77_operators {ts : List Tok} (h : Reading ts) :
    texify (ts.flatMap Tok.source) = ts.flatMap Tok.latex :=
  sub_tokens ts false h (by simp)

/-- The hypotheses are met: `grad^A>>x^{2}`. -/
example : Reading [.word "grad".toList, .wedge, .word ['A'], .commutator, .word ['x'], .superscript,
    .word ['2'], .other '}'] :=
  ⟨by simp [Tok.Valid, IsWordChar], by simp [Tok.MayFollow]⟩

theorem mem_latex {t : Tok} (h : t.Valid) {c : Char} (hc : c ∈ t.latex) :
    c ≠ '|' ∧ c ≠ '*' ∧ c ≠ '<' ∧ c ≠ '>' := by
  cases t with
  | word w =>
    have hw : c ∈ wordLatex w := hc
    unfold wordLatex at hw
    split_ifs at hw
    · clear hc; revert hw; revert c; clear * -; decide +kernel
    · clear hc; revert hw; revert c; clear * -; decide +kernel
    · have := not_op_of_word (isWord_iff.mpr (h.2 c hw))
      exact ⟨this.1, this.2.2.1, this.2.2.2.1, this.2.2.2.2.1⟩
  | other d =>
    simp only [Tok.latex, List.mem_singleton] at hc
    subst hc
    have := h.2
    simp only [List.mem_cons, List.not_mem_nil, or_false, not_or] at this
    tauto
  | _ => revert c; simp only [Tok.latex]; decide

theorem caret_latex {t : Tok} (h : t.Valid) {a b : List Char} (e : t.latex = a ++ '^' :: b) :
    b.head? = some '{' := by
  have hmem : '^' ∈ t.latex := by rw [e]; simp
  cases t with
  | word w =>
    have hw : '^' ∈ wordLatex w := hmem
    unfold wordLatex at hw
    split_ifs at hw
    · exact absurd hw (by decide +kernel)
    · exact absurd hw (by decide +kernel)
    · exact absurd (isWord_iff.mpr (h.2 _ hw)) (by decide)
  | other d =>
    simp only [Tok.latex, List.mem_singleton] at hmem
    have := h.2
    rw [← hmem] at this
    simp at this
  | superscript =>
    simp only [Tok.latex] at e
    match a, e with
    | [], e => simp at e; rw [← e]; rfl
    | [x], e => simp at e
    | x :: y :: a, e => simp at e
  | _ => exact absurd hmem (by simp only [Tok.latex]; decide)

/-- C77: no operator of Python is left in a translated left hand side, and a caret is left only in a
superscript `^{`. -/
theorem C77_no_operator_left (s : List Char) :
    (∀ c ∈ texify s, c ≠ '|' ∧ c ≠ '*' ∧ c ≠ '<' ∧ c ≠ '>') ∧
    ∀ a b, texify s = a ++ '^' :: b → b.head? = some '{' := by
  obtain ⟨ts, h, rfl⟩ := C77_readable s
  rw [C77_operators h]
  constructor
  · intro c hc
    obtain ⟨t, ht, hc⟩ := List.mem_flatMap.mp hc
    exact mem_latex (h.1 t ht) hc
  · intro a b e
    have hv := h.1
    clear h
    induction ts generalizing a with
    | nil => simp at e
    | cons t ts ih =>
      rw [List.flatMap_cons] at e
      rcases List.append_eq_append_iff.mp e with ⟨x, h1, h2⟩ | ⟨x, h1, h2⟩
      · exact ih x h2 fun u hu => hv u (by simp [hu])
      · cases x with
        | nil =>
          rw [List.nil_append] at h2
          exact ih [] h2.symm fun u hu => hv u (by simp [hu])
        | cons y x =>
          rw [List.cons_append, List.cons.injEq] at h2
          obtain ⟨rfl, rfl⟩ := h2
          have := caret_latex (hv t (by simp)) h1
          cases x with
          | nil => simp at this
          | cons z x => simpa using this

/-- The lines of a text that are not empty. -/
def contentLines (s : List Char) : List (List Char) := (splitOn '\n' s).filter (· ≠ [])

theorem splitOn_cons_ne {c x : Char} (h : x ≠ c) (s : List Char) : ∃ w ws,
    splitOn c s = w :: ws ∧ splitOn c (x :: s) = (x :: w) :: ws := by
  cases hs : splitOn c s with
  | nil => exact absurd hs (splitOn_ne_nil c s)
  | cons w ws => exact ⟨w, ws, rfl, by rw [splitOn, if_neg h, hs]⟩

theorem contentLines_squeeze (s : List Char) : contentLines (squeeze s) = contentLines s ∧
    (splitOn '\n' (squeeze s)).head? = (splitOn '\n' s).head? := by
  fun_induction squeeze s with
  | case1 => simp
  | case2 c => simp
  | case3 a b s h ih =>
    obtain ⟨rfl, rfl⟩ := h
    have e1 : ∀ t : List Char, splitOn '\n' ('\n' :: t) = [] :: splitOn '\n' t := by
      intro t; rw [splitOn, if_pos rfl]
    simp only [contentLines, e1] at ih ⊢
    simp only [List.head?_cons, and_true]
    simpa using ih.1
  | case4 a b s h ih =>
    by_cases ha : a = '\n'
    · subst ha
      simp only [contentLines] at ih ⊢
      rw [splitOn, if_pos rfl, splitOn, if_pos rfl]
      simp only [List.head?_cons, and_true]
      simpa using ih.1
    · obtain ⟨w, ws, h1, h2⟩ := splitOn_cons_ne ha (squeeze (b :: s))
      obtain ⟨v, vs, h3, h4⟩ := splitOn_cons_ne ha (b :: s)
      simp only [contentLines] at ih ⊢
      rw [h2, h4]
      rw [h1, h3] at ih
      obtain ⟨i1, i2⟩ := ih
      simp only [List.head?_cons, Option.some.injEq] at i2
      subst i2
      refine ⟨?_, rfl⟩
      by_cases hw : w = []
      · subst hw; simpa using i1
      · simpa [hw] using i1

theorem contentLines_flatten {ls : List (List Char)} (h : ∀ l ∈ ls, '\n' ∉ l) :
    contentLines (ls.map fun l => l ++ ['\n']).flatten = ls.filter (· ≠ []) := by
  induction ls with
  | nil => simp [contentLines, splitOn]
  | cons l ls ih =>
    have hl := h l (by simp)
    have ih := ih fun x hx => h x (by simp [hx])
    rw [List.map_cons, List.flatten_cons, List.append_assoc, List.singleton_append, contentLines,
      splitOn_append hl]
    simp only [List.filter_cons]
    rw [← ih, contentLines]

theorem not_mem_texify {c : Char} {s : List Char} (h : c ∉ s) (hc : ∀ p ∈ replPairs, c ∉ p.2) :
    c ∉ texify s := by
  have hm : ∀ pw (t : List Char) k r, matchAt pw t = some (k, r) → c ∉ r := by
    intro pw t k r e
    unfold matchAt at e
    obtain ⟨p, hp, e⟩ := List.exists_of_findSome?_eq_some e
    simp only [Option.map_eq_some_iff, Prod.mk.injEq] at e
    obtain ⟨_, _, _, rfl⟩ := e
    exact hc p hp
  have key : ∀ (s : List Char) (k : ℕ) (pw : Bool), c ∉ s → c ∉ sub k pw s := by
    intro s
    induction s with
    | nil => intro k pw _; cases k <;> simp [sub]
    | cons x s ih =>
      intro k pw hx
      rw [List.mem_cons, not_or] at hx
      cases k with
      | succ k => rw [sub]; exact ih _ _ hx.2
      | zero =>
        rw [sub]
        cases hmt : matchAt pw (x :: s) with
        | none =>
          simp only
          rw [List.mem_cons, not_or]
          exact ⟨hx.1, ih _ _ hx.2⟩
        | some q =>
          obtain ⟨k, r⟩ := q
          simp only
          rw [List.mem_append, not_or]
          exact ⟨hm _ _ _ _ hmt, ih _ _ hx.2⟩
  exact key s 0 false h

theorem newline_replPairs : ∀ p ∈ replPairs, '\n' ∉ p.2 := by
  simp only [replPairs, List.forall_mem_cons]
  decide +kernel

theorem rsplitEq_some {l r : List Char} (hr : '=' ∉ r) : rsplitEq (l ++ '=' :: r) = some (l, r) := by
  have hn : ∀ r : List Char, '=' ∉ r → rsplitEq r = none := by
    intro r
    induction r with
    | nil => intro _; rfl
    | cons c r ih =>
      intro h
      rw [List.mem_cons, not_or] at h
      rw [rsplitEq, ih h.2]
      simp [Ne.symm h.1]
  induction l with
  | nil => rw [List.nil_append, rsplitEq, hn r hr]; simp
  | cons c l ih => rw [List.cons_append, rsplitEq, ih]

theorem rsplitEq_none {r : List Char} (h : '=' ∉ r) : rsplitEq r = none := by
  induction r with
  | nil => rfl
  | cons c r ih =>
    rw [List.mem_cons, not_or] at h
    rw [rsplitEq, ih h.2]
    simp [Ne.symm h.1]

theorem rsplitEq_mem {s l r : List Char} (h : rsplitEq s = some (l, r)) : s = l ++ '=' :: r := by
  induction s generalizing l with
  | nil => simp [rsplitEq] at h
  | cons c s ih =>
    rw [rsplitEq] at h
    cases hs : rsplitEq s with
    | none =>
      rw [hs] at h
      simp only at h
      split_ifs at h with hc
      simp only [Option.some.injEq, Prod.mk.injEq] at h
      obtain ⟨rfl, rfl⟩ := h
      rw [hc]
      rfl
    | some q =>
      obtain ⟨l', r'⟩ := q
      rw [hs] at h
      simp only [Option.some.injEq, Prod.mk.injEq] at h
      obtain ⟨rfl, rfl⟩ := h
      rw [ih hs]
      rfl

theorem removeFirst_none {p s : List Char} (h : ¬ p <:+: s) : removeFirst p s = none := by
  induction s with
  | nil =>
    rw [removeFirst, if_neg]
    rintro rfl
    exact h (List.nil_infix)
  | cons c s ih =>
    rw [removeFirst, if_neg, ih]
    · rfl
    · exact fun hi => h (hi.trans (List.suffix_cons c s).isInfix)
    · rw [List.isPrefixOf_iff_prefix]
      exact fun hp => h hp.isInfix

theorem removeFirst_mem {p s t : List Char} (h : removeFirst p s = some t) {c : Char} (hc : c ∈ t) :
    c ∈ s := by
  induction s generalizing t with
  | nil =>
    rw [removeFirst] at h
    split_ifs at h
    simp only [Option.some.injEq] at h
    rw [← h] at hc
    exact hc
  | cons d s ih =>
    rw [removeFirst] at h
    split_ifs at h
    · simp only [Option.some.injEq] at h
      rw [← h] at hc
      exact List.mem_of_mem_drop hc
    · cases hs : removeFirst p s with
      | none => rw [hs] at h; simp at h
      | some u =>
        rw [hs] at h
        simp only [Option.map_some, Option.some.injEq] at h
        rw [← h] at hc
        rcases List.mem_cons.mp hc with rfl | hc
        · simp
        · exact List.mem_cons_of_mem _ (ih hs hc)

theorem removeFirst_some {p : List Char} (hp : p ≠ []) {a : List Char}
    (h : ¬ p <:+: a ++ p.dropLast) (b : List Char) : removeFirst p (a ++ p ++ b) = some (a ++ b) := by
  induction a with
  | nil =>
    obtain ⟨c, p, rfl⟩ := List.exists_cons_of_ne_nil hp
    rw [List.nil_append, List.cons_append, removeFirst, if_pos]
    · rw [← List.cons_append, List.drop_left]; rfl
    · rw [List.isPrefixOf_iff_prefix]
      exact ⟨b, rfl⟩
  | cons c a ih =>
    rw [List.cons_append, List.cons_append, removeFirst, if_neg, ih]
    · rfl
    · exact fun hi => h (hi.trans (List.suffix_cons c _).isInfix)
    · rw [List.isPrefixOf_iff_prefix]
      intro hpre
      refine h ?_
      have h1 : p <+: (c :: a ++ p.dropLast) ++ (p.getLast hp :: b) := by
        have : (c :: a ++ p.dropLast) ++ (p.getLast hp :: b) = c :: (a ++ p ++ b) := by
          conv_rhs => rw [← List.dropLast_append_getLast hp]
          simp
        rw [this]
        exact hpre
      have h2 : (c :: a ++ p.dropLast) <+: (c :: a ++ p.dropLast) ++ (p.getLast hp :: b) :=
        List.prefix_append _ _
      have h3 : p.length ≤ (c :: a ++ p.dropLast).length := by
        simp; omega
      exact (List.prefix_of_prefix_length_le h1 h2 h3).isInfix

theorem not_mem_lstrip {c : Char} {s : List Char} (h : c ∉ s) : c ∉ lstrip s :=
  fun hc => h ((List.dropWhile_suffix _).subset hc)

theorem not_mem_strip {c : Char} {s : List Char} (h : c ∉ s) : c ∉ strip s := by
  unfold strip
  rw [List.mem_reverse]
  refine not_mem_lstrip ?_
  rw [List.mem_reverse]
  exact not_mem_lstrip h

theorem not_mem_wrap {s : List Char} (h : '\n' ∉ s) : '\n' ∉ wrap s := by
  unfold wrap
  cases hr : removeFirst "\\begin{align*}".toList s with
  | none =>
    simp only [List.mem_append, not_or]
    exact ⟨⟨by decide +kernel, not_mem_strip h⟩, by decide +kernel⟩
  | some t =>
    simp only [List.mem_append, not_or]
    exact ⟨by decide +kernel, not_mem_lstrip fun hc => h (removeFirst_mem hr hc)⟩

theorem not_mem_line {code : Bool} {l : List Char} (h : '\n' ∉ l) : '\n' ∉ (line code l).2 := by
  have hd : ∀ k, '\n' ∉ l.drop k := fun k hc => h (List.mem_of_mem_drop hc)
  unfold line
  split_ifs
  · exact h
  · exact hd 2
  · exact h
  · exact hd 1
  · exact not_mem_wrap (hd 1)
  · exact not_mem_wrap (hd 2)
  · cases hr : rsplitEq l with
    | none => exact not_mem_wrap h
    | some q =>
      obtain ⟨a, b⟩ := q
      have := rsplitEq_mem hr
      rw [this] at h
      simp only [List.mem_append, List.mem_cons, not_or] at h
      refine not_mem_wrap ?_
      simp only [List.mem_append, List.mem_cons, not_or]
      exact ⟨not_mem_texify h.1 newline_replPairs, h.2⟩

theorem not_mem_lines {code : Bool} {ls : List (List Char)} (h : ∀ l ∈ ls, '\n' ∉ l) :
    ∀ l ∈ lines code ls, '\n' ∉ l := by
  induction ls generalizing code with
  | nil => simp [lines]
  | cons l ls ih =>
    intro m hm
    rw [lines] at hm
    rcases List.mem_cons.mp hm with rfl | hm
    · exact not_mem_line (h l (by simp))
    · exact ih (fun x hx => h x (by simp [hx])) m hm

theorem contentLines_body (text : List Char) :
    contentLines (body text) = (lines false (splitOn '\n' text)).filter (· ≠ []) := by
  rw [body, (contentLines_squeeze _).1, contentLines_flatten]
  refine not_mem_lines fun l hl hc => mem_splitOn hl hc rfl

/-- The line begins with `##`. -/
def IsToggle (l : List Char) : Prop := ['#', '#'] <+: l

theorem line_toggle {code : Bool} {l : List Char} (h : IsToggle l) :
    line code l = (!code, l.drop 2) := by
  have hne : l ≠ [] := by rintro rfl; exact absurd h (by simp [IsToggle])
  unfold line
  rw [if_neg hne, if_pos (List.isPrefixOf_iff_prefix.mpr h)]

theorem line_fst {code : Bool} {l : List Char} (h : ¬ IsToggle l) : (line code l).1 = code := by
  unfold line
  rw [if_neg (c := (['#', '#'].isPrefixOf l = true)) (by rw [List.isPrefixOf_iff_prefix]; exact h)]
  split_ifs <;> try rfl
  cases rsplitEq l <;> rfl

theorem lines_append (code : Bool) {a : List (List Char)} (h : ∀ l ∈ a, ¬ IsToggle l)
    (b : List (List Char)) : lines code (a ++ b) = lines code a ++ lines code b := by
  induction a with
  | nil => rfl
  | cons l a ih =>
    rw [List.cons_append, lines, lines, line_fst (h l (by simp)), ih fun x hx => h x (by simp [hx])]
    rfl

theorem lines_map {a : List (List Char)} (h : ∀ l ∈ a, ¬ IsToggle l) (code : Bool) :
    lines code a = a.map fun l => (line code l).2 := by
  induction a with
  | nil => rfl
  | cons l a ih =>
    rw [lines, line_fst (h l (by simp)), ih fun x hx => h x (by simp [hx])]
    rfl

theorem line_code {l : List Char} (h : ¬ IsToggle l) : (line true l).2 = l := by
  unfold line
  rw [if_neg (c := (['#', '#'].isPrefixOf l = true)) (by rw [List.isPrefixOf_iff_prefix]; exact h)]
  split_ifs <;> first | rfl | simp_all

theorem lines_code {a : List (List Char)} (h : ∀ l ∈ a, ¬ IsToggle l) : lines true a = a := by
  induction a with
  | nil => rfl
  | cons l a ih =>
    rw [lines, line_fst (h l (by simp)), ih fun x hx => h x (by simp [hx]), line_code (h l (by simp))]

theorem filter_lines_join {ls : List (List Char)} (hn : ∀ l ∈ ls, '\n' ∉ l) (code : Bool) :
    (lines code (splitOn '\n' (joinWith '\n' ls))).filter (· ≠ []) =
      (lines code ls).filter (· ≠ []) := by
  cases ls with
  | nil => cases code <;> simp [joinWith, splitOn, lines, line]
  | cons l ls => rw [splitOn_joinWith (by simp) hn]

/-- C77: without lines that begin with `##`, each line is processed by itself. -/
theorem C77_each_line {ls : List (List Char)} (hn : ∀ l ∈ ls, '\n' ∉ l)
    (ht : ∀ l ∈ ls, ¬ IsToggle l) :
    contentLines (body (joinWith '\n' ls)) = ls.flatMap fun l => contentLines (body l) := by
  rw [contentLines_body, filter_lines_join hn, lines_map ht]
  induction ls with
  | nil => rfl
  | cons l ls ih =>
    rw [List.flatMap_cons, List.map_cons, List.filter_cons, ih (fun x hx => hn x (by simp [hx]))
      (fun x hx => ht x (by simp [hx])), contentLines_body, splitOn_of_not_mem (hn l (by simp))]
    simp only [lines, List.filter_cons, List.filter_nil]
    split_ifs <;> rfl

/-- C77: the lines between two lines that begin with `##` are unchanged, and what comes before and after
them is processed independently of them. -/
theorem C77_verbatim {a code b : List (List Char)} {x y : List Char}
    (ha : ∀ l ∈ a, '\n' ∉ l ∧ ¬ IsToggle l) (hc : ∀ l ∈ code, '\n' ∉ l ∧ ¬ IsToggle l)
    (hb : ∀ l ∈ b, '\n' ∉ l) (hx : '\n' ∉ x) (hy : '\n' ∉ y) :
    contentLines (body (joinWith '\n' (a ++ ['#' :: '#' :: x] ++ code ++ ['#' :: '#' :: y] ++ b))) =
      contentLines (body (joinWith '\n' a)) ++ ([x] ++ code ++ [y]).filter (· ≠ []) ++
        contentLines (body (joinWith '\n' b)) := by
  have hall : ∀ l ∈ a ++ ['#' :: '#' :: x] ++ code ++ ['#' :: '#' :: y] ++ b, '\n' ∉ l := by
    intro l hl
    simp only [List.mem_append, List.mem_singleton] at hl
    rcases hl with (((h | rfl) | h) | rfl) | h
    · exact (ha l h).1
    · simpa using hx
    · exact (hc l h).1
    · simpa using hy
    · exact hb l h
  rw [contentLines_body, contentLines_body, contentLines_body, filter_lines_join hall,
    filter_lines_join fun l hl => (ha l hl).1, filter_lines_join hb]
  rw [List.append_assoc, List.append_assoc, List.append_assoc, lines_append _ fun l hl => (ha l hl).2]
  rw [List.singleton_append, lines, line_toggle (l := '#' :: '#' :: x) ⟨x, rfl⟩]
  simp only [Bool.not_false]
  rw [lines_append _ fun l hl => (hc l hl).2, lines_code fun l hl => (hc l hl).2,
    List.singleton_append, lines, line_toggle (l := '#' :: '#' :: y) ⟨y, rfl⟩]
  simp only [Bool.not_true, List.filter_append, List.drop_succ_cons, List.drop_zero]
  simp only [List.filter_cons, List.filter_append]
  by_cases h1 : x = [] <;> by_cases h2 : y = [] <;> simp [h1, h2]

theorem lstrip_spec (x : List Char) : LeftStripped x (lstrip x) := by
  refine ⟨x.takeWhile Char.isWhitespace, (List.takeWhile_append_dropWhile).symm,
    fun c hc => List.mem_takeWhile_imp hc, ?_⟩
  intro c hc
  have hne : lstrip x ≠ [] := by
    intro e; rw [e] at hc; simp at hc
  have h3 := List.head_dropWhile_not Char.isWhitespace (l := x) hne
  rw [List.head?_eq_some_head hne, Option.mem_def, Option.some.injEq] at hc
  rw [← hc]
  exact h3

theorem strip_spec (x : List Char) : Stripped x (strip x) := by
  obtain ⟨a, h1, h2, h3⟩ := lstrip_spec x
  obtain ⟨b, h4, h5, h6⟩ := lstrip_spec (lstrip x).reverse
  have h7 : lstrip x = strip x ++ b.reverse := by
    have := congrArg List.reverse h4
    rw [List.reverse_reverse, List.reverse_append] at this
    exact this
  refine ⟨a, b.reverse, ?_, h2, ?_, ?_, ?_⟩
  · rw [List.append_assoc, ← h7]; exact h1
  · intro c hc
    exact h5 c (by simpa using hc)
  · intro c hc
    refine h3 c ?_
    rw [h7]
    cases hs : strip x with
    | nil => rw [hs] at hc; simp at hc
    | cons d s => rw [hs] at hc; simpa using hc
  · intro c hc
    refine h6 c ?_
    unfold strip at hc
    rwa [List.getLast?_reverse] at hc

theorem exists_first {p : List Char} (hp : p ≠ []) {x : List Char} (h : p <:+: x) :
    ∃ a b, x = a ++ p ++ b ∧ ¬ p <:+: a ++ p.dropLast := by
  have key : ∀ k (x : List Char), x.length ≤ k → p <:+: x →
      ∃ a b, x = a ++ p ++ b ∧ ¬ p <:+: a ++ p.dropLast := by
    intro k
    induction k with
    | zero =>
      intro x hx hi
      have : x = [] := List.length_eq_zero_iff.mp (by omega)
      subst this
      exact absurd (List.infix_nil.mp hi) hp
    | succ k ih =>
      intro x hx hi
      obtain ⟨a, b, rfl⟩ := hi
      by_cases hd : p <:+: a ++ p.dropLast
      · have hl : (a ++ p.dropLast).length ≤ k := by
          have := List.length_pos_iff.mpr hp
          simp at hx ⊢
          omega
        obtain ⟨a', b', e, hf⟩ := ih _ hl hd
        refine ⟨a', b' ++ p.getLast hp :: b, ?_, hf⟩
        calc a ++ p ++ b = (a ++ p.dropLast) ++ (p.getLast hp :: b) := by
              conv_lhs => rw [← List.dropLast_append_getLast hp]
              simp
          _ = _ := by rw [e]; simp
      · exact ⟨a, b, rfl, hd⟩
  exact key _ x le_rfl h

theorem beginAlign_ne : beginAlign ≠ [] := by decide +kernel

theorem wrap_spec (x : List Char) : InEnvironment x (wrap x) := by
  have e0 : "\\begin{align*}".toList = beginAlign := rfl
  by_cases h : beginAlign <:+: x
  · obtain ⟨a, b, rfl, hf⟩ := exists_first beginAlign_ne h
    refine Or.inr ⟨a, b, lstrip (a ++ b), rfl, hf, lstrip_spec _, ?_⟩
    unfold wrap
    rw [e0, removeFirst_some beginAlign_ne hf]
  · refine Or.inl ⟨h, strip x, strip_spec x, ?_⟩
    unfold wrap
    rw [e0, removeFirst_none h]

theorem wrap_ne (x : List Char) : wrap x ≠ [] := by
  rcases wrap_spec x with ⟨-, y, -, e⟩ | ⟨a, b, z, -, -, -, e⟩
  · rw [e]
    intro h
    have := congrArg List.length h
    simp at this
  · rw [e]
    intro h
    have := congrArg List.length h
    simp at this

theorem contentLines_single {l : List Char} (hn : '\n' ∉ l) :
    contentLines (body l) = [(line false l).2].filter (· ≠ []) := by
  rw [contentLines_body, splitOn_of_not_mem hn]
  rfl

/-- C77: a line that begins with a single `#` is unchanged, without the `#`. -/
theorem C77_raw {x : List Char} (hn : '\n' ∉ x) (h : x.head? ≠ some '#' ∧ x.head? ≠ some '%') :
    contentLines (body ('#' :: x)) = [x].filter (· ≠ []) := by
  rw [contentLines_single (by simpa using hn)]
  have h1 : ¬ (['#', '#'].isPrefixOf ('#' :: x) = true) := by
    cases x with
    | nil => decide
    | cons c x => simp [List.isPrefixOf] at h ⊢; exact fun e => h.1 e.symm
  have h2 : ¬ (['#', '%'].isPrefixOf ('#' :: x) = true) := by
    cases x with
    | nil => decide
    | cons c x => simp [List.isPrefixOf] at h ⊢; exact fun e => h.2 e.symm
  have h3 : ['#'].isPrefixOf ('#' :: x) = true := by simp [List.isPrefixOf]
  have : (line false ('#' :: x)).2 = x := by
    unfold line
    rw [if_neg (by simp), if_neg h1, if_neg (by simp), if_pos ⟨h3, h2⟩]
    rfl
  rw [this]

/-- C77: a line that begins with `%` or `#%` is put in an environment, and not changed otherwise. -/
theorem C77_unconverted {x : List Char} (hn : '\n' ∉ x) :
    (∃ out, InEnvironment x out ∧ contentLines (body ('%' :: x)) = [out]) ∧
    ∃ out, InEnvironment x out ∧ contentLines (body ('#' :: '%' :: x)) = [out] := by
  constructor
  · refine ⟨wrap x, wrap_spec x, ?_⟩
    rw [contentLines_single (by simpa using hn)]
    have : (line false ('%' :: x)).2 = wrap x := by
      simp [line, List.isPrefixOf]
    rw [this]
    simp [wrap_ne]
  · refine ⟨wrap x, wrap_spec x, ?_⟩
    rw [contentLines_single (by simpa using hn)]
    have : (line false ('#' :: '%' :: x)).2 = wrap x := by
      simp [line, List.isPrefixOf]
    rw [this]
    simp [wrap_ne]

theorem line_ordinary {l : List Char} (h0 : l ≠ []) (h : l.head? ≠ some '#' ∧ l.head? ≠ some '%') :
    line false l = match rsplitEq l with
      | some (lhs, rhs) => (false, wrap (texify lhs ++ '=' :: rhs))
      | none => (false, wrap l) := by
  obtain ⟨c, l, rfl⟩ := List.exists_cons_of_ne_nil h0
  simp only [List.head?_cons, ne_eq, Option.some.injEq] at h
  have e1 : ¬ '#' = c := fun e => h.1 e.symm
  have e2 : ¬ '%' = c := fun e => h.2 e.symm
  unfold line
  simp [List.isPrefixOf, e1, e2]
  cases rsplitEq (c :: l) <;> rfl

/-- C77: in an equation everything on the left of the last `=` is translated, and the rest is
unchanged; the result is put in an environment. -/
theorem C77_equation {lhs rhs : List Char} (hn : '\n' ∉ lhs ∧ '\n' ∉ rhs) (hr : '=' ∉ rhs)
    (h : lhs.head? ≠ some '#' ∧ lhs.head? ≠ some '%') {ts : List Tok} (ht : Reading ts)
    (hs : ts.flatMap Tok.source = lhs) : ∃ out,
    InEnvironment (ts.flatMap Tok.latex ++ '=' :: rhs) out ∧
      contentLines (body (lhs ++ '=' :: rhs)) = [out] := by
  refine ⟨_, wrap_spec _, ?_⟩
  rw [contentLines_single (by simp [hn])]
  rw [line_ordinary (by simp), rsplitEq_some hr]
  · simp only
    rw [← C77_operators ht, hs]
    simp [wrap_ne]
  · cases lhs with
    | nil => simp
    | cons c l => simpa using h

/-- C77: a line without `=` is put in an environment, and not changed otherwise. -/
theorem C77_no_equation {x : List Char} (hn : '\n' ∉ x) (he : '=' ∉ x) (h0 : x ≠ [])
    (h : x.head? ≠ some '#' ∧ x.head? ≠ some '%') :
    ∃ out, InEnvironment x out ∧ contentLines (body x) = [out] := by
  refine ⟨_, wrap_spec _, ?_⟩
  rw [contentLines_single hn, line_ordinary h0 h, rsplitEq_none he]
  simp [wrap_ne]

/-- The hypotheses are met, and the body of a document. -/
example : body "A^B|grad = x^2\n#raw\n##code: {\na*b = c\n##}\n%p*q = r\nlabel\\begin{align*} u".toList =
    ("\\begin{equation*} A\\W B\\cdot \\boldsymbol{\\nabla}  = x^2 \\end{equation*}\nraw\ncode: {\n" ++
      "a*b = c\n}\n\\begin{equation*} p*q = r \\end{equation*}\n\\begin{align*} label u\n").toList := by
  decide +kernel

/-- The claim fails for `align*` environments with an equation in them: their beginning is translated
like a product, and they are put in an `equation*`. -/
theorem C77_align_counterexample : body "\\begin{align*} A = B \\end{align*}".toList =
    "\\begin{equation*} \\begin{align } A = B \\end{align*} \\end{equation*}\n".toList := by
  decide +kernel

/-- The claim fails for empty lines between lines that begin with `##`: they are left out. -/
theorem C77_empty_lines_counterexample :
    body "##\na\n\nb\n##".toList = "\na\nb\n".toList := by
  decide +kernel

end GA.Tex
