import Verif.Model.MvLatex
import Verif.Spec.MvLatex
import Verif.Proofs.Print
import Verif.Proofs.TexLex

/-!
# Facts on the LaTeX form of a multivector
-/

set_option linter.unusedSectionVars false
set_option maxRecDepth 10000

namespace GA
variable {n : ℕ} {R : Type*} [CommRing R] [DecidableEq R]

/-! ### blanks -/

/-- Blanks are the only white space. -/
def Blanks (s : List Char) : Prop := ∀ ch ∈ s, ch.isWhitespace = true → ch = ' '

theorem Blanks.append {s t : List Char} (hs : Blanks s) (ht : Blanks t) : Blanks (s ++ t) := by
  intro ch h
  rcases List.mem_append.mp h with h | h
  · exact hs ch h
  · exact ht ch h

theorem noSpace_lstrip {s : List Char} (h : Blanks s) : noSpace (Tex.lstrip s) = noSpace s := by
  induction s with
  | nil => rfl
  | cons c s ih =>
    have hs : Blanks s := fun ch hch => h ch (by simp [hch])
    rw [Tex.lstrip, List.dropWhile_cons]
    split_ifs with hc
    · rw [h c (by simp) hc]
      exact ih hs
    · rfl

theorem noSpace_reverse (s : List Char) : noSpace s.reverse = (noSpace s).reverse := List.filter_reverse

theorem blanks_lstrip {s : List Char} (h : Blanks s) : Blanks (Tex.lstrip s) := fun ch hch =>
  h ch ((List.dropWhile_sublist _).mem hch)

theorem noSpace_strip {s : List Char} (h : Blanks s) : noSpace (Tex.strip s) = noSpace s := by
  rw [Tex.strip, noSpace_reverse, noSpace_lstrip, noSpace_reverse, List.reverse_reverse, noSpace_lstrip h]
  intro ch hch
  exact blanks_lstrip h ch (List.mem_reverse.mp hch)

theorem strip_head {s : List Char} {x : Char} {r : List Char} (h : Tex.strip s = x :: r) :
    x.isWhitespace = false := by
  have h1 : ∀ t : List Char, ∀ y u, Tex.lstrip t = y :: u → y.isWhitespace = false := by
    intro t y u e
    have := List.head_dropWhile_not Char.isWhitespace (l := t) (by rw [show t.dropWhile _ = _ from e]; simp)
    simpa [show t.dropWhile Char.isWhitespace = _ from e] using this
  rw [Tex.strip] at h
  set t := Tex.lstrip s with ht
  have h2 : (Tex.lstrip t.reverse) <:+ t.reverse := List.dropWhile_suffix _
  have h3 : (x :: r) <+: t := by
    rw [← h]
    have := List.reverse_prefix.mpr h2
    rwa [List.reverse_reverse] at this
  obtain ⟨v, hv⟩ := h3
  exact h1 s x (r ++ v) (by rw [← ht, ← hv]; rfl)

/-! ### the text of a term -/

variable {P : Printer (Fin n) R (Sym n)}

theorem blanks_cbStr (hP : P.Tidy) (c : R) (b : Sym n) : Blanks (cbStr P c b) := by
  have h1 : Blanks "\\left ( ".toList := by
    intro ch hch; revert ch; decide
  have h2 : Blanks "\\right ) ".toList := by
    intro ch hch; revert ch; decide
  have h3 : ∀ b : Sym n, Blanks (if b = .blade [] then [] else P.base b) := by
    intro b; split_ifs
    · intro ch h; cases h
    · exact hP.base_blank b
  have h4 : Blanks [' '] := by intro ch h _; simpa using h
  have h5 : Blanks ['-'] := by intro ch hch; revert ch; decide
  have h6 : Blanks [] := by intro ch h; cases h
  rw [cbStr]
  split_ifs
  all_goals
    refine Blanks.append (Blanks.append ?_ ?_) ?_ <;>
    first
      | exact h4 | exact h6 | exact hP.coef_blank _ | exact hP.base_blank _ | exact h2 | exact h5
      | (refine Blanks.append h1 ?_; first | exact h6 | exact h5 | exact hP.coef_blank _)

theorem noSpace_cbStr (hP : P.Tidy) (c : R) (b : Sym n) :
    noSpace (cbStr P c b) = noSpace (termLatex P c b) := by
  have hb : noSpace [' '] = [] := rfl
  have hl : noSpace "\\left ( ".toList = noSpace "\\left (".toList := by decide
  have hr : noSpace "\\right ) ".toList = noSpace "\\right )".toList := by decide
  have ha : P.isAdd c = true → c ≠ 1 ∧ c ≠ -1 := fun h =>
    ⟨fun e => by rw [e, hP.add_one] at h; simp at h, fun e => by rw [e, hP.add_negOne] at h; simp at h⟩
  simp only [cbStr, termLatex]
  by_cases hbl : b = .blade []
  · simp only [hbl, ne_eq, not_true_eq_false, and_false, false_and, if_false, if_true, List.append_nil]
    split_ifs
    · rw [noSpace_append, noSpace_append, noSpace_append, noSpace_append, hl, hr]
    · rw [noSpace_append, hb, List.append_nil]
  · simp only [hbl, ne_eq, not_false_eq_true, and_true, true_and, if_false, hP.one]
    by_cases h1 : c = 1
    · subst h1
      simp [hP.add_one, noSpace]
    · by_cases h2 : c = -1
      · have h2' := (hP.negOne c).mpr h2
        simp only [if_neg h1, if_pos h2', if_pos h2]
        rw [if_neg (by rw [h2, hP.add_negOne]; simp), if_neg (by rw [h2, hP.add_negOne]; simp)]
        simp [noSpace]
      · have h2' := fun e => h2 ((hP.negOne c).mp e)
        simp only [if_neg h1, if_neg h2', if_neg h2]
        split_ifs
        · simp only [noSpace_append, hl, hr]
        · simp only [noSpace_append, hb, List.append_nil]

theorem noSpace_cons_ne {c : Char} (h : c ≠ ' ') (s : List Char) : noSpace (c :: s) = c :: noSpace s := by
  rw [noSpace, List.filter_cons, if_pos (by simpa using h)]; rfl

/-- The text of a term of a blade is not empty, and a minus sign in front makes it negative. -/
theorem termLatex_spec (hP : P.Tidy) (c : R) {b : Sym n} (hb : b ≠ .blade []) :
    noSpace (termLatex P c b) ≠ [] ∧
      ∀ s, noSpace (termLatex P c b) = '-' :: s → s = noSpace (termLatex P (-c) b) := by
  obtain ⟨x, r, hx, hx'⟩ := hP.base b
  simp only [termLatex, ne_eq, hb, not_false_eq_true, true_and, if_false]
  by_cases ha : P.isAdd c = true
  · rw [if_pos ha]
    constructor
    · rw [noSpace_append, hx]; simp
    · intro s hs
      rw [List.append_assoc, List.append_assoc, noSpace_append] at hs
      have : noSpace "\\left (".toList = '\\' :: "left(".toList := by decide
      rw [this] at hs
      simp at hs
  · rw [if_neg ha]
    by_cases h1 : c = 1
    · rw [if_pos h1, hx]
      refine ⟨by simp, fun s hs => absurd (List.cons.inj hs).1 hx'⟩
    · rw [if_neg h1]
      by_cases h2 : c = -1
      · subst h2
        rw [if_pos rfl, noSpace_cons_ne (by decide), neg_neg]
        simp only [hP.add_one, Bool.false_eq_true, if_false, if_true]
        exact ⟨by simp, fun s hs => (List.cons.inj hs).2.symm⟩
      · rw [if_neg h2]
        constructor
        · rw [noSpace_append, hx]; simp
        · intro s hs
          rw [noSpace_append] at hs
          cases hc : noSpace (P.coef c) with
          | nil =>
            rw [hc, hx] at hs
            exact absurd (List.cons.inj hs).1 hx'
          | cons y u =>
            rw [hc, List.cons_append] at hs
            obtain ⟨rfl, rfl⟩ := List.cons.inj hs
            obtain ⟨k1, k2⟩ := hP.neg c u (by simpa using ha) hc
            rw [if_neg (by rw [k1]; simp), if_neg (fun e => h2 (by rw [← e, neg_neg])),
              if_neg (fun e => h1 (by rw [← neg_neg c, e, neg_neg])), noSpace_append, k2]

theorem appendPlus_spec (hP : P.Tidy) (c : R) {b : Sym n} (hb : b ≠ .blade []) :
    ∃ t, appendPlus false (cbStr P c b) = some t ∧
      (noSpace t = '+' :: noSpace (termLatex P c b) ∨ noSpace t = '-' :: noSpace (termLatex P (-c) b)) := by
  have h1 := noSpace_strip (blanks_cbStr hP c b)
  rw [noSpace_cbStr hP] at h1
  obtain ⟨h2, h3⟩ := termLatex_spec hP c hb
  rw [appendPlus, if_neg (by simp)]
  cases hs : Tex.strip (cbStr P c b) with
  | nil =>
    rw [hs] at h1
    exact absurd h1.symm h2
  | cons x r =>
    have hx := strip_head hs
    have hx' : x ≠ ' ' := by rintro rfl; simp at hx
    refine ⟨_, rfl, ?_⟩
    rw [hs] at h1
    split_ifs with hm
    · right
      subst hm
      rw [noSpace_cons_ne hx'] at h1
      rw [← h3 _ h1.symm]
      rfl
    · left
      rw [noSpace_append, h1]
      rfl

/-! ### tokens -/

theorem cbStr_tokens (hP : P.Tidy) (hT : P.TidyTokens) (c : R) (b : Sym n) :
    Tex.Complete (cbStr P c b) ∧ Tex.lex (cbStr P c b) = termLex P c b := by
  have hb : Tex.Complete (if b = .blade [] then [] else P.base b) ∧
      Tex.lex (if b = .blade [] then [] else P.base b) =
        if b = .blade [] then [] else Tex.lex (P.base b) := by
    split_ifs
    · exact ⟨fun b _ => rfl, rfl⟩
    · exact ⟨hT.base b, rfl⟩
  have ha : P.isAdd c = true → c ≠ 1 ∧ c ≠ -1 := fun h =>
    ⟨fun e => by rw [e, hP.add_one] at h; simp at h, fun e => by rw [e, hP.add_negOne] at h; simp at h⟩
  rw [cbStr, termLex]
  generalize (if b = .blade [] then [] else P.base b) = base at hb ⊢
  simp only [hP.one]
  have hneg : ∀ l : List Char, (if P.coef c = ['-', '1'] ∧ b ≠ .blade [] then ['-'] else P.coef c) = l →
      (if c = -1 ∧ b ≠ .blade [] then ['-'] else P.coef c) = l := by
    intro l h
    simpa only [hP.negOne] using h
  by_cases hadd : P.isAdd c = true
  · obtain ⟨h1, h2⟩ := ha hadd
    have h2' : ¬ P.coef c = ['-', '1'] := fun e => h2 ((hP.negOne c).mp e)
    simp only [if_pos hadd, h1, h2', false_and, if_false]
    have hcl : Tex.Closed ("\\left ( ".toList ++ P.coef c ++ "\\right ) ".toList) ∧
        Tex.lex ("\\left ( ".toList ++ P.coef c ++ "\\right ) ".toList) =
        [['\\', 'l', 'e', 'f', 't'], ['(']] ++ Tex.lex (P.coef c) ++
          [['\\', 'r', 'i', 'g', 'h', 't'], [')']] := by
      have h3 : ∀ x, Tex.lex ("\\left ( ".toList ++ P.coef c ++ "\\right ) ".toList ++ x) =
          [['\\', 'l', 'e', 'f', 't'], ['(']] ++ Tex.lex (P.coef c) ++
            [['\\', 'r', 'i', 'g', 'h', 't'], [')']] ++ Tex.lex x := by
        intro x
        rw [List.append_assoc, List.append_assoc, lex_left, hT.coef c _ (by simp), lex_right]
        simp only [List.append_assoc]
      have h4 := h3 []
      rw [List.append_nil, lex_nil, List.append_nil] at h4
      exact ⟨fun x => by rw [h3, h4], h4⟩
    exact ⟨hcl.1.append_complete hb.1, by rw [hcl.1, hcl.2, hb.2]⟩
  · simp only [if_neg hadd]
    have key : ∀ l : List Char, Tex.Complete l →
        Tex.Complete (l ++ [' '] ++ base) ∧ Tex.lex (l ++ [' '] ++ base) = Tex.lex l ++ Tex.lex base := by
      intro l hl
      exact ⟨hl.blank.append_complete hb.1, by rw [hl.blank, hl.lex_blank]⟩
    by_cases hbl : b = .blade []
    · simp only [hbl, ne_eq, not_true_eq_false, and_false, false_and, if_false]
      have := key _ (hT.coef c)
      rw [hb.2, if_pos hbl] at this
      simpa using this
    · simp only [hbl, ne_eq, not_false_eq_true, and_true, true_and, if_false]
      rw [if_neg hbl] at hb
      by_cases h1 : c = 1
      · have := key [] (fun b _ => rfl)
        rw [hb.2, lex_nil] at this
        simpa [h1] using this
      · by_cases h2 : c = -1
        · have h2' := (hP.negOne c).mpr h2
          have h3 := key ['-'] (closed_of_plain (by simp)).complete
          rw [hb.2, show Tex.lex ['-'] = [['-']] from rfl] at h3
          simp only [if_neg h1, if_pos h2', if_pos h2]
          exact h3
        · have h2' := fun e => h2 ((hP.negOne c).mp e)
          simp only [if_neg h1, if_neg h2', if_neg h2]
          have := key _ (hT.coef c)
          rw [hb.2] at this
          exact this

theorem strip_eq_lstrip {s : List Char} (h : ∀ ch ∈ s.getLast?, ch.isWhitespace = false) :
    Tex.strip s = Tex.lstrip s := by
  have h1 : ∀ t : List Char, (∀ ch ∈ t.head?, ch.isWhitespace = false) → Tex.lstrip t = t := by
    intro t ht
    cases t with
    | nil => rfl
    | cons c t => rw [Tex.lstrip, List.dropWhile_cons, if_neg (by rw [ht c (by simp)]; simp)]
  rw [Tex.strip, h1, List.reverse_reverse]
  intro ch hch
  rw [List.head?_reverse] at hch
  refine h ch ?_
  obtain ⟨u, hu⟩ : Tex.lstrip s <:+ s := List.dropWhile_suffix _
  rw [← hu]
  have hne : Tex.lstrip s ≠ [] := by rintro e; rw [e] at hch; simp at hch
  rw [List.getLast?_append_of_ne_nil _ hne]
  exact hch

theorem appendPlus_tokens (hP : P.Tidy) (hT : P.TidyTokens) (c : R) {b : Sym n} (hb : b ≠ .blade [])
    {t : List Char} (h : appendPlus false (cbStr P c b) = some t) :
    Tex.Complete t ∧ t.head? = some ' ' ∧
      (Tex.lex t = ['+'] :: termLex P c b ∨ Tex.lex t = ['-'] :: termLex P (-c) b) := by
  obtain ⟨h1, h2⟩ := cbStr_tokens hP hT c b
  obtain ⟨x0, r0, hx0, -⟩ := hP.base b
  have hbase : P.base b ≠ [] := by rintro e; rw [e] at hx0; simp [noSpace] at hx0
  obtain ⟨X, hX⟩ : ∃ X, cbStr P c b = X ++ P.base b := by
    rw [cbStr]
    simp only [if_neg hb]
    split_ifs <;> exact ⟨_, rfl⟩
  have hstrip : Tex.strip (cbStr P c b) = Tex.lstrip (cbStr P c b) := by
    refine strip_eq_lstrip ?_
    rw [hX, List.getLast?_append_of_ne_nil _ hbase]
    exact hT.last b
  have hl : ∀ y, Tex.lex (Tex.strip (cbStr P c b) ++ y) = Tex.lex (cbStr P c b ++ y) := by
    intro y
    rw [hstrip]
    exact lex_lstrip (blanks_cbStr hP c b) y
  have hC : Tex.Complete (Tex.strip (cbStr P c b)) := by
    intro y hy
    have h3 := hl []
    rw [List.append_nil, List.append_nil] at h3
    rw [hl, h1 y hy, h3]
  have hL : Tex.lex (Tex.strip (cbStr P c b)) = termLex P c b := by
    have := hl []
    rw [List.append_nil, List.append_nil] at this
    rw [this, h2]
  rw [appendPlus, if_neg (by simp)] at h
  cases hs : Tex.strip (cbStr P c b) with
  | nil => rw [hs] at h; simp at h
  | cons x r =>
    rw [hs] at h hC hL
    simp only [Option.some.injEq] at h
    by_cases hx : x = '-'
    · rw [if_pos hx] at h
      subst hx
      subst h
      have hlex : ∀ y, Tex.lex (' ' :: '-' :: y) = ['-'] :: Tex.lex y := by
        intro y; simp [Tex.lex, Tex.lexGo]
      have hlex' : ∀ y, Tex.lex ('-' :: y) = ['-'] :: Tex.lex y := by
        intro y; simp [Tex.lex, Tex.lexGo]
      refine ⟨?_, rfl, Or.inr ?_⟩
      · intro y hy
        have := hC y hy
        rw [List.cons_append, hlex', hlex'] at this
        rw [List.cons_append, List.cons_append, hlex, hlex]
        exact this
      · rw [hlex]
        rw [hlex'] at hL
        congr 1
        rw [termLex] at hL ⊢
        simp only [ne_eq, hb, not_false_eq_true, true_and, if_false] at hL ⊢
        by_cases hadd : P.isAdd c = true
        · rw [if_pos hadd] at hL; simp at hL
        · rw [if_neg hadd] at hL
          by_cases h3 : c = 1
          · rw [if_pos h3] at hL
            exact absurd (by rw [← hL]; rfl) (hT.head b)
          · rw [if_neg h3] at hL
            by_cases h4 : c = -1
            · rw [if_pos h4] at hL
              subst h4
              rw [neg_neg, hP.add_one]
              simpa using hL
            · rw [if_neg h4] at hL
              cases hc : Tex.lex (P.coef c) with
              | nil =>
                rw [hc, List.nil_append] at hL
                exact absurd (by rw [← hL]; rfl) (hT.head b)
              | cons y u =>
                rw [hc, List.cons_append] at hL
                obtain ⟨hy, hu⟩ := List.cons.inj hL
                subst hy
                obtain ⟨k1, k2⟩ := hT.neg c u (by simpa using hadd) hc
                rw [if_neg (by rw [k1]; simp), if_neg (fun e => h4 (by rw [← e, neg_neg])),
                  if_neg (fun e => h3 (by rw [← neg_neg c, e, neg_neg])), hu, k2]
    · rw [if_neg hx] at h
      subst h
      have hlex : ∀ y, Tex.lex ([' ', '+', ' '] ++ y) = ['+'] :: Tex.lex y := by
        intro y; simp [Tex.lex, Tex.lexGo]
      refine ⟨?_, rfl, Or.inl ?_⟩
      · intro y hy
        rw [List.append_assoc, hlex, hlex, hC y hy]
        rfl
      · rw [hlex, hL]

/-! ### the loop -/

theorem joinWith_concat (c : Char) {L : List (List Char)} (hL : L ≠ []) (t : List Char) :
    joinWith c (L ++ [t]) = joinWith c L ++ c :: t := by
  induction L with
  | nil => exact absurd rfl hL
  | cons w L ih =>
    cases L with
    | nil => rfl
    | cons v L =>
      have := ih (by simp)
      simp only [List.cons_append] at this ⊢
      have e : ∀ M : List (List Char), joinWith c (w :: v :: M) = w ++ c :: joinWith c (v :: M) :=
        fun _ => rfl
      rw [e, e, this]
      simp

theorem joinWith_append_last (c : Char) (L : List (List Char)) (s t : List Char) :
    joinWith c (L ++ [s ++ t]) = joinWith c (L ++ [s]) ++ t := by
  cases L with
  | nil => rfl
  | cons w L => rw [joinWith_concat c (by simp), joinWith_concat c (by simp)]; simp

/-- The lines that the state stands for. -/
def LatexState.all (fmt : ℕ) (st : LatexState) : List (List Char) :=
  if fmt = 3 then st.lines else st.lines ++ [st.s]

/-- What the loop has written after the terms `T` and `(c, b)`. -/
structure LatexInv (fmt : ℕ) (P : Printer (Fin n) R (Sym n)) (st : LatexState) (T : Expr R n) (c : R)
    (b : Sym n) : Prop where
  first : st.first = false
  ne : st.all fmt ≠ []
  text : ReadsAs fmt (termLatex P) (joinWith '\n' ((st.all fmt).map noSpace)) (T ++ [(c, b)])
  old : fmt = 2 → st.oldGrade = ((symIndex b).length : ℤ)
  nil : fmt ≠ 2 → fmt ≠ 3 → st.lines = []
  tokens : P.TidyTokens → SaysSum P ((st.all fmt).flatMap Tex.lex) (T ++ [(c, b)]) ∧
    ∀ l ∈ st.all fmt, Tex.Complete l

theorem tokens_new_line {L : List (List Char)} {T : Expr R n} {d : R} {b' : Sym n} {t : List Char}
    (h : SaysSum P (L.flatMap Tex.lex) T ∧ ∀ l ∈ L, Tex.Complete l) (ht : Tex.Complete t)
    (hs : Tex.lex t = ['+'] :: termLex P d b' ∨ Tex.lex t = ['-'] :: termLex P (-d) b') :
    SaysSum P ((L ++ [t]).flatMap Tex.lex) (T ++ [(d, b')]) ∧ ∀ l ∈ L ++ [t], Tex.Complete l := by
  rw [List.flatMap_append, List.flatMap_singleton]
  refine ⟨?_, fun l hl => ?_⟩
  · rcases hs with e | e
    · rw [e]; exact SaysSum.plus d b' h.1
    · rw [e]
      have := SaysSum.minus (-d) b' h.1
      rwa [neg_neg] at this
  · rcases List.mem_append.mp hl with hl | hl
    · exact h.2 l hl
    · rw [List.mem_singleton.mp hl]; exact ht

theorem tokens_same_line {L : List (List Char)} {s : List Char} {T : Expr R n} {d : R} {b' : Sym n}
    {t : List Char} (h : SaysSum P ((L ++ [s]).flatMap Tex.lex) T ∧ ∀ l ∈ L ++ [s], Tex.Complete l)
    (ht : Tex.Complete t) (hb : t.head? = some ' ')
    (hs : Tex.lex t = ['+'] :: termLex P d b' ∨ Tex.lex t = ['-'] :: termLex P (-d) b') :
    SaysSum P ((L ++ [s ++ t]).flatMap Tex.lex) (T ++ [(d, b')]) ∧
      ∀ l ∈ L ++ [s ++ t], Tex.Complete l := by
  have hc : Tex.Complete s := h.2 s (by simp)
  have hh : ∀ y, ∀ ch ∈ (t ++ y).head?, ch.isAlpha = false := by
    intro y ch hch
    cases t with
    | nil => simp at hb
    | cons x t =>
      simp only [List.head?_cons, Option.some.injEq] at hb
      subst hb
      simp only [List.cons_append, List.head?_cons, Option.mem_def, Option.some.injEq] at hch
      rw [← hch]; decide
  have hst : Tex.lex (s ++ t) = Tex.lex s ++ Tex.lex t := hc t (by simpa using hh [])
  have h1 := (tokens_new_line h ht hs).1
  rw [List.flatMap_append, List.flatMap_append, List.flatMap_singleton, List.flatMap_singleton] at h1
  rw [List.flatMap_append, List.flatMap_singleton, hst, ← List.append_assoc]
  refine ⟨h1, fun l hl => ?_⟩
  rcases List.mem_append.mp hl with hl | hl
  · exact h.2 l (by simp [hl])
  · rw [List.mem_singleton.mp hl]
    intro y hy
    rw [List.append_assoc, hc _ (hh y), ht y hy, hst, List.append_assoc]

theorem latexStep_inv (hP : P.Tidy) {fmt : ℕ} {st : LatexState} {T : Expr R n} {c : R} {b : Sym n}
    (inv : LatexInv fmt P st T c b) (k : ℤ) (d : R) {b' : Sym n} (hb : b' ≠ .blade []) :
    ∃ st', latexStep fmt P st (k, d, b', ((symIndex b').length : ℤ)) = some st' ∧
      LatexInv fmt P st' (T ++ [(c, b)]) d b' := by
  obtain ⟨t, ht, hsign⟩ := appendPlus_spec hP d hb
  have hread : ∀ s : List Char, ReadsAs fmt (termLatex P) s (T ++ [(c, b)]) →
      ReadsAs fmt (termLatex P) (s ++ breaks fmt b b' ++ noSpace t) (T ++ [(c, b)] ++ [(d, b')]) := by
    intro s hs
    rw [List.append_assoc T]
    rcases hsign with h | h
    · rw [h]; exact ReadsAs.plus d b' hs
    · rw [h]
      have := ReadsAs.minus (-d) b' hs
      rwa [neg_neg] at this
  have hstep : latexStep fmt P st (k, d, b', ((symIndex b').length : ℤ)) = some (
      if fmt = 3 then { st with first := false, lines := st.lines ++ [t] }
      else if fmt = 2 then
        if ((symIndex b').length : ℤ) ≠ st.oldGrade then
          ⟨false, if st.first then st.lines else st.lines ++ [st.s], ((symIndex b').length : ℤ), t⟩
        else { st with first := false, s := st.s ++ t }
      else { st with first := false, s := st.s ++ t }) := by
    rw [latexStep, inv.first, ht]
    rfl
  refine ⟨_, hstep, ?_⟩
  have htext := hread _ inv.text
  have hne := inv.ne
  by_cases h3 : fmt = 3
  · subst h3
    rw [if_pos rfl]
    simp only [LatexState.all, if_true] at htext hne
    refine ⟨rfl, by simp [LatexState.all], ?_, by simp, by simp, fun hT => ?_⟩
    swap
    · obtain ⟨k1, k2, k3⟩ := appendPlus_tokens hP hT d hb ht
      exact tokens_new_line (inv.tokens hT) k1 k3
    simp only [LatexState.all, if_true, List.map_append, List.map_cons, List.map_nil]
    rw [joinWith_concat _ (by simpa using hne)]
    simpa [breaks] using htext
  · rw [if_neg h3]
    by_cases h2 : fmt = 2
    · subst h2
      rw [if_pos rfl]
      simp only [LatexState.all, if_neg h3] at htext hne
      have hold := inv.old rfl
      by_cases hg : ((symIndex b').length : ℤ) = st.oldGrade
      · rw [if_neg (by simpa using hg)]
        refine ⟨rfl, by simp [LatexState.all], ?_, fun _ => hg.symm, by simp, fun hT => ?_⟩
        swap
        · obtain ⟨k1, k2, k3⟩ := appendPlus_tokens hP hT d hb ht
          exact tokens_same_line (inv.tokens hT) k1 k2 k3
        simp only [LatexState.all, if_neg h3, List.map_append, List.map_cons, List.map_nil, noSpace_append]
        rw [joinWith_append_last]
        have hb : breaks 2 b b' = [] := by
          rw [hold] at hg
          simp [breaks]
          exact_mod_cast hg.symm
        simpa [hb] using htext
      · rw [if_pos hg, inv.first]
        refine ⟨rfl, by simp [LatexState.all], ?_, fun _ => rfl, by simp, fun hT => ?_⟩
        swap
        · obtain ⟨k1, k2, k3⟩ := appendPlus_tokens hP hT d hb ht
          exact tokens_new_line (inv.tokens hT) k1 k3
        simp only [LatexState.all, if_neg h3, List.map_append, List.map_cons, List.map_nil,
          Bool.false_eq_true, if_false]
        rw [joinWith_concat _ (by simp)]
        have hb : breaks 2 b b' = ['\n'] := by
          rw [hold] at hg
          rw [breaks, if_pos]
          exact Or.inr ⟨rfl, fun e => hg (by rw [e])⟩
        simpa [hb] using htext
    · rw [if_neg h2]
      simp only [LatexState.all, if_neg h3] at htext hne
      refine ⟨rfl, by simp [LatexState.all, h3], ?_, fun h => absurd h h2, fun _ _ => inv.nil h2 h3,
        fun hT => ?_⟩
      swap
      · obtain ⟨k1, k2, k3⟩ := appendPlus_tokens hP hT d hb ht
        have := inv.tokens hT
        simp only [LatexState.all, if_neg h3] at this ⊢
        exact tokens_same_line this k1 k2 k3
      simp only [LatexState.all, if_neg h3, List.map_append, List.map_cons, List.map_nil, noSpace_append]
      rw [joinWith_append_last]
      have hb : breaks fmt b b' = [] := by simp [breaks, h2, h3]
      simpa [hb] using htext

theorem latexLoop_inv (hP : P.Tidy) {fmt : ℕ} (es : List (ℤ × (R × Sym n × ℤ)))
    (hes : ∀ e ∈ es, e.2.2.1 ≠ .blade [] ∧ e.2.2.2 = ((symIndex e.2.2.1).length : ℤ))
    {st : LatexState} {T : Expr R n} {c : R} {b : Sym n} (inv : LatexInv fmt P st T c b) :
    ∃ st' T' c' b', es.foldlM (latexStep fmt P) st = some st' ∧ LatexInv fmt P st' T' c' b' ∧
      T' ++ [(c', b')] = T ++ [(c, b)] ++ printed es := by
  induction es generalizing st T c b with
  | nil => exact ⟨st, T, c, b, rfl, inv, by simp [printed]⟩
  | cons e es ih =>
    obtain ⟨k, d, b', gr⟩ := e
    obtain ⟨h1, h2⟩ := hes _ (List.mem_cons_self ..)
    simp only at h1 h2
    subst h2
    obtain ⟨st', hs, inv'⟩ := latexStep_inv hP inv k d h1
    obtain ⟨st'', T', c', b'', hf, hinv, hT⟩ := ih (fun e he => hes e (by simp [he])) inv'
    refine ⟨st'', T', c', b'', ?_, hinv, ?_⟩
    · rw [List.foldlM_cons, hs]
      exact hf
    · rw [hT]; simp [printed]

theorem latexEnd_eq {fmt : ℕ} (hf : fmt ≤ 3) {st : LatexState} {T : Expr R n} {c : R} {b : Sym n}
    (inv : LatexInv fmt P st T c b) : latexEnd fmt st = latexLayout (st.all fmt) := by
  have hlay : ∀ ls : List (List Char), ls ≠ [] → (match ls with
      | [l] => l
      | _ => dropLast3 (ls.foldl (fun s line => s ++ [' ', '&', ' '] ++ line ++ [' ', '\\', '\\', ' '])
          " \\begin{aligned}[t] ".toList) ++ " \\end{aligned} ".toList) = latexLayout ls := by
    intro ls hls
    have h1 : ∀ (ls : List (List Char)) (acc : List Char), ls ≠ [] →
        ls.foldl (fun s line => s ++ [' ', '&', ' '] ++ line ++ [' ', '\\', '\\', ' ']) acc =
          acc ++ List.intercalate [' ', '\\', '\\', ' '] (ls.map fun l => [' ', '&', ' '] ++ l) ++
            [' ', '\\', '\\', ' '] := by
      intro ls
      induction ls with
      | nil => intro acc h; exact absurd rfl h
      | cons l ls ih =>
        intro acc _
        rw [List.foldl_cons]
        cases ls with
        | nil => simp [List.intercalate]
        | cons m ls =>
          rw [ih _ (by simp)]
          simp [List.intercalate]
    match ls, hls with
    | [l], _ => rfl
    | l :: m :: ls, h =>
      have h2 : ∀ X : List Char, dropLast3 (X ++ [' ', '\\', '\\', ' ']) = X ++ [' '] := fun X => by
        rw [dropLast3, show X ++ [' ', '\\', '\\', ' '] = X ++ [' '] ++ ['\\'] ++ ['\\'] ++ [' '] by simp,
          List.dropLast_concat, List.dropLast_concat, List.dropLast_concat]
      have h3 : "  \\end{aligned} ".toList = [' '] ++ " \\end{aligned} ".toList := by decide
      have h4 : latexLayout (l :: m :: ls) = " \\begin{aligned}[t] ".toList ++
          List.intercalate [' ', '\\', '\\', ' '] ((l :: m :: ls).map fun l => [' ', '&', ' '] ++ l) ++
          "  \\end{aligned} ".toList := rfl
      rw [h4, h3, ← List.append_assoc]
      exact congrArg (· ++ _) ((congrArg dropLast3 (h1 _ _ h)).trans (h2 _))
  rw [latexEnd, LatexState.all]
  by_cases h3 : fmt = 3
  · subst h3
    have := inv.ne
    simp only [LatexState.all, if_true] at this
    exact hlay st.lines this
  · by_cases h2 : fmt = 2
    · subst h2
      exact hlay (st.lines ++ [st.s]) (by simp)
    · rw [if_neg h2, if_neg (by omega), if_neg h3, inv.nil h2 h3]
      rfl

/-- The text for the terms of a multivector that is not a scalar. -/
theorem latexLoop_spec (hP : P.Tidy) {fmt : ℕ} (hf : fmt ≤ 3) (e : ℤ × (R × Sym n × ℤ))
    (es : List (ℤ × (R × Sym n × ℤ))) (he : e.2.2.2 = ((symIndex e.2.2.1).length : ℤ))
    (hes : ∀ e ∈ es, e.2.2.1 ≠ .blade [] ∧ e.2.2.2 = ((symIndex e.2.2.1).length : ℤ)) :
    ∃ lines, (((e :: es).foldlM (latexStep fmt P) ⟨true, [], -1, []⟩).map (latexEnd fmt)) =
        some (latexLayout lines) ∧
      ReadsAs fmt (termLatex P) (joinWith '\n' (lines.map noSpace)) (printed (e :: es)) ∧
      (P.TidyTokens → SaysSum P (lines.flatMap Tex.lex) (printed (e :: es)) ∧
        ∀ l ∈ lines, Tex.Complete l) := by
  obtain ⟨k, d, b, gr⟩ := e
  simp only at he
  subst he
  have hfirst : ∃ st, latexStep fmt P ⟨true, [], -1, []⟩ (k, d, b, ((symIndex b).length : ℤ)) = some st ∧
      LatexInv fmt P st [] d b := by
    have hone : ReadsAs fmt (termLatex P) (noSpace (cbStr P d b)) ([] ++ [(d, b)]) := by
      rw [noSpace_cbStr hP]; exact ReadsAs.one d b
    have htok : P.TidyTokens → SaysSum P ([cbStr P d b].flatMap Tex.lex) ([] ++ [(d, b)]) ∧
        ∀ l ∈ [cbStr P d b], Tex.Complete l := by
      intro hT
      obtain ⟨k1, k2⟩ := cbStr_tokens hP hT d b
      refine ⟨?_, fun l hl => by rw [List.mem_singleton.mp hl]; exact k1⟩
      rw [List.flatMap_singleton, k2]
      exact SaysSum.one d b
    have hg : ((symIndex b).length : ℤ) ≠ -1 := by omega
    by_cases h3 : fmt = 3
    · refine ⟨⟨false, [cbStr P d b], -1, []⟩, by simp [latexStep, appendPlus, h3], ?_⟩
      exact ⟨rfl, by simp [LatexState.all, h3], by simpa [LatexState.all, h3, joinWith] using h3 ▸ hone,
        fun h => by omega, fun _ h => absurd h3 h, by simpa [LatexState.all, h3] using htok⟩
    · by_cases h2 : fmt = 2
      · refine ⟨⟨false, [], ((symIndex b).length : ℤ), cbStr P d b⟩,
          by simp [latexStep, appendPlus, h2, hg], ?_⟩
        exact ⟨rfl, by simp [LatexState.all, h3], by simpa [LatexState.all, h3, joinWith] using hone,
          fun _ => rfl, fun h => absurd h2 h, by simpa [LatexState.all, h3] using htok⟩
      · refine ⟨⟨false, [], -1, cbStr P d b⟩, by simp [latexStep, appendPlus, h2, h3], ?_⟩
        exact ⟨rfl, by simp [LatexState.all, h3], by simpa [LatexState.all, h3, joinWith] using hone,
          fun h => absurd h h2, fun _ _ => rfl, by simpa [LatexState.all, h3] using htok⟩
  obtain ⟨st, hs, inv⟩ := hfirst
  obtain ⟨st', T', c', b', hfold, inv', hT⟩ := latexLoop_inv hP es hes inv
  have hpr : [] ++ [(d, b)] ++ printed es = printed ((k, d, b, ((symIndex b).length : ℤ)) :: es) := by
    simp [printed]
  refine ⟨st'.all fmt, ?_, ?_, fun hT' => ?_⟩
  · rw [List.foldlM_cons, hs]
    change Option.map _ (es.foldlM (latexStep fmt P) st) = _
    rw [hfold, Option.map_some, latexEnd_eq hf inv']
  · have := inv'.text
    rw [hT] at this
    simpa [printed] using this
  · have := inv'.tokens hT'
    rw [hT, hpr] at this
    exact this

/-- The tokens of the layout. -/
theorem lex_layout {ls : List (List Char)} (h : ∀ l ∈ ls, Tex.Complete l) :
    Tex.lex (latexLayout ls) = layoutTokens (ls.map Tex.lex) := by
  have hend : Tex.lex "  \\end{aligned} ".toList = Tex.lex "\\end{aligned}".toList := by decide +kernel
  have hbeg : ∀ y, Tex.lex (" \\begin{aligned}[t] ".toList ++ y) =
      Tex.lex "\\begin{aligned}[t]".toList ++ Tex.lex y := by
    intro y
    simp [Tex.lex, Tex.lexGo]
  have hamp : ∀ y, Tex.lex ([' ', '&', ' '] ++ y) = ['&'] :: Tex.lex y := by
    intro y; simp [Tex.lex, Tex.lexGo]
  have hnl : ∀ y, Tex.lex ([' ', '\\', '\\', ' '] ++ y) = ['\\', '\\'] :: Tex.lex y := by
    intro y; simp [Tex.lex, Tex.lexGo]
  have key : ∀ ls : List (List Char), ls ≠ [] → (∀ l ∈ ls, Tex.Complete l) → ∀ y : List Char,
      y.head? = some ' ' →
      Tex.lex (List.intercalate [' ', '\\', '\\', ' '] (ls.map fun l => [' ', '&', ' '] ++ l) ++ y) =
        List.intercalate [['\\', '\\']] (ls.map fun l => ['&'] :: Tex.lex l) ++ Tex.lex y := by
    intro ls
    induction ls with
    | nil => intro h; exact absurd rfl h
    | cons l ls ih =>
      intro _ hc y hy
      have hcl := hc l List.mem_cons_self
      cases ls with
      | nil =>
        simp only [List.map_cons, List.map_nil, List.intercalate, List.intersperse, List.flatten_cons,
          List.flatten_nil, List.append_nil]
        rw [List.append_assoc, hamp, hcl y (by rw [hy]; simp), List.cons_append]
      | cons m ls =>
        have e1 : List.intercalate [' ', '\\', '\\', ' '] ((l :: m :: ls).map fun l => [' ', '&', ' '] ++ l) =
            [' ', '&', ' '] ++ l ++ ([' ', '\\', '\\', ' '] ++
              List.intercalate [' ', '\\', '\\', ' '] ((m :: ls).map fun l => [' ', '&', ' '] ++ l)) := by
          simp [List.intercalate]
        have e2 : List.intercalate [['\\', '\\']] ((l :: m :: ls).map fun l => ['&'] :: Tex.lex l) =
            ['&'] :: Tex.lex l ++ (['\\', '\\'] ::
              List.intercalate [['\\', '\\']] ((m :: ls).map fun l => ['&'] :: Tex.lex l)) := by
          simp [List.intercalate]
        have := ih (by simp) (fun x hx => hc x (List.mem_cons_of_mem _ hx)) y hy
        rw [e1, e2, List.append_assoc, List.append_assoc, hamp, hcl _ (by simp), List.append_assoc, hnl,
          this]
        simp
  match ls with
  | [] => decide +kernel
  | [l] => rfl
  | l :: m :: ls =>
    have h4 : latexLayout (l :: m :: ls) = " \\begin{aligned}[t] ".toList ++
        List.intercalate [' ', '\\', '\\', ' '] ((l :: m :: ls).map fun l => [' ', '&', ' '] ++ l) ++
        "  \\end{aligned} ".toList := rfl
    have h5 : layoutTokens ((l :: m :: ls).map Tex.lex) = Tex.lex "\\begin{aligned}[t]".toList ++
        List.intercalate [['\\', '\\']] ((l :: m :: ls).map fun l => ['&'] :: Tex.lex l) ++
        Tex.lex "\\end{aligned}".toList := by
      have : ((l :: m :: ls).map fun l => ['&'] :: Tex.lex l) =
          ((l :: m :: ls).map Tex.lex).map fun l => ['&'] :: l := by
        rw [List.map_map]; rfl
      rw [this]
      rfl
    rw [h4, h5, List.append_assoc, hbeg, key _ (by simp) h _ (by simp), hend, List.append_assoc]

end GA
