import Verif.Proofs.MvLatex
import Verif.Props.C74

/-!
# C80: the LaTeX form of a multivector
-/

set_option linter.unusedSectionVars false
set_option maxRecDepth 10000

namespace GA
variable {n : ℕ} {R : Type*} [CommRing R] [DecidableEq R] [Invertible (2 : R)]
  {g : Matrix (Fin n) (Fin n) R} {P : Printer (Fin n) R (Sym n)}

/-- The text, its lines and its tokens. -/
theorem mvLatex_text {A : Mv R n} (hA : A.WF g) {args : Expr R n} (hargs : expand args = A.obj)
    (hsub : ∀ t ∈ args, t.2 ∈ A.obj.map Prod.snd) (hP : P.Tidy) {fmt : ℕ} (hf : fmt ≤ 3) :
    ∃ s, mvLatex g fmt P args = some s ∧
      ((A.obj = [] ∧ s = [' ', '0', ' ']) ∨ (∃ c, A.obj = [(c, .blade [])] ∧ s = P.coef c) ∨
        ∃ T lines, T.Perm A.obj ∧ (T.Pairwise fun t u => Before (symIndex t.2) (symIndex u.2)) ∧
          ReadsAs fmt (termLatex P) (joinWith '\n' (lines.map noSpace)) T ∧ s = latexLayout lines ∧
          (P.TidyTokens → SaysSum P (lines.flatMap Tex.lex) T ∧ Tex.lex s = layoutTokens (lines.map Tex.lex))) := by
  rw [mvLatex]
  by_cases h0 : args = []
  · rw [if_pos h0]
    refine ⟨_, rfl, Or.inl ⟨?_, rfl⟩⟩
    rw [← hargs, h0]
    rfl
  rw [if_neg h0]
  have hE : A.obj ≠ [] := by
    intro h
    rw [h] at hsub
    cases args with
    | nil => exact h0 rfl
    | cons t args => simpa using hsub t List.mem_cons_self
  obtain ⟨mk, grades, h1, h2, h3, h4, h5, h6⟩ := mvStr_cases hA hargs hsub
  obtain ⟨e, es, hL, hperm, hord, he, hes⟩ :=
    sortedTerms_facts 0 h1 h2 h3 h4 h5 hargs hA.1 hA.2.1 hsub hE
  rw [h6, hL, latexTerms]
  have hgrade : e.2.2.2 = ((symIndex e.2.2.1).length : ℤ) := by
    rcases he with ⟨k1, k2⟩ | ⟨-, -, k⟩
    · rw [k1, k2]; rfl
    · exact k
  by_cases hs : (e :: es).length = 1 ∧ (e :: es).head?.map (fun e => e.2.2.2) = some 0
  · rw [if_pos hs]
    refine ⟨_, rfl, Or.inr (Or.inl ⟨e.2.1, ?_, rfl⟩)⟩
    obtain ⟨hl, hh⟩ := hs
    have hes0 : es = [] := by simpa using hl
    subst hes0
    have hh : e.2.2.2 = 0 := by simpa using hh
    have hb : e.2.2.1 = .blade [] := by
      rcases he with ⟨-, k⟩ | ⟨-, k, k'⟩
      · exact k
      · omega
    have := List.perm_singleton.mp hperm.symm
    rw [this]
    exact congrArg (fun b => [(e.2.1, b)]) hb
  · rw [if_neg hs]
    obtain ⟨lines, hl, hr, ht⟩ := latexLoop_spec hP hf e es hgrade fun x hx => ⟨(hes x hx).1, (hes x hx).2.2⟩
    exact ⟨_, hl, Or.inr (Or.inr ⟨_, lines, hperm, hord, hr, rfl, fun hT => ⟨(ht hT).1, lex_layout (ht hT).2⟩⟩)⟩

/-- C80: for each of the three formats the LaTeX text of a multivector is made, and it says the
multivector.  Zero and scalars have their own texts.  Otherwise the text consists of lines, in an `aligned`
environment if there are several, and the lines, without the blanks, are the sequence of the terms of the
multivector, each exactly once, by grade and within a grade in the dictionary order of the basis vectors,
with the sign of each term before it, on one line, on one line per grade, or on one line per term. -/
theorem C80_latex {A : Mv R n} (hA : A.WF g) {args : Expr R n} (hargs : expand args = A.obj)
    (hsub : ∀ t ∈ args, t.2 ∈ A.obj.map Prod.snd) (hP : P.Tidy) {fmt : ℕ} (hf : fmt ≤ 3) :
    ∃ s, mvLatex g fmt P args = some s ∧
      ((A.obj = [] ∧ s = [' ', '0', ' ']) ∨ (∃ c, A.obj = [(c, .blade [])] ∧ s = P.coef c) ∨
        ∃ T lines, T.Perm A.obj ∧ (T.Pairwise fun t u => Before (symIndex t.2) (symIndex u.2)) ∧
          ReadsAs fmt (termLatex P) (joinWith '\n' (lines.map noSpace)) T ∧ s = latexLayout lines) := by
  obtain ⟨s, hs, h⟩ := mvLatex_text hA hargs hsub hP hf
  refine ⟨s, hs, ?_⟩
  rcases h with h | h | ⟨T, lines, h1, h2, h3, h4, -⟩
  · exact Or.inl h
  · exact Or.inr (Or.inl h)
  · exact Or.inr (Or.inr ⟨T, lines, h1, h2, h3, h4⟩)

/-- C80: the LaTeX text of a multivector also says it to TeX.  The text of a multivector that is not a scalar
consists of lines, in an `aligned` environment if there are several, and the tokens of the lines, in the
order of the lines, say the sum of the terms of the multivector: a sign never runs into a coefficient, a
coefficient never into a blade, and a blade never into what follows it. -/
theorem C80_tokens {A : Mv R n} (hA : A.WF g) {args : Expr R n} (hargs : expand args = A.obj)
    (hsub : ∀ t ∈ args, t.2 ∈ A.obj.map Prod.snd) (hP : P.Tidy) (hT : P.TidyTokens) {fmt : ℕ} (hf : fmt ≤ 3) :
    ∃ s, mvLatex g fmt P args = some s ∧
      ((A.obj = [] ∧ s = [' ', '0', ' ']) ∨ (∃ c, A.obj = [(c, .blade [])] ∧ s = P.coef c) ∨
        ∃ T lines, T.Perm A.obj ∧ (T.Pairwise fun t u => Before (symIndex t.2) (symIndex u.2)) ∧
          SaysSum P (lines.flatMap id) T ∧ Tex.lex s = layoutTokens lines) := by
  obtain ⟨s, hs, h⟩ := mvLatex_text hA hargs hsub hP hf
  refine ⟨s, hs, ?_⟩
  rcases h with h | h | ⟨T, lines, h1, h2, h3, h4, h5⟩
  · exact Or.inl h
  · exact Or.inr (Or.inl h)
  · refine Or.inr (Or.inr ⟨T, lines.map Tex.lex, h1, h2, ?_, (h5 hT).2⟩)
    rw [List.flatMap_map]
    exact (h5 hT).1

/-- C80: equal multivectors have the same LaTeX text, in every format: the text does not depend on the
order of the terms, or on how a coefficient is split into several terms. -/
theorem C80_same {A A' : Mv R n} (hA : A.WF g) (hA' : A'.WF g) (hperm : A.obj.Perm A'.obj)
    {args args' : Expr R n} (hargs : expand args = A.obj) (hargs' : expand args' = A'.obj)
    (hsub : ∀ t ∈ args, t.2 ∈ A.obj.map Prod.snd) (hsub' : ∀ t ∈ args', t.2 ∈ A'.obj.map Prod.snd)
    (P : Printer (Fin n) R (Sym n)) (fmt : ℕ) : mvLatex g fmt P args = mvLatex g fmt P args' := by
  have h0 : ∀ {A : Mv R n} {args : Expr R n}, expand args = A.obj →
      (∀ t ∈ args, t.2 ∈ A.obj.map Prod.snd) → (args = [] ↔ A.obj = []) := by
    intro A args h hs
    constructor
    · rintro rfl; rw [← h]; rfl
    · intro e
      cases args with
      | nil => rfl
      | cons t args => rw [e] at hs; simpa using hs t List.mem_cons_self
  have : args = [] ↔ args' = [] := by
    rw [h0 hargs hsub, h0 hargs' hsub']
    exact ⟨fun h => by rw [h] at hperm; exact hperm.nil_eq.symm,
      fun h => by rw [h] at hperm; exact hperm.symm.nil_eq.symm⟩
  rw [mvLatex, mvLatex]
  by_cases h : args = []
  · rw [if_pos h, if_pos (this.mp h)]
  · rw [if_neg h, if_neg fun h' => h (this.mpr h'), mvTerms_same hA hA' hperm hargs hargs' hsub hsub']

/-! ### Concrete cases -/

namespace Ex

/-- LaTeX texts of coefficients and blades: coefficients as strokes. -/
def latexP : Printer (Fin 3) ℚ (Sym 3) where
  coef c := if c = 1 then ['1'] else if c = -1 then ['-', '1']
    else (if c < 0 then ['-'] else []) ++ 'I' :: List.replicate c.num.natAbs 'i'
  isAdd c := decide (c = 5 ∨ c = -5)
  sym _ := []
  base b := 'e' :: (symIndex b).map fun i => ['x', 'y', 'z'].getD i.1 'w'

theorem latexP_tidy : latexP.Tidy := by
  have hI : ∀ k, ∀ ch ∈ 'I' :: List.replicate k 'i', ch.isWhitespace = false := by
    intro k ch h
    rcases List.mem_cons.mp h with rfl | h
    · decide
    · rw [List.eq_of_mem_replicate h]; decide
  have hns : ∀ s : List Char, (∀ ch ∈ s, ch.isWhitespace = false) → noSpace s = s := fun s h =>
    List.filter_eq_self.mpr fun ch hch => by
      have := h ch hch
      simp only [ne_eq, decide_not, Bool.not_eq_eq_eq_not, Bool.not_true, decide_eq_false_iff_not]
      rintro rfl
      simp at this
  have hc : ∀ c, ∀ ch ∈ latexP.coef c, ch.isWhitespace = false := by
    intro c ch h
    simp only [latexP] at h
    split_ifs at h
    · revert h; revert ch; decide
    · revert h; revert ch; decide
    · rcases List.mem_append.mp h with h | h
      · rw [List.mem_singleton.mp h]; decide
      · exact hI _ ch h
    · exact hI _ ch h
  have hb : ∀ b : Sym 3, ∀ ch ∈ latexP.base b, ch.isWhitespace = false := by
    intro b ch h
    rcases List.mem_cons.mp h with rfl | h
    · decide
    · obtain ⟨i, -, rfl⟩ := List.mem_map.mp h
      fin_cases i <;> decide
  refine ⟨fun c ch h h' => ?_, fun b ch h h' => ?_, fun c => ?_, fun c => ?_, by decide, by decide, ?_, fun b => ?_⟩
  · rw [hc c ch h] at h'; simp at h'
  · rw [hb b ch h] at h'; simp at h'
  · simp only [latexP]
    split_ifs with h1 h2 h3 <;> simp [h1]
  · simp only [latexP]
    split_ifs with h1 h2 h3
    · subst h1; norm_num
    · simp [h2]
    · simp [h2]
    · simp [h2]
  · intro c s hadd h
    rw [hns _ (hc c)] at h
    rw [hns _ (hc (-c))]
    simp only [latexP] at h hadd ⊢
    split_ifs at h with h1 h2 h3
    · simp at h
    · subst h2
      simp only [List.cons.injEq, true_and] at h
      rw [← h]
      norm_num
    · have h4 : ¬ -c = 1 := fun e => h2 (by rw [← e, neg_neg])
      have h5 : ¬ -c = -1 := fun e => h1 (neg_injective e)
      have h6 : ¬ -c < 0 := by linarith
      simp only [List.cons_append, List.nil_append, List.cons.injEq, true_and] at h
      rw [if_neg h4, if_neg h5, if_neg h6, ← h]
      refine ⟨?_, by simp⟩
      rw [decide_eq_false_iff_not]
      rw [decide_eq_false_iff_not] at hadd
      rintro (e | e)
      · exact hadd (Or.inr (by linarith))
      · linarith
    · simp at h
  · refine ⟨'e', _, (hns _ (hb b)).trans rfl, by decide⟩

theorem latexP_tokens : latexP.TidyTokens := by
  have hcoef : ∀ c, ∀ ch ∈ latexP.coef c, ch ≠ '\\' ∧ ch ≠ ' ' := by
    intro c ch h
    simp only [latexP] at h
    have hI : ∀ k, ∀ ch ∈ 'I' :: List.replicate k 'i', ch ≠ '\\' ∧ ch ≠ ' ' := by
      intro k ch h
      rcases List.mem_cons.mp h with rfl | h
      · decide
      · rw [List.eq_of_mem_replicate h]; decide
    split_ifs at h
    · revert h; revert ch; decide
    · revert h; revert ch; decide
    · rcases List.mem_append.mp h with h | h
      · rw [List.mem_singleton.mp h]; decide
      · exact hI _ ch h
    · exact hI _ ch h
  have hbase : ∀ b : Sym 3, ∀ ch ∈ latexP.base b, ch ≠ '\\' ∧ ch ≠ ' ' ∧ ch.isWhitespace = false := by
    intro b ch h
    rcases List.mem_cons.mp h with rfl | h
    · decide
    · obtain ⟨i, -, rfl⟩ := List.mem_map.mp h
      fin_cases i <;> decide
  have hns : ∀ c, noSpace (latexP.coef c) = latexP.coef c := fun c =>
    List.filter_eq_self.mpr fun ch hch => by simpa using (hcoef c ch hch).2
  refine ⟨fun c => (closed_of_plain fun ch h => (hcoef c ch h).1).complete,
    fun b => (closed_of_plain fun ch h => (hbase b ch h).1).complete,
    fun b ch h => (hbase b ch (List.mem_of_getLast? h)).2.2, fun b => ?_, fun c s hadd h => ?_⟩
  · rw [lex_plain fun ch h => ⟨(hbase b ch h).1, (hbase b ch h).2.1⟩]
    simp [latexP]
  · rw [lex_plain (hcoef c)] at h
    rw [lex_plain (hcoef (-c))]
    cases hc : latexP.coef c with
    | nil => rw [hc] at h; simp at h
    | cons x r =>
      rw [hc, List.map_cons] at h
      injection h with hx hr
      have hx : x = '-' := by simpa using hx
      subst hx
      obtain ⟨k1, k2⟩ := latexP_tidy.neg c r hadd (by rw [hns, hc])
      exact ⟨k1, by rw [← hr, k2, hns]⟩

end Ex

example : mvLatex Ex.gO 1 Ex.latexP [(1, .blade [0]), (5, .blade [0, 2]), (-1, .blade [1]), (1, .blade [0]), (2, .blade [])] =
    some "Iii  + Iii ex - ey + \\left ( Iiiiii\\right ) exz".toList := by decide +kernel
example : mvLatex Ex.gO 2 Ex.latexP [(1, .blade [0]), (-2, .blade [0, 2]), (-1, .blade [1]), (1, .blade [0])] =
    some " \\begin{aligned}[t]  & Iii ex - ey \\\\  &  -Iii exz  \\end{aligned} ".toList := by decide +kernel
example : mvLatex Ex.gN 3 Ex.latexP [(1, .blade [0]), (-2, .base [0, 2]), (-2, .blade [])] =
    some " \\begin{aligned}[t]  & -Iii  \\\\  &  + ex \\\\  &  -Iii exz  \\end{aligned} ".toList := by decide +kernel

-- the hypotheses of `C80_tokens` are met
example : ∃ s, mvLatex Ex.gO 3 Ex.latexP [(1, .blade [0]), (-3, .blade [0, 2])] = some s ∧
    Tex.lex s = layoutTokens [Tex.lex "ex".toList, Tex.lex "-Iiii exz".toList] := by
  have hw : ∀ E : Expr ℚ 3, (∀ t ∈ E, t.2 ∈ flat (blades 3)) → (Mv.ofExpr E).WF Ex.gO := fun E h =>
    ofExpr_rep (b := true) fun t ht => by
      rw [RepSym, if_pos (Or.inl rfl), ← isBl_of_mem_flat]; exact h t ht
  obtain ⟨s, hs, -⟩ := C80_tokens (hw [(1, .blade [0]), (-3, .blade [0, 2])] (by decide)) rfl
    (by decide +kernel) Ex.latexP_tidy Ex.latexP_tokens (fmt := 3) (by norm_num)
  refine ⟨s, hs, ?_⟩
  have : mvLatex Ex.gO 3 Ex.latexP [(1, .blade [0]), (-3, .blade [0, 2])] =
    some " \\begin{aligned}[t]  &  ex \\\\  &  -Iiii exz  \\end{aligned} ".toList := by decide +kernel
  rw [this] at hs
  rw [← Option.some.inj hs]
  decide +kernel

-- the hypotheses of `C80_latex` and `C80_same` are met
example : ∃ s, mvLatex Ex.gO 2 Ex.latexP [(1, .blade [0]), (3, .blade [0, 2]), (1, .blade [0])] = some s ∧
    mvLatex Ex.gO 2 Ex.latexP [(3, .blade [0, 2]), (2, .blade [0])] = some s := by
  have hw : ∀ E : Expr ℚ 3, (∀ t ∈ E, t.2 ∈ flat (blades 3)) → (Mv.ofExpr E).WF Ex.gO := fun E h =>
    ofExpr_rep (b := true) fun t ht => by
      rw [RepSym, if_pos (Or.inl rfl), ← isBl_of_mem_flat]; exact h t ht
  obtain ⟨s, hs, -⟩ := C80_latex (hw [(1, .blade [0]), (3, .blade [0, 2]), (1, .blade [0])] (by decide)) rfl
    (by decide +kernel) Ex.latexP_tidy (fmt := 2) (by norm_num)
  refine ⟨s, hs, ?_⟩
  rw [← hs]
  exact C80_same (hw [(3, .blade [0, 2]), (2, .blade [0])] (by decide))
    (hw [(1, .blade [0]), (3, .blade [0, 2]), (1, .blade [0])] (by decide)) (by decide +kernel) rfl rfl
    (by decide +kernel) (by decide +kernel) _ _

end GA
