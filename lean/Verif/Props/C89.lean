import Verif.Proofs.SymbolTex
import Verif.Proofs.TexLex
import Verif.Proofs.DopText

/-!
# C89: names and derivatives are printed as they are

`translate` models how a part of the name of a symbol is printed in LaTeX, `strSymbol` the whole symbol,
`derivativeTex` and `derivativeStr` derivatives in LaTeX and as plain text.
-/

set_option linter.unusedSectionVars false
set_option maxRecDepth 10000

namespace GA

theorem texWord_alpha {alphabet : List (List Char)} (ha : GlyphNames alphabet) {g : List Char} (hg : g ∈ alphabet) :
    texWord g ≠ [] ∧ ∀ c ∈ texWord g, c.isAlpha = true := by
  rw [texWord]
  split_ifs
  · decide
  · exact ha.words g hg

theorem Row.Spells.noBackslash {alphabet : List (List Char)} {s : List Char} {T : Row} (h : T.Spells alphabet s)
    (hs : '\\' ∉ s) : Sum.inl '\\' ∉ T := by
  intro hm
  apply hs
  rw [← h.name, Row.name, List.mem_flatMap]
  exact ⟨_, hm, by simp⟩

/-- **C89.** Let the names of the glyphs be words with `lamda` among them.  If a name has no question mark and no
backslash, if not more than nine glyphs occur in it, and not the word `Lamda`, then TeX reads its printed text as a
row of characters and glyphs that spells the name, whose glyphs are in the list, and in which no glyph is left that
is written in single characters. -/
theorem C89_name_partial {alphabet : List (List Char)} (ha : GlyphNames alphabet) {s : List Char}
    (hs : PlainName alphabet s) :
    ∃ T : Row, T.Spells alphabet s ∧ Tex.lex (translate alphabet s) = T.tokens ∧
      Tex.Closed (translate alphabet s) := by
  obtain ⟨T, hT, h⟩ := translate_row ha hs
  have key := fun b => lex_rowText_append (w := texWord) (T := T) (hT.noBackslash hs.noBackslash)
    (fun g hg => texWord_alpha ha (hT.mem g hg)) b
  have h0 : Tex.lex (rowText texWord T) = T.tokens := by
    have := key []
    rwa [List.append_nil, show Tex.lex [] = [] from rfl, List.append_nil] at this
  refine ⟨T, hT, by rw [h, h0], fun b => ?_⟩
  rw [h, key b, h0]
  rfl

/-- **C89.** Different names are printed differently. -/
theorem C89_name_injective_partial {alphabet : List (List Char)} (ha : GlyphNames alphabet) {s s' : List Char}
    (hs : PlainName alphabet s) (hs' : PlainName alphabet s') (hb : ' ' ∉ s) (hb' : ' ' ∉ s')
    (hl : ¬ "lambda".toList <:+: s) (hl' : ¬ "lambda".toList <:+: s')
    (h : translate alphabet s = translate alphabet s') : s = s' := by
  have key : ∀ {s : List Char}, PlainName alphabet s → ' ' ∉ s → ¬ "lambda".toList <:+: s →
      s = (Tex.lex (translate alphabet s)).flatMap fun w => match w with
        | '\\' :: v => if v = "lambda".toList then "lamda".toList else v
        | w => w := by
    intro s hs hb hl
    obtain ⟨T, hT, h1, _⟩ := C89_name_partial ha hs
    rw [h1, Row.tokens, List.flatMap_assoc]
    conv_lhs => rw [← hT.name, Row.name]
    refine List.flatMap_congr fun x hx => ?_
    cases x with
    | inl c =>
      have hcb : c ≠ '\\' := by rintro rfl; exact hT.noBackslash hs.noBackslash hx
      have hcs : c ≠ ' ' := by
        rintro rfl
        apply hb
        rw [← hT.name, Row.name, List.mem_flatMap]
        exact ⟨_, hx, by simp⟩
      simp only [Sum.elim_inl, if_neg hcs, List.flatMap_singleton]
      split
      · rename_i v hv
        simp at hv
        exact absurd hv.1 hcb
      · rfl
    | inr g =>
      simp only [Sum.elim_inr, List.flatMap_singleton, id, texWord]
      by_cases hg : g = "lamda".toList
      · rw [if_pos hg, if_pos rfl, hg]
      · rw [if_neg hg, if_neg]
        rintro rfl
        apply hl
        rw [← hT.name]
        obtain ⟨a, b, hab⟩ := List.append_of_mem hx
        refine ⟨Row.name a, Row.name b, ?_⟩
        rw [hab]
        simp [Row.name]
  rw [key hs hb hl, key hs' hb' hl', h]

/-- **C89.** If the longer names of the glyphs come first, then a control word for a glyph in a name, with other
text in which there are no glyphs, is printed as it is. -/
theorem C89_control_word_partial {alphabet : List (List Char)} (ha : GlyphNames alphabet)
    (hsort : alphabet.Pairwise fun a b => b.length ≤ a.length) {g : List Char} (hg : g ∈ alphabet)
    {a b : List Char} (haa : ∀ h ∈ alphabet, ¬ h <:+: a) (hbb : ∀ h ∈ alphabet, ¬ h <:+: b)
    (hb0 : ∀ c ∈ b.head?, c.isAlpha = false) (hqa : '?' ∉ a) (hqb : '?' ∉ b) (hg' : g ≠ "lamda".toList)
    (hL : ¬ "Lamda".toList <:+: a ++ '\\' :: (g ++ b)) :
    translate alphabet (a ++ '\\' :: (g ++ b)) = a ++ '\\' :: (g ++ b) := by
  have hsplit : ∀ h ∈ alphabet, h <:+: a ++ '\\' :: (g ++ b) → h <:+: g := by
    intro h hh hi
    obtain ⟨h0, hw⟩ := ha.words h hh
    rcases infix_sep (fun hm => by have := hw _ hm; revert this; decide) h0 hi with hi | hi
    · exact absurd hi (haa h hh)
    · cases b with
      | nil => simpa using hi
      | cons c b =>
        have hc : c ∉ h := fun hm => by
          have := hb0 c (by simp)
          rw [hw _ hm] at this
          cases this
        rcases infix_sep hc h0 hi with hi | hi
        · exact hi
        · exact absurd (hi.trans (List.suffix_cons _ _).isInfix) (hbb h hh)
  obtain ⟨pre, post, hal, hpre⟩ := List.eq_append_cons_of_mem hg
  have hskip : ∀ (l : List (List Char)) (t : Translation), (∀ h ∈ l, ¬ h <:+: t.tmp) →
      l.foldl markGlyph t = t := by
    intro l
    induction l with
    | nil => intro t _; rfl
    | cons h l ih =>
      intro t ht
      rw [List.foldl_cons, markGlyph, if_neg (ht h (by simp))]
      exact ih t fun h hh => ht h (by simp [hh])
  obtain ⟨hg0, hgw⟩ := ha.words g hg
  have hbs : '\\' ∉ g := fun hm => by have := hgw _ hm; revert this; decide
  have hrep : strReplace g (parseSym 1) 0 (a ++ '\\' :: (g ++ b)) = a ++ '\\' :: (parseSym 1 ++ b) := by
    rw [strReplace_sep hbs hg0, strReplace_match hg0, strReplace_of_not_infix (haa g hg),
      strReplace_of_not_infix (hbb g hg)]
  have hq : ∀ {u : List Char}, '?' ∉ u → ¬ parseSym 1 <:+: u := fun hu hi => hu (hi.subset (by decide))
  have hfold : alphabet.foldl markGlyph ⟨1, [], a ++ '\\' :: (g ++ b)⟩ =
      ⟨2, [(parseSym 1, g)], a ++ '\\' :: (parseSym 1 ++ b)⟩ := by
    rw [hal, List.foldl_append, hskip pre, List.foldl_cons, markGlyph, if_pos, if_pos, hskip post]
    · simp only [hrep]; rfl
    · intro h hh hi
      simp only [hrep] at hi
      have hh' : h ∈ alphabet := by rw [hal]; simp [hh]
      obtain ⟨h0, hw⟩ := ha.words h hh'
      rcases infix_sep (fun hm => by have := hw _ hm; revert this; decide) h0 hi with hi | hi
      · exact haa h hh' hi
      · exact hbb h hh' (infix_pass (parseSym_pass hw (by decide)) h0 hi)
    · exact ⟨a, b, by simp⟩
    · exact ⟨a ++ ['\\'], b, by simp⟩
    · intro h hh hi
      have hh' : h ∈ alphabet := by rw [hal]; simp [hh]
      have h1 := hsplit h hh' hi
      rw [hal, List.pairwise_append] at hsort
      have h2 := hsort.2.2 h hh g (by simp)
      exact hpre (h1.eq_of_length (le_antisymm h1.length_le h2) ▸ hh)
  have hl : ¬ "lamda".toList <:+: a ++ '\\' :: (g ++ b) := fun hi => by
    exact hg' (ha.only g hg (hsplit _ ha.lamda hi))
  rw [translate]
  simp only [hfold, List.foldl_cons, List.foldl_nil]
  rw [strReplace_sep (by decide) (by decide), strReplace_match (by decide), strReplace_of_not_infix (hq hqa),
    strReplace_of_not_infix (hq hqb), greekTranslated, List.foldl_cons, List.foldl_cons, List.foldl_nil, if_neg hl,
    if_neg hL]

theorem rows_exist {alphabet : List (List Char)} (ha : GlyphNames alphabet) {l : List (List Char)}
    (hl : ∀ s ∈ l, PlainName alphabet s) :
    ∃ S : List Row, List.Forall₂ (Row.Spells alphabet) l S ∧
      ∀ b, Tex.lex ([' '].intercalate (l.map (translate alphabet)) ++ b) = S.flatMap Row.tokens ++ Tex.lex b := by
  induction l with
  | nil => exact ⟨[], .nil, fun b => rfl⟩
  | cons s l ih =>
    obtain ⟨S, hS, hb⟩ := ih fun s hs => hl s (by simp [hs])
    obtain ⟨T, hT, h1, h2⟩ := C89_name_partial ha (hl s (by simp))
    refine ⟨T :: S, .cons hT hS, fun b => ?_⟩
    cases l with
    | nil =>
      cases hS
      simp only [List.map_cons, List.map_nil, List.intercalate_singleton, List.flatMap_cons, List.flatMap_nil,
        List.append_nil]
      rw [h2, h1]
    | cons s' l =>
      rw [List.map_cons, List.map_cons, List.intercalate_cons_cons, ← List.map_cons, List.append_assoc,
        List.append_assoc, h2, h1, List.singleton_append, lex_blank, hb, List.flatMap_cons, List.append_assoc]

/-- The tokens of an index. -/
def indexTokens (sign : Char) (S : List Row) : List (List Char) :=
  if S = [] then [] else [[sign], ['{']] ++ S.flatMap Row.tokens ++ [['}']]

/-- **C89.** TeX reads the text of a symbol as its name, in bold type if this is wanted, with the upper and the
lower indices, each in one group. -/
theorem C89_symbol_partial {alphabet : List (List Char)} (ha : GlyphNames alphabet) (bold : Bool) {name : List Char}
    {supers subs : List (List Char)} (hn : PlainName alphabet name) (hsup : ∀ s ∈ supers, PlainName alphabet s)
    (hsub : ∀ s ∈ subs, PlainName alphabet s) :
    ∃ (T : Row) (S B : List Row), T.Spells alphabet name ∧ List.Forall₂ (Row.Spells alphabet) supers S ∧
      List.Forall₂ (Row.Spells alphabet) subs B ∧
      Tex.lex (strSymbol alphabet bold name supers subs) =
        (if bold then ["\\boldsymbol".toList, ['{']] ++ T.tokens ++ [['}']] else T.tokens) ++
          indexTokens '^' S ++ indexTokens '_' B := by
  obtain ⟨T, hT, h1, h2⟩ := C89_name_partial ha hn
  obtain ⟨S, hS, hS2⟩ := rows_exist ha hsup
  obtain ⟨B, hB, hB2⟩ := rows_exist ha hsub
  refine ⟨T, S, B, hT, hS, hB, ?_⟩
  have idx : ∀ (sign : Char) (l : List (List Char)) (S : List Row), sign ≠ '\\' → sign ≠ ' ' →
      List.Forall₂ (Row.Spells alphabet) l S →
      (∀ b, Tex.lex ([' '].intercalate (l.map (translate alphabet)) ++ b) = S.flatMap Row.tokens ++ Tex.lex b) →
      ∀ (u b : List Char), Tex.Closed u →
        Tex.lex ((if (l.map (translate alphabet)).length > 0 then
          u ++ [sign, '{'] ++ [' '].intercalate (l.map (translate alphabet)) ++ ['}'] else u) ++ b) =
        Tex.lex u ++ indexTokens sign S ++ Tex.lex b := by
    intro sign l S hs1 hs2 hlS hlex u b hu
    cases hlS with
    | nil => simp [indexTokens, hu b]
    | cons h hl' =>
      rw [if_pos (by simp), List.append_assoc, List.append_assoc, List.append_assoc, hu,
        closed_of_plain (s := [sign, '{']) (by simpa using hs1), hlex, closed_of_plain (s := ['}']) (by simp),
        lex_plain (s := [sign, '{']) (by simp [hs1, hs2]), lex_plain (s := ['}']) (by simp), indexTokens,
        if_neg (by simp)]
      simp
  have closedIdx : ∀ (sign : Char) (l : List (List Char)) (S : List Row), sign ≠ '\\' → sign ≠ ' ' →
      List.Forall₂ (Row.Spells alphabet) l S →
      (∀ b, Tex.lex ([' '].intercalate (l.map (translate alphabet)) ++ b) = S.flatMap Row.tokens ++ Tex.lex b) →
      ∀ (u : List Char), Tex.Closed u →
        Tex.Closed (if (l.map (translate alphabet)).length > 0 then
          u ++ [sign, '{'] ++ [' '].intercalate (l.map (translate alphabet)) ++ ['}'] else u) := by
    intro sign l S hs1 hs2 hlS hlex u hu b
    rw [idx sign l S hs1 hs2 hlS hlex u b hu]
    have := idx sign l S hs1 hs2 hlS hlex u [] hu
    rw [List.append_nil, lex_nil, List.append_nil] at this
    rw [this]
  have base : Tex.Closed (if bold then "\\boldsymbol{".toList ++ translate alphabet name ++ ['}']
        else translate alphabet name) ∧
      Tex.lex (if bold then "\\boldsymbol{".toList ++ translate alphabet name ++ ['}']
        else translate alphabet name) =
        if bold then ["\\boldsymbol".toList, ['{']] ++ T.tokens ++ [['}']] else T.tokens := by
    cases bold with
    | false => exact ⟨h2, h1⟩
    | true =>
      have key : ∀ b, Tex.lex ("\\boldsymbol{".toList ++ b) = ["\\boldsymbol".toList, ['{']] ++ Tex.lex b :=
        fun b => by simp [Tex.lex, Tex.lexGo]
      simp only [if_true]
      constructor
      · intro b
        rw [List.append_assoc, List.append_assoc, key, h2, closed_of_plain (s := ['}']) (by simp),
          List.append_assoc, key, h2]
        simp
      · rw [List.append_assoc, key, h2, h1, lex_plain (s := ['}']) (by simp)]
        simp
  have h3 := idx '_' subs B (by decide) (by decide) hB hB2 _ []
    (closedIdx '^' supers S (by decide) (by decide) hS hS2 _ base.1)
  have h4 := idx '^' supers S (by decide) (by decide) hS hS2 _ [] base.1
  rw [List.append_nil, lex_nil, List.append_nil] at h3 h4
  rw [h4, base.2] at h3
  exact h3

section derivative
variable {V : Type*} [DecidableEq V]

/-- **C89.** With the setting `omit_partial_derivative_fraction` the operators are printed in their order, equal
neighbours together. -/
theorem C89_derivative_flat (print : V → List Char) {vars : List V} (hv : vars ≠ []) (assoc : Bool)
    (body : List Char) :
    derivativeTex true print vars assoc body =
      runsTex true print vars ++ if assoc then "\\left(".toList ++ body ++ "\\right)".toList else ' ' :: body := by
  have h : partialsText true print vars = runsTex true print vars := by
    match vars, hv with
    | [x], _ => simp [partialsText, runsTex_eq, multiplicities, partialTex]
    | x :: y :: l, _ =>
      rw [runsTex_eq, partialsText, if_pos rfl, foldl_append_flatMap, List.nil_append]
      · refine List.flatMap_congr fun p _ => ?_
        rw [partialTex]
        split_ifs <;> simp_all [strNat]
      · simp
  rw [derivativeTex, h]
  cases assoc <;> simp

/-- **C89.** Without it the text is a fraction with the order of the derivative above and the operators below. -/
theorem C89_derivative_fraction (print : V → List Char) {vars : List V} (hv : vars ≠ []) (assoc : Bool)
    (body : List Char) :
    derivativeTex false print vars assoc body =
      "\\frac{\\partial".toList ++
        (if vars.length = 1 then [] else "^{".toList ++ Nat.toDigits 10 vars.length ++ ['}']) ++ "}{".toList ++
        runsTex false print vars ++ ['}'] ++ (if vars.length = 1 then [] else [' ']) ++
        if assoc then "\\left(".toList ++ body ++ "\\right)".toList else ' ' :: body := by
  have h : partialsText false print vars = "\\frac{\\partial".toList ++
        (if vars.length = 1 then [] else "^{".toList ++ Nat.toDigits 10 vars.length ++ ['}']) ++ "}{".toList ++
        runsTex false print vars ++ ['}'] ++ (if vars.length = 1 then [] else [' ']) := by
    match vars, hv with
    | [x], _ => simp [partialsText, runsTex_eq, multiplicities, partialTex]
    | x :: y :: l, _ =>
      rw [runsTex_eq, partialsText]
      · rw [if_neg (by simp), foldl_append_flatMap, List.nil_append, if_neg (by simp), if_neg (by simp)]
        have : ((multiplicities x 1 (y :: l)).flatMap fun p => if p.2 = 1 then "\\partial ".toList ++ print p.1
            else "\\partial^{".toList ++ strNat p.2 ++ "} ".toList ++ print p.1) =
            (multiplicities x 1 (y :: l)).flatMap fun p => partialTex false (print p.1) p.2 := by
          refine List.flatMap_congr fun p _ => ?_
          rw [partialTex]
          split_ifs <;> simp_all [strNat]
        rw [this]
        simp [strNat]
      · simp
  rw [derivativeTex, h]
  cases assoc <;> simp

theorem brace_unique {c : Char} {a a' u u' : List Char} (ha : c ∉ a) (ha' : c ∉ a')
    (h : a ++ c :: u = a' ++ c :: u') : a = a' ∧ u = u' := by
  induction a generalizing a' with
  | nil =>
    cases a' with
    | nil => exact ⟨rfl, by simpa using h⟩
    | cons d a' => simp at h; simp [h.1] at ha'
  | cons d a ih =>
    cases a' with
    | nil => simp at h; simp [h.1] at ha
    | cons e a' =>
      simp only [List.cons_append, List.cons.injEq] at h
      obtain ⟨h1, h2⟩ := ih (fun hm => ha (by simp [hm])) (fun hm => ha' (by simp [hm])) h.2
      exact ⟨by rw [h.1, h1], h2⟩

/-- **C89.** In the plain text of a derivative one can see the variables, the orders and the function, if braces
occur in no name and the text of the function begins neither with a brace, a digit, nor a power sign. -/
theorem C89_plain_partial {print : V → List Char} (hp : Function.Injective print)
    (hb : ∀ v, '}' ∉ print v) {vars vars' : List (V × ℕ)} (hv : ∀ p ∈ vars, 0 < p.2) (hv' : ∀ p ∈ vars', 0 < p.2)
    {body body' : List Char} (h0 : ∀ c ∈ body.head?, c ≠ '{' ∧ c ≠ '^' ∧ c.isDigit = false)
    (h0' : ∀ c ∈ body'.head?, c ≠ '{' ∧ c ≠ '^' ∧ c.isDigit = false)
    (h : derivativeStr print vars body = derivativeStr print vars' body') : vars = vars' ∧ body = body' := by
  have flat : ∀ (vars : List (V × ℕ)) (body : List Char), derivativeStr print vars body =
      'D' :: (vars.flatMap (fun p => '{' :: (print p.1 ++ '}' :: if 1 < p.2 then '^' :: strNat p.2 else [])) ++
        body) := by
    intro vars body
    have : (fun (s : List Char) (p : V × ℕ) =>
        s ++ '{' :: print p.1 ++ ['}'] ++ if 1 < p.2 then '^' :: strNat p.2 else []) =
        fun s p => s ++ '{' :: (print p.1 ++ '}' :: if 1 < p.2 then '^' :: strNat p.2 else []) := by
      funext s p; simp
    rw [derivativeStr, this, foldl_append_flatMap]
    rfl
  rw [flat, flat, List.cons.injEq] at h
  replace h := h.2
  clear flat
  have hd : ∀ {vars : List (V × ℕ)} {body : List Char},
      (∀ c ∈ body.head?, c ≠ '{' ∧ c ≠ '^' ∧ c.isDigit = false) →
      ∀ c, (vars.flatMap (fun p => '{' :: (print p.1 ++ '}' :: if 1 < p.2 then '^' :: strNat p.2 else [])) ++
        body).head? = some c → c ≠ '^' ∧ c.isDigit = false := by
    intro vars body h c hc
    cases vars with
    | nil => exact (h c (by simpa using hc)).2
    | cons p l =>
      simp at hc
      subst hc
      decide
  induction vars generalizing vars' with
  | nil =>
    cases vars' with
    | nil => exact ⟨rfl, by simpa using h⟩
    | cons p l =>
      simp only [List.flatMap_nil, List.nil_append, List.flatMap_cons, List.cons_append] at h
      exact absurd rfl (h0 '{' (by rw [h]; rfl)).1
  | cons p l ih =>
    cases vars' with
    | nil =>
      simp only [List.flatMap_nil, List.nil_append, List.flatMap_cons, List.cons_append] at h
      exact absurd rfl (h0' '{' (by rw [← h]; rfl)).1
    | cons p' l' =>
      simp only [List.flatMap_cons, List.cons_append, List.append_assoc, List.cons.injEq, true_and] at h
      obtain ⟨h1, h2⟩ := brace_unique (hb _) (hb _) h
      have h3 := hp h1
      have k1 := hv p (by simp)
      have k2 := hv' p' (by simp)
      have e1 := hd (vars := l) h0
      have e2 := hd (vars := l') h0'
      have h4 : p.2 = p'.2 ∧ l.flatMap (fun p => '{' :: (print p.1 ++ '}' :: if 1 < p.2 then '^' :: strNat p.2
          else [])) ++ body = l'.flatMap (fun p => '{' :: (print p.1 ++ '}' :: if 1 < p.2 then '^' :: strNat p.2
          else [])) ++ body' := by
        split_ifs at h2 with c1 c2 c2
        · simp only [List.cons_append, List.cons.injEq, true_and] at h2
          exact digits_unique (fun c hc => (e1 c hc).2) (fun c hc => (e2 c hc).2) h2
        · rw [List.nil_append] at h2
          exact absurd rfl (e2 '^' (by rw [← h2]; rfl)).1
        · rw [List.nil_append] at h2
          exact absurd rfl (e1 '^' (by rw [h2]; rfl)).1
        · exact ⟨by omega, by simpa using h2⟩
      obtain ⟨h5, h6⟩ := ih (fun p hp => hv p (by simp [hp])) (fun p hp => hv' p (by simp [hp])) h4.2
      exact ⟨by rw [h5, Prod.ext h3 h4.1], h6⟩

/-- **C89, counterexample.** A sum as the function is not put in parentheses: the derivative of `f + g` and the
derivative of `f`, plus `g`, have the same text. -/
theorem C89_plain_counterexample (print : V → List Char) (x : V) (k : ℕ) (f g : List Char) :
    derivativeStr print [(x, k)] (f ++ " + ".toList ++ g) = derivativeStr print [(x, k)] f ++ " + ".toList ++ g := by
  simp [derivativeStr]

end derivative

/-- SymPy's Greek letters and other glyphs in the order of the printer; glyphs of equal length may come in another
order. -/
def sympyAlphabet : List (List Char) :=
  ["upsilon", "omicron", "epsilon", "hslash", "daleth", "omega", "sigma", "lamda", "kappa", "theta", "delta",
    "gamma", "alpha", "infty", "aleph", "gimel", "iota", "zeta", "beta", "beth", "hbar", "psi", "chi", "phi", "tau",
    "rho", "eta", "ell", "eth", "mho", "pi", "xi", "nu", "mu", "wp"].map String.toList

theorem sympyAlphabet_names : GlyphNames sympyAlphabet :=
  ⟨by decide +kernel, by decide +kernel, by decide +kernel⟩

theorem sympyAlphabet_sorted : sympyAlphabet.Pairwise fun a b => b.length ≤ a.length := by decide +kernel

instance (alphabet : List (List Char)) (s : List Char) : Decidable (PlainName alphabet s) :=
  decidable_of_iff ('?' ∉ s ∧ '\\' ∉ s ∧ ¬ "Lamda".toList <:+: s ∧ (alphabet.filter (· <:+: s)).length ≤ 9)
    ⟨fun h => ⟨h.1, h.2.1, h.2.2.1, h.2.2.2⟩, fun h => ⟨h.1, h.2, h.3, h.4⟩⟩

/-- **C89, counterexample.** With ten glyphs the placeholder of the tenth is taken for that of the first, and the
text is not the name. -/
theorem C89_ten_glyphs_counterexample :
    translate sympyAlphabet "upsilonomicronepsilonomegasigmakappathetadeltagammaalpha".toList =
      "\\upsilon \\omicron \\epsilon \\omega \\sigma \\kappa \\theta \\delta \\gamma \\upsilon 0".toList := by
  decide +kernel

/-- **C89, counterexample.** A control word that ends with the name of a glyph is torn apart. -/
theorem C89_control_word_counterexample :
    translate sympyAlphabet "\\varphi".toList = "\\var\\phi ".toList ∧
    translate sympyAlphabet "\\Theta".toList = "\\Th\\eta ".toList := by
  decide +kernel

/-- **C89, counterexample.** A capital Greek letter is not a glyph, but its end may be one. -/
theorem C89_capital_counterexample :
    translate sympyAlphabet "Theta".toList = "Th\\eta ".toList := by
  decide +kernel

/-! ### Concrete cases -/

/-- The name `betax` is the glyph `beta` and the character `x`. -/
example : PlainName sympyAlphabet "betax1".toList ∧
    translate sympyAlphabet "betax1".toList = "\\beta x1".toList := by decide +kernel

example : PlainName sympyAlphabet "lamda".toList ∧
    translate sympyAlphabet "lamda".toList = "\\lambda ".toList := by decide +kernel

/-- The hypotheses of `C89_control_word_partial` hold for `\dot{\theta}`. -/
example : translate sympyAlphabet "\\dot{\\theta}".toList = "\\dot{\\theta}".toList :=
  C89_control_word_partial (a := "\\dot{".toList) (b := "}".toList) (g := "theta".toList) sympyAlphabet_names
    sympyAlphabet_sorted (by decide +kernel) (by decide +kernel) (by decide +kernel) (by decide) (by decide)
    (by decide) (by decide) (by decide +kernel)

example : strSymbol sympyAlphabet true "e".toList ["phi".toList] ["x".toList, "mu".toList] =
    "\\boldsymbol{e}^{\\phi }_{x \\mu }".toList := by decide +kernel

example : derivativeTex true id ["x".toList, "x".toList, "y".toList] false "f".toList =
    "\\partial^{2}_{x}\\partial_{y} f".toList := by decide +kernel

example : derivativeTex false id ["x".toList, "x".toList, "y".toList] true "f g".toList =
    "\\frac{\\partial^{3}}{\\partial^{2} x\\partial y} \\left(f g\\right)".toList := by decide +kernel

example : derivativeStr id [("x".toList, 2), ("y".toList, 1)] "f".toList = "D{x}^2{y}f".toList := by
  decide +kernel

end GA
