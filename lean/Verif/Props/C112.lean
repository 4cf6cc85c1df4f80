import Verif.Proofs.PowTex

/-!
# C112: powers and functions in LaTeX

How TeX reads a formula is in `Spec/TexLex.lean` and `Spec/TexFormula.lean`.
-/

set_option maxRecDepth 10000

namespace GA
open Tex

/-- The text gets parentheses because of an index or exponent in it (printer.py:522: not if it has `cdot`). -/
def InParens (text : List Char) : Prop := ('_' ∈ text ∨ '^' ∈ text) ∧ ¬ "cdot".toList <:+: text

/-- The base is one part of a formula without index and exponent. -/
def OnePart (b : List Node) : Prop := ∃ N : Node, N.plain = true ∧ b = [N]

theorem powMode_iff (s : List Char) : powMode s = true ↔ InParens s := by
  simp [powMode, InParens]

section
variable {b : List Node} {s t : List Char} {m : List Node}

theorem readsAs_mode_up (h : ReadsAs s b) (ht : ReadsAs t m) :
    ReadsAs ("{\\left ( ".toList ++ s ++ " \\right )}^{".toList ++ t ++ ['}'])
      [.script (.group [.paren (.tok ['('] :: b) [')']]) (some (.group m)) none] := by
  have := readsAs_up (N := .group [.paren (.tok ['('] :: b) [')']]) rfl (readsAs_braces (readsAs_paren h)) ht
  have e : '{' :: ("\\left ( ".toList ++ s ++ " \\right )".toList) ++ ['}'] ++ "^{".toList ++ t ++ ['}'] =
      "{\\left ( ".toList ++ s ++ " \\right )}^{".toList ++ t ++ ['}'] := by simp
  rwa [e] at this

theorem powGeneral_reads {B : TexBase} (hB : ReadsAs B.text b)
    (h1 : B.isFunction = true ∨ B.needsBrackets = true ∨ InParens B.text ∨ OnePart b) (ht : ReadsAs t m) :
    ∃ N, Holds b N ∧ ReadsAs (powGeneral B none t) [.script N (some (.group m)) none] := by
  rw [powGeneral]
  by_cases hf : B.isFunction = true
  · rw [if_pos hf]
    refine ⟨_, .braces, ?_⟩
    have := readsAs_up (N := .group b) rfl (readsAs_braces hB) ht
    have e : '{' :: B.text ++ ['}'] ++ "^{".toList ++ t ++ ['}'] = ['{'] ++ B.text ++ "}^{".toList ++ t ++ ['}'] := by simp
    rwa [e] at this
  · rw [if_neg hf]
    by_cases hn : B.needsBrackets = true
    · simp only [hn, if_true]
      exact ⟨_, .paren, readsAs_paren_up hB ht⟩
    · simp only [hn]
      by_cases hm : powMode B.text = true
      · simp only [hm, if_true]
        exact ⟨_, .group .paren, readsAs_mode_up hB ht⟩
      · simp only [hm]
        obtain ⟨N, hN, rfl⟩ : OnePart b := by
          rcases h1 with h | h | h | h
          · exact absurd h hf
          · exact absurd h hn
          · exact absurd ((powMode_iff _).mpr h) hm
          · exact h
        exact ⟨N, .self hN rfl, readsAs_up hN hB ht⟩

theorem powSpecial_reads {E : ℚ → List Node} {S : TexSettings} {B : TexBase} (hB : ReadsAs B.text b)
    (hf : S.foldFracPowers = true → InParens B.text ∨ OnePart b) {r : ℚ} (h : powSpecial S B r = some t) :
    ∃ l, ReadsAs t l ∧ ShowsPower E b r l := by
  have hr := Rat.num_div_den r
  rw [powSpecial] at h
  by_cases h1 : r.num.natAbs = 1 ∧ r.den ≠ 1
  · obtain ⟨l, k1, k2⟩ : ∃ l, ReadsAs (rootTex S B.text r.den) l ∧ ShowsPower E b (1 / r.den) l := by
      rw [rootTex]
      by_cases h2 : r.den = 2
      · rw [if_pos h2, h2]
        exact ⟨_, readsAs_sqrt hB, .sqrt⟩
      · rw [if_neg h2]
        split_ifs
        · exact ⟨_, readsAs_itexRoot (readsAs_strNat _) hB, .root r.den⟩
        · exact ⟨_, readsAs_root r.den hB, .root r.den⟩
    rw [if_pos h1, Option.some.injEq] at h
    subst h
    rcases Int.natAbs_eq r.num with hp | hp
    · rw [h1.1] at hp
      have e : r = 1 / r.den := by rw [← hr]; simp [hp]
      have e0 : ¬ r < 0 := by rw [← Rat.num_neg, hp]; decide
      rw [if_neg e0]
      exact ⟨l, k1, by rw [e]; exact k2⟩
    · rw [h1.1] at hp
      have e : r = -(1 / r.den) := by
        conv_lhs => rw [← hr, hp]
        push_cast
        ring
      have e0 : r < 0 := by rw [← Rat.num_neg, hp]; decide
      rw [if_pos e0]
      refine ⟨_, readsAs_recip k1, ?_⟩
      rw [e]
      exact .reciprocal k2
  · rw [if_neg h1] at h
    by_cases h2 : S.foldFracPowers = true ∧ r.den ≠ 1
    · rw [if_pos h2, Option.some.injEq, foldTex] at h
      by_cases hm : powMode B.text = true
      · rw [if_pos hm] at h
        subst h
        refine ⟨_, readsAs_mode_up hB (readsAs_fold r.num r.den), ?_⟩
        have := ShowsPower.folded (E := E) r.num r.den (Holds.group (Holds.paren (B := b)))
        rwa [hr] at this
      · rw [if_neg hm] at h
        subst h
        obtain ⟨N, hN, rfl⟩ : OnePart b := by
          rcases hf h2.1 with h | h
          · exact absurd ((powMode_iff _).mpr h) hm
          · exact h
        refine ⟨_, readsAs_up hN hB (readsAs_fold r.num r.den), ?_⟩
        have := ShowsPower.folded (E := E) r.num r.den (Holds.self hN rfl)
        rwa [hr] at this
    · rw [if_neg h2] at h
      exact absurd h (by simp)

theorem tex_strip_eq {s : List Char} (h : s.head? ≠ some ' ') (h' : s.getLast? ≠ some ' ') : strip s = s := by
  have e1 : s.dropWhile (· = ' ') = s := by
    cases s with
    | nil => rfl
    | cons c s =>
      rw [List.dropWhile_cons_of_neg]
      simpa using h
  have e2 : s.reverse.dropWhile (· = ' ') = s.reverse := by
    rw [List.getLast?_eq_head?_reverse] at h'
    cases hs : s.reverse with
    | nil => rfl
    | cons c t =>
      rw [List.dropWhile_cons_of_neg]
      simpa [hs] using h'
  rw [strip, e1, e2, List.reverse_reverse]

/-- `m` is the text of minus a power with the exponent -1: a minus sign, a blank and a text that shows the power. -/
def ShowsMinus (E : ℚ → List Node) (b : List Node) (m : List Char) : Prop :=
  ∃ t l, m = '-' :: ' ' :: t ∧ t ≠ [] ∧ t.head? ≠ some ' ' ∧ t.getLast? ≠ some ' ' ∧ ReadsAs t l ∧ ShowsPower E b (-1) l

/-- C112, rational exponents: the text of a power is a formula that shows the power of the whole base (a superscript on a
part that holds all of the base, a root, or one over such a power), for all settings, bases and exponents, if a base that
SymPy leaves without brackets is printed as one part or has an index. -/
theorem C112_power_partial {S : TexSettings} {ratTex : ℚ → List Char} {E : ℚ → List Node} (hE : ∀ r, ReadsAs (ratTex r) (E r))
    {B : TexBase} {b : List Node} (hB : ReadsAs B.text b)
    (h1 : B.isFunction = true ∨ B.needsBrackets = true ∨ InParens B.text ∨ OnePart b)
    (hf : S.foldFracPowers = true → InParens B.text ∨ OnePart b) {minus : Option (List Char)}
    (hm : ∀ m ∈ minus, ShowsMinus E b m) (r : ℚ) :
    ∃ l, read (printPow S ratTex minus B (.rat r)) = some l ∧ ReadsAs (printPow S ratTex minus B (.rat r)) l ∧
      ShowsPower E b r l := by
  suffices h : ∃ l, ReadsAs (printPow S ratTex minus B (.rat r)) l ∧ ShowsPower E b r l by
    obtain ⟨l, k1, k2⟩ := h
    exact ⟨l, k1.read, k1, k2⟩
  have gen : ∀ r, ∃ l, ReadsAs (powGeneral B none (ratTex r)) l ∧ ShowsPower E b r l := fun r => by
    obtain ⟨N, k1, k2⟩ := powGeneral_reads hB h1 (hE r)
    exact ⟨_, k2, .superscript r k1⟩
  rw [printPow]
  cases hs : powSpecial S B r with
  | some t => exact powSpecial_reads hB hf hs
  | none =>
    by_cases hn : r < 0 ∧ B.isFunction = true
    · simp only [hn.1, hn.2, and_self, if_true]
      obtain ⟨l, k1, k2⟩ : ∃ l, ReadsAs (if -r = 1 then B.text else match powSpecial S B (-r) with
          | some t => t
          | none => powGeneral B none (ratTex (-r))) l ∧ ShowsPower E b (-r) l := by
        by_cases h2 : -r = 1
        · rw [if_pos h2, h2]
          exact ⟨b, hB, .one⟩
        · rw [if_neg h2]
          cases hs' : powSpecial S B (-r) with
          | some t => exact powSpecial_reads hB hf hs'
          | none => exact gen _
      refine ⟨_, readsAs_recip k1, ?_⟩
      have := ShowsPower.reciprocal k2
      rwa [neg_neg] at this
    · simp only [hn, if_false]
      by_cases h2 : r = -1
      · rw [if_pos h2]
        cases minus with
        | none => exact gen r
        | some m =>
          by_cases hF : B.isFunction = true
          · exact absurd ⟨by rw [h2]; norm_num, hF⟩ hn
          obtain ⟨t, l, rfl, ht, k1, k2, k3, k4⟩ := hm m rfl
          have e1 : strip ('-' :: ' ' :: t) = '-' :: ' ' :: t := tex_strip_eq (by simp) (by
            cases t with
            | nil => exact absurd rfl ht
            | cons c t => simpa using k2)
          have e2 : strip (' ' :: t) = t := by
            have := tex_strip_eq k1 k2
            rwa [strip] at this ⊢
          rw [powGeneral, if_neg hF]
          simp only [e1, List.head?_cons, if_true, List.tail_cons, e2]
          exact ⟨l, k3, by rw [h2]; exact k4⟩
      · rw [if_neg h2]
        exact gen r

/-- C112, other exponents: a superscript on a part that holds all of the base. -/
theorem C112_exponent_partial {S : TexSettings} {ratTex : ℚ → List Char} {B : TexBase} {b : List Node}
    (hB : ReadsAs B.text b) (h1 : B.isFunction = true ∨ B.needsBrackets = true ∨ InParens B.text ∨ OnePart b)
    {minus : Option (List Char)} {e : List Char} {E : List Node} (he : ReadsAs e E) :
    ∃ N, Holds b N ∧ read (printPow S ratTex minus B (.other e)) = some [.script N (some (.group E)) none] := by
  obtain ⟨N, k1, k2⟩ := powGeneral_reads hB h1 he
  exact ⟨N, k1, by rw [printPow]; exact k2.read⟩

end

end GA
