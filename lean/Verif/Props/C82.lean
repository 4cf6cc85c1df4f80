import Verif.Spec.Symbols
import Verif.Proofs.Session
import Verif.Proofs.MvLatex
import Verif.Model.RSymbols

/-!
# C82: names of symbols

`symbolsList`, `symbolsListIdx` model `symbols_list`, `basisSymbols` the symbols made by the
constructor of an algebra.
-/

set_option linter.unusedSectionVars false
set_option maxRecDepth 10000

namespace GA
open Symbols

theorem superscripted_replace (w : List Char) : Superscripted w (replaceFirstUnderscore w) := by
  induction w with
  | nil => exact Or.inr ⟨by simp, rfl⟩
  | cons x w ih =>
    rw [replaceFirstUnderscore]
    by_cases hx : x = '_'
    · rw [if_pos hx, hx]
      exact Or.inl ⟨[], w, by simp, rfl, rfl⟩
    · rw [if_neg hx]
      rcases ih with ⟨u, v, hu, e, e'⟩ | ⟨h, e⟩
      · exact Or.inl ⟨x :: u, v, by simp [hu, Ne.symm hx], by rw [e]; rfl, by rw [e']; rfl⟩
      · exact Or.inr ⟨by simp [h, Ne.symm hx], by rw [e]⟩

theorem append_underscore_inj {u u' v v' : List Char} (hu : '_' ∉ u) (hu' : '_' ∉ u')
    (h : u ++ '_' :: v = u' ++ '_' :: v') : u = u' ∧ v = v' := by
  induction u generalizing u' with
  | nil =>
    cases u' with
    | nil => simpa using h
    | cons x u' =>
      simp only [List.nil_append, List.cons_append, List.cons.injEq] at h
      exact absurd (h.1 ▸ List.mem_cons_self) hu'
  | cons x u ih =>
    cases u' with
    | nil =>
      simp only [List.nil_append, List.cons_append, List.cons.injEq] at h
      exact absurd (h.1 ▸ List.mem_cons_self) hu
    | cons y u' =>
      simp only [List.cons_append, List.cons.injEq] at h
      have := ih (fun hm => hu (List.mem_cons_of_mem _ hm)) (fun hm => hu' (List.mem_cons_of_mem _ hm)) h.2
      exact ⟨by rw [h.1, this.1], this.2⟩

theorem superscripted_unique {w a b : List Char} (ha : Superscripted w a) (hb : Superscripted w b) :
    a = b := by
  rcases ha with ⟨u, v, hu, e, e'⟩ | ⟨h, e⟩ <;> rcases hb with ⟨u2, v2, hu2, e2, e2'⟩ | ⟨h2, e2⟩
  · obtain ⟨rfl, rfl⟩ := append_underscore_inj hu hu2 (e.symm.trans e2)
    rw [e', e2']
  · exact absurd (by rw [e]; simp) h2
  · exact absurd (by rw [e2]; simp) h
  · rw [e, e2]

theorem forall₂_superscripted {l l' : List (List Char)} (h : List.Forall₂ Superscripted l l') :
    l' = l.map replaceFirstUnderscore := by
  induction h with
  | nil => rfl
  | cons h _ ih => rw [List.map_cons, ← ih, superscripted_unique h (superscripted_replace _)]

theorem marked_eq {sub : Bool} {l l' : List (List Char)} (h : Marked sub l l') :
    l' = if sub then l else l.map replaceFirstUnderscore := by
  rw [Marked] at h
  split_ifs at h ⊢
  · exact h
  · exact forall₂_superscripted h

theorem not_mem_joinWith {c x : Char} {l : List (List Char)} (hx : x ≠ c) (h : ∀ w ∈ l, x ∉ w) :
    x ∉ joinWith c l := by
  intro hm
  rcases mem_joinWith hm with hm | ⟨w, hw, hm⟩
  · exact hx hm
  · exact h w hw hm

theorem joinWith_ne_nil {c : Char} {l : List (List Char)} (hl : l ≠ []) (h : ∀ w ∈ l, w ≠ []) :
    joinWith c l ≠ [] := by
  match l, hl with
  | [w], _ => exact h w (by simp)
  | w :: w' :: l, _ => simp [joinWith]

theorem ne_nil_of_two {l : List (List Char)} (h : 2 ≤ l.length) : l ≠ [] := by
  rintro rfl
  simp at h

/-- C82: for every string of a documented form `symbols_list` makes exactly the names that the
documentation says, as subscripts and as superscripts. -/
theorem C82_symbols_list {sub : Bool} {s : List Char} {l : List (List Char)} (h : Means sub s l) :
    symbolsList s sub = some l := by
  cases h with
  | empty => cases sub <;> rfl
  | @commas l _ hl h2 hm =>
    have hs : '*' ∉ joinWith ',' l := not_mem_joinWith (by decide) fun w hw => (hl w hw).2.1
    have hn := joinWith_ne_nil (c := ',') (ne_nil_of_two h2) fun w hw => (hl w hw).2.2
    have hsp := splitOn_joinWith (c := ',') (ne_nil_of_two h2) fun w hw => (hl w hw).1
    have hlast : l.getLast? ≠ some [] := fun h => (hl [] (List.mem_of_getLast? h)).2.2 rfl
    rw [symbolsList, if_neg hs]
    simp only [if_neg hn, if_pos (sep_mem_joinWith h2), hsp, if_neg hlast]
    rw [marked_eq hm]
  | @trailing l _ hl h2 hm =>
    have hs : '*' ∉ joinWith ',' l ++ [','] := by
      rw [List.mem_append, not_or]
      exact ⟨not_mem_joinWith (by decide) fun w hw => (hl w hw).2.1, by decide⟩
    have hn : joinWith ',' l ++ [','] ≠ [] := by simp
    have hsp : splitOn ',' (joinWith ',' l ++ [',']) = l ++ [[]] := by
      rw [← joinWith_concat ',' h2]
      refine splitOn_joinWith (by simp) fun w hw => ?_
      rw [List.mem_append, List.mem_singleton] at hw
      rcases hw with hw | rfl
      · exact (hl w hw).1
      · simp
    rw [symbolsList, if_neg hs]
    simp only [if_neg hn, if_pos (show ',' ∈ joinWith ',' l ++ [','] by simp), hsp,
      List.getLast?_append, List.getLast?_singleton, Option.some_or, if_true, List.dropLast_concat]
    rw [marked_eq hm]
  | @spaces l _ hl h2 hm =>
    have hs : '*' ∉ joinWith ' ' l := not_mem_joinWith (by decide) fun w hw => (hl w hw).1
    have hc : ',' ∉ joinWith ' ' l := not_mem_joinWith (by decide) fun w hw => (hl w hw).2.2.1
    have hn := joinWith_ne_nil (c := ' ') h2 fun w hw => (hl w hw).2.2.2.2
    have hsp := splitOn_joinWith (c := ' ') h2 fun w hw => (hl w hw).2.2.2.1
    rw [symbolsList, if_neg hs]
    simp only [if_neg hn, if_neg hc, hsp]
    rw [marked_eq hm]
  | @indexed base l hb hl h2 =>
    have hs : '*' ∉ joinWith '|' l := not_mem_joinWith (by decide) fun w hw => (hl w hw).1
    have hsp := splitOn_joinWith (c := '|') (ne_nil_of_two h2) fun w hw => (hl w hw).2.1
    rw [symbolsList, if_pos (by simp), splitOn_append hb.1, splitOn_of_not_mem hs]
    simp only
    rw [if_pos (by simp [sep_mem_joinWith h2]), hsp]
    rfl
  | @numbered base m hb =>
    have hs : '*' ∉ strNat m := not_mem_strNat (by decide) m
    have hbar : '|' ∉ base ++ '*' :: strNat m := by
      rw [List.mem_append, List.mem_cons]
      rintro (h | h | h)
      · exact hb.2.1 h
      · exact absurd h (by decide)
      · exact not_mem_strNat (by decide) m h
    rw [symbolsList, if_pos (by simp), splitOn_append hb.1, splitOn_of_not_mem hs]
    simp only
    rw [if_neg hbar, parseNat_strNat]
    rfl

/-- C82: a string has at most one documented meaning. -/
theorem C82_unambiguous {sub : Bool} {s : List Char} {l l' : List (List Char)} (h : Means sub s l)
    (h' : Means sub s l') : l = l' :=
  Option.some.inj ((C82_symbols_list h).symm.trans (C82_symbols_list h'))

/-- C82: the basis vectors of an algebra have the names that the basis string stands for and the
reciprocal symbols the superscripted names, if the string has a documented form that is more than
one name. -/
theorem C82_basis {s : List Char} {b r : List (List Char)} (coords : Option (List (List Char)))
    (hb : Means true s b) (hr : Means false s r) (h : ¬ Plain s) :
    basisSymbols s coords = some (b, r) := by
  have hc : ' ' ∈ s ∨ ',' ∈ s ∨ '*' ∈ s ∨ s = [] := by
    by_contra hn
    rw [not_or, not_or, not_or] at hn
    have hbar : '|' ∉ s := by
      cases hb with
      | empty => simp
      | @commas l _ _ h2 _ => exact absurd (sep_mem_joinWith h2) hn.2.1
      | trailing => exact absurd (by simp) hn.2.1
      | @spaces l _ hl h2 _ =>
        match l, h2 with
        | [w], _ => exact (hl w (by simp)).2.1
        | w :: w' :: l, _ => exact absurd (sep_mem_joinWith (by simp)) hn.1
      | indexed => exact absurd (by simp) hn.2.2.1
      | numbered => exact absurd (by simp) hn.2.2.1
    exact h ⟨hn.2.2.1, hbar, hn.2.1, hn.1, hn.2.2.2⟩
  rw [basisSymbols, if_pos hc, C82_symbols_list hb, C82_symbols_list hr]
  rfl

/-- C82: a single name is a prefix for the coordinates; without coordinates the constructor raises
`ValueError`. -/
theorem C82_root {s : List Char} (h : Plain s) (coords : List (List Char)) :
    basisSymbols s (some coords) =
      some (coords.map fun x => s ++ '_' :: x, coords.map fun x => s ++ '_' :: '_' :: x) ∧
    basisSymbols s none = none := by
  have hc : ¬ (' ' ∈ s ∨ ',' ∈ s ∨ '*' ∈ s ∨ s = []) := by
    rw [not_or, not_or, not_or]
    exact ⟨h.2.2.2.1, h.2.2.1, h.1, h.2.2.2.2⟩
  rw [basisSymbols, basisSymbols, if_neg hc, if_neg hc]
  exact ⟨by simp [symbolsListIdx], rfl⟩

/-- C82: a prefix with a single index that is not a number is no list of names: `ValueError`. -/
theorem C82_single_index {base index : List Char} (sub : Bool) (hb : Plain base) (hi : Plain index)
    (hd : ∃ c ∈ index, c.isDigit = false) : symbolsList (base ++ '*' :: index) sub = none := by
  have hbar : '|' ∉ base ++ '*' :: index := by
    rw [List.mem_append, List.mem_cons]
    rintro (h | h | h)
    · exact hb.2.1 h
    · exact absurd h (by decide)
    · exact hi.2.1 h
  obtain ⟨c, hc, hd⟩ := hd
  have hp : parseNat index = none := by
    rw [parseNat, if_neg]
    rintro ⟨-, h⟩
    rw [List.all_eq_true] at h
    rw [h c hc] at hd
    exact absurd hd (by decide)
  rw [symbolsList, if_pos (by simp), splitOn_append hb.1, splitOn_of_not_mem hi.1]
  simp only
  rw [if_neg hbar, hp]
  rfl

example : symbolsList "a*b".toList true = none :=
  C82_single_index (base := ['a']) (index := ['b']) true (by unfold Plain; decide)
    (by unfold Plain; decide) ⟨'b', by decide, by decide⟩

/-- The examples of the documentation. -/
example : symbolsList "a,b,c".toList true = some ["a".toList, "b".toList, "c".toList] ∧
    symbolsList "a b,c".toList true = some ["a b".toList, "c".toList] ∧
    symbolsList "a,".toList true = some ["a".toList] ∧
    symbolsList "a_1 a_2".toList false = some ["a__1".toList, "a__2".toList] ∧
    symbolsList "a__1 a__2".toList false = some ["a___1".toList, "a___2".toList] ∧
    symbolsList "a*b|c|d".toList true = some ["a_b".toList, "a_c".toList, "a_d".toList] ∧
    symbolsList "a*3".toList true = some ["a_0".toList, "a_1".toList, "a_2".toList] ∧
    symbolsListIdx "a".toList ["2".toList, "4".toList, "6".toList] false =
      ["a__2".toList, "a__4".toList, "a__6".toList] := by decide +kernel

example : Means false "e_x e_y".toList ["e__x".toList, "e__y".toList] :=
  .spaces (l := ["e_x".toList, "e_y".toList]) (by unfold Plain; decide +kernel) (by decide)
    (List.Forall₂.cons (Or.inl ⟨['e'], ['x'], by decide, rfl, rfl⟩)
      (List.Forall₂.cons (Or.inl ⟨['e'], ['y'], by decide, rfl, rfl⟩) .nil))

example : basisSymbols "e*x|y".toList none =
    some (["e_x".toList, "e_y".toList], ["e__x".toList, "e__y".toList]) :=
  C82_basis none
    (.indexed (base := ['e']) (l := [['x'], ['y']]) (by unfold Plain; decide) (by unfold Plain; decide) (by decide))
    (.indexed (base := ['e']) (l := [['x'], ['y']]) (by unfold Plain; decide) (by unfold Plain; decide) (by decide))
    (by unfold Plain; decide)

end GA
