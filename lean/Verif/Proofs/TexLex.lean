import Verif.Spec.TexLex
import Mathlib.Tactic.SplitIfs

/-!
# Facts on the tokens of formulas
-/

namespace GA
open Tex

theorem lex_nil : lex [] = [] := rfl

theorem Tex.Closed.append {s t : List Char} (hs : Closed s) (ht : Closed t) : Closed (s ++ t) := by
  intro b
  rw [List.append_assoc, hs, ht, hs t, List.append_assoc]

theorem Tex.Closed.complete {s : List Char} (hs : Closed s) : Complete s := fun b _ => hs b

theorem lex_blank (b : List Char) : lex (' ' :: b) = lex b := by
  rw [lex, lexGo, if_pos rfl, if_pos rfl, lex]

theorem Tex.Complete.blank {s : List Char} (hs : Complete s) : Closed (s ++ [' ']) := by
  intro b
  rw [List.append_assoc, hs _ (by simp), hs [' '] (by simp)]
  simp only [List.singleton_append, lex_blank, lex_nil, List.append_nil]

theorem Tex.Complete.lex_blank {s : List Char} (hs : Complete s) : lex (s ++ [' ']) = lex s := by
  rw [hs [' '] (by simp), GA.lex_blank, lex_nil, List.append_nil]

/-- A text without backslashes. -/
theorem closed_of_plain {s : List Char} (h : ∀ c ∈ s, c ≠ '\\') : Closed s := by
  intro b
  induction s with
  | nil => rfl
  | cons c s ih =>
    have h1 := h c List.mem_cons_self
    have h2 := ih fun x hx => h x (List.mem_cons_of_mem _ hx)
    rw [lex] at h2 ⊢
    rw [List.cons_append, lex, lexGo, lexGo, if_pos rfl, if_pos rfl, if_neg h1, if_neg h1, h2]
    split_ifs
    · rfl
    · rfl

/-- In a text without backslashes and blanks every character is a token. -/
theorem lex_plain {s : List Char} (h : ∀ c ∈ s, c ≠ '\\' ∧ c ≠ ' ') : lex s = s.map fun c => [c] := by
  induction s with
  | nil => rfl
  | cons c s ih =>
    obtain ⟨h1, h2⟩ := h c List.mem_cons_self
    have := ih fun x hx => h x (List.mem_cons_of_mem _ hx)
    rw [lex] at this
    rw [lex, lexGo, if_pos rfl, if_neg h2, if_neg h1, this, List.map_cons]

theorem closed_flatMap {α : Type*} (f : α → List Char) (l : List α) (h : ∀ x ∈ l, Closed (f x)) :
    Closed (l.flatMap f) ∧ lex (l.flatMap f) = l.flatMap fun x => lex (f x) := by
  induction l with
  | nil => exact ⟨fun b => rfl, rfl⟩
  | cons x l ih =>
    obtain ⟨h1, h2⟩ := ih fun y hy => h y (List.mem_cons_of_mem _ hy)
    rw [List.flatMap_cons, List.flatMap_cons, h x List.mem_cons_self, h2]
    exact ⟨(h x List.mem_cons_self).append h1, rfl⟩

theorem lex_left (b : List Char) :
    lex ("\\left ( ".toList ++ b) = [['\\', 'l', 'e', 'f', 't'], ['(']] ++ lex b := by
  simp [lex, lexGo]

theorem lex_right (b : List Char) :
    lex ("\\right ) ".toList ++ b) = [['\\', 'r', 'i', 'g', 'h', 't'], [')']] ++ lex b := by
  simp [lex, lexGo]

theorem Tex.Closed.append_complete {s t : List Char} (hs : Closed s) (ht : Complete t) :
    Complete (s ++ t) := by
  intro b hb
  rw [List.append_assoc, hs, ht b hb, hs t, List.append_assoc]

theorem lex_lstrip {s : List Char} (h : ∀ ch ∈ s, ch.isWhitespace = true → ch = ' ') (b : List Char) :
    lex (s.dropWhile Char.isWhitespace ++ b) = lex (s ++ b) := by
  induction s with
  | nil => rfl
  | cons c s ih =>
    rw [List.dropWhile_cons]
    split_ifs with hc
    · rw [ih fun x hx => h x (List.mem_cons_of_mem _ hx), h c List.mem_cons_self hc, List.cons_append,
        lex_blank]
    · rfl

end GA
