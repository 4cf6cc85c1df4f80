import Verif.Model.Session

/-! Lemmas on strings and sessions. -/

set_option linter.unusedSectionVars false

namespace GA

theorem strNat_inj {i j : ℕ} (h : strNat i = strNat j) : i = j := by
  have := congrArg (fun l => Nat.ofDigitChars 10 l 0) h
  simpa [strNat, Nat.ofDigitChars_ten_toDigits] using this

theorem isDigit_strNat {i : ℕ} {c : Char} (h : c ∈ strNat i) : c.isDigit = true :=
  Nat.isDigit_of_mem_toDigits (by decide) (by decide) h

theorem strNat_ne_nil (i : ℕ) : strNat i ≠ [] := Nat.toDigits_ne_nil

theorem not_mem_strNat {c : Char} (hc : c.isDigit = false) (i : ℕ) : c ∉ strNat i := by
  intro h
  rw [isDigit_strNat h] at hc
  exact absurd hc (by decide)

theorem parseNat_strNat (i : ℕ) : parseNat (strNat i) = some i := by
  have h : (strNat i).all Char.isDigit = true := by
    rw [List.all_eq_true]; intro c hc; exact isDigit_strNat hc
  rw [parseNat, if_pos ⟨strNat_ne_nil i, h⟩]
  simp [strNat, Nat.ofDigitChars_ten_toDigits]

theorem splitOn_ne_nil (c : Char) (s : List Char) : splitOn c s ≠ [] := by
  cases s with
  | nil => simp [splitOn]
  | cons x s =>
    rw [splitOn]
    split_ifs
    · simp
    · split <;> simp

theorem splitOn_of_not_mem {c : Char} {s : List Char} (h : c ∉ s) : splitOn c s = [s] := by
  induction s with
  | nil => rfl
  | cons x s ih =>
    rw [List.mem_cons, not_or] at h
    rw [splitOn, if_neg (Ne.symm h.1), ih h.2]

theorem splitOn_append {c : Char} {w : List Char} (h : c ∉ w) (s : List Char) :
    splitOn c (w ++ c :: s) = w :: splitOn c s := by
  induction w with
  | nil => simp [splitOn]
  | cons x w ih =>
    rw [List.mem_cons, not_or] at h
    rw [List.cons_append, splitOn, if_neg (Ne.symm h.1), ih h.2]

theorem splitOn_joinWith {c : Char} : ∀ {l : List (List Char)}, l ≠ [] → (∀ w ∈ l, c ∉ w) →
    splitOn c (joinWith c l) = l
  | [], h, _ => absurd rfl h
  | [w], _, hw => splitOn_of_not_mem (hw w (by simp))
  | w :: w' :: l, _, hw => by
    rw [joinWith, splitOn_append (hw w (by simp)), splitOn_joinWith (by simp)
      (fun x hx => hw x (List.mem_cons_of_mem _ hx))]
    simp

theorem mem_joinWith {c x : Char} : ∀ {l : List (List Char)}, x ∈ joinWith c l →
    x = c ∨ ∃ w ∈ l, x ∈ w
  | [], h => by simp [joinWith] at h
  | [w], h => Or.inr ⟨w, by simp, h⟩
  | w :: w' :: l, h => by
    rw [joinWith, List.mem_append, List.mem_cons] at h
    · rcases h with h | h | h
      · exact Or.inr ⟨w, by simp, h⟩
      · exact Or.inl h
      · rcases mem_joinWith h with h | ⟨u, hu, h⟩
        · exact Or.inl h
        · exact Or.inr ⟨u, List.mem_cons_of_mem _ hu, h⟩
    · simp

theorem sep_mem_joinWith {c : Char} {l : List (List Char)} (h : 2 ≤ l.length) : c ∈ joinWith c l := by
  match l, h with
  | w :: w' :: l, _ => rw [joinWith]; · simp
                       · simp

end GA
