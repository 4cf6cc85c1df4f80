import Verif.Proofs.TexFormula
import Verif.Proofs.Session
import Verif.Model.PowTex
import Mathlib.Tactic.FieldSimp
import Mathlib.Tactic.Linarith

/-!
# How TeX reads the templates of powers and functions
-/

namespace GA
open Tex

theorem ordinary_digit {c : Char} (h : c.isDigit = true) : Ordinary c := by
  unfold Ordinary
  refine ⟨?_, ?_, ?_, ?_, ?_, ?_, ?_, ?_⟩ <;> rintro rfl <;> exact absurd h (by decide)

theorem readsAs_strNat (k : ℕ) : ReadsAs (strNat k) (chars (strNat k)) :=
  readsAs_chars fun _ hc => ordinary_digit (isDigit_strNat hc)

theorem readsAs_fold (n : ℤ) (d : ℕ) : ReadsAs (texInt n ++ ['/'] ++ strNat d) (chars (texInt n ++ ['/'] ++ strNat d)) := by
  refine readsAs_chars fun c hc => ?_
  simp only [texInt, List.mem_append, List.mem_singleton] at hc
  rcases hc with ((hc | hc) | rfl) | hc
  · split_ifs at hc
    · rw [List.mem_singleton] at hc
      subst hc
      unfold Ordinary
      decide
    · simp at hc
  · exact ordinary_digit (isDigit_strNat hc)
  · unfold Ordinary
    decide
  · exact ordinary_digit (isDigit_strNat hc)

theorem readsAs_one : ReadsAs ['1'] [.tok ['1']] := readsAs_chars (s := ['1']) fun c hc => by
  rw [List.mem_singleton] at hc
  subst hc
  unfold Ordinary
  decide

theorem lex_brace_close (b : List Char) : lex ('}' :: b) = ['}'] :: lex b := lex_cons (by decide) (by decide) b

section
variable {s t : List Char} {l m : List Node}

theorem head_close (b : List Char) : ∀ c ∈ ('}' :: b).head?, c.isAlpha = false := by simp

/-- `\sqrt{s}`. -/
theorem readsAs_sqrt (h : ReadsAs s l) : ReadsAs ("\\sqrt{".toList ++ s ++ ['}']) [.root none (.group l)] := by
  refine readsAs_of (toks := "\\sqrt".toList :: (['{'] :: lex s ++ [['}']])) (fun b => ?_) fun kind items r h1 _ => ?_
  · have e : ∀ b, lex ("\\sqrt{".toList ++ b) = "\\sqrt".toList :: ['{'] :: lex b := fun b => by simp [lex, lexGo]
    rw [List.append_assoc, List.append_assoc, e, h.1 _ (by simp), List.singleton_append, lex_brace_close]
    simp
  · rw [tex_run_sqrt h1 rfl, tex_run_group h h1]
    rfl

/-- `\root{k}{s}`. -/
theorem readsAs_itexRoot (ht : ReadsAs t m) (h : ReadsAs s l) :
    ReadsAs ("\\root{".toList ++ t ++ "}{".toList ++ s ++ ['}']) [.root (some (.group m)) (.group l)] := by
  refine readsAs_of (toks := "\\root".toList :: ((['{'] :: lex t ++ [['}']]) ++ (['{'] :: lex s ++ [['}']])))
    (fun b => ?_) fun kind items r h1 _ => ?_
  · have e : ∀ b, lex ("\\root{".toList ++ b) = "\\root".toList :: ['{'] :: lex b := fun b => by simp [lex, lexGo]
    have e' : ∀ b, lex ("}{".toList ++ b) = ['}'] :: ['{'] :: lex b := fun b => by simp [lex, lexGo]
    simp only [List.append_assoc]
    rw [e, ht.1 _ (by simp), e', h.1 _ (by simp), List.singleton_append, lex_brace_close]
    simp
  · rw [tex_run_itexRoot h1 rfl, tex_run_append, tex_run_group ht h1]
    simp only [Frame.add, Option.map_some, Option.bind_some]
    rw [tex_run_group h h1]
    rfl

/-- `\sqrt[k]{s}`. -/
theorem readsAs_root (k : ℕ) (h : ReadsAs s l) : ReadsAs ("\\sqrt[".toList ++ strNat k ++ "]{".toList ++ s ++ ['}'])
    [.root (some (.group (chars (strNat k)))) (.group l)] := by
  have hd : ∀ c ∈ strNat k, Ordinary c := fun c hc => ordinary_digit (isDigit_strNat hc)
  refine readsAs_of (toks := "\\sqrt".toList :: ['['] :: ((strNat k).map (fun c => [c]) ++ [']'] ::
    (['{'] :: lex s ++ [['}']]))) (fun b => ?_) fun kind items r h1 _ => ?_
  · have e : ∀ b, lex ("\\sqrt[".toList ++ b) = "\\sqrt".toList :: ['['] :: lex b := fun b => by simp [lex, lexGo]
    have e' : ∀ b, lex ("]{".toList ++ b) = [']'] :: ['{'] :: lex b := fun b => by simp [lex, lexGo]
    simp only [List.append_assoc]
    rw [e, (readsAs_strNat k).1 _ (by simp), lex_plain fun c hc => ⟨(hd c hc).2.2.2.2.2.2.1, (hd c hc).2.2.2.2.2.2.2⟩, e',
      h.1 _ (by simp), List.singleton_append, lex_brace_close]
    simp
  · have e1 : ∀ T, run (⟨kind, items, some .sqrt⟩ :: r) (['['] :: T) =
        run (⟨.index, [], none⟩ :: ⟨kind, items, none⟩ :: r) T := fun T => by
      rw [run, step, stepIn.eq_def, if_neg h1]
      simp
    have e2 : ∀ its T, run (⟨.index, its, none⟩ :: ⟨kind, items, none⟩ :: r) ([']'] :: T) =
        run (⟨kind, items, some (.root1 (.group its.reverse))⟩ :: r) T := fun its T => by
      rw [run, step, stepIn.eq_def, if_neg (by simp)]
      simp [Frame.wait]
    rw [tex_run_sqrt h1 rfl, e1, tex_run_append, tex_run_chars hd (by decide), Option.bind_some, e2, tex_run_group h h1]
    simp [Frame.add]

/-- `\frac{1}{s}`. -/
theorem readsAs_recip (h : ReadsAs s l) :
    ReadsAs ("\\frac{1}{".toList ++ s ++ ['}']) [.frac (.group [.tok ['1']]) (.group l)] := by
  refine readsAs_of (toks := "\\frac".toList :: ((['{'] :: lex ['1'] ++ [['}']]) ++ (['{'] :: lex s ++ [['}']])))
    (fun b => ?_) fun kind items r h1 _ => ?_
  · have e : ∀ b, lex ("\\frac{1}{".toList ++ b) = "\\frac".toList :: ['{'] :: ['1'] :: ['}'] :: ['{'] :: lex b :=
      fun b => by simp [lex, lexGo]
    have e' : lex ['1'] = [['1']] := by simp [lex, lexGo]
    rw [List.append_assoc, List.append_assoc, e, h.1 _ (by simp), List.singleton_append, lex_brace_close, e']
    simp
  · rw [tex_run_frac h1 rfl, tex_run_append, tex_run_group readsAs_one h1]
    simp only [Frame.add, Option.map_some, Option.bind_some]
    rw [tex_run_group h h1]
    rfl

/-- `^{t}` after a part. -/
theorem run_superscript (ht : ReadsAs t m) {kind : Tex.Kind} (h1 : kind ≠ .closing) {N : Node} (hN : N.plain = true)
    (items : List Node) (r : List Frame) :
    run (⟨kind, N :: items, none⟩ :: r) (['^'] :: ['{'] :: lex t ++ [['}']]) =
      some (⟨kind, .script N (some (.group m)) none :: items, none⟩ :: r) := by
  rw [List.cons_append, tex_run_up h1 rfl, tex_run_group ht h1]
  cases N <;> simp_all [Frame.add, setUp, Node.plain]

/-- `\left(s\right)^{t}`. -/
theorem readsAs_paren_up (h : ReadsAs s l) (ht : ReadsAs t m) :
    ReadsAs ("\\left(".toList ++ s ++ "\\right)^{".toList ++ t ++ ['}'])
      [.script (.paren (.tok ['('] :: l) [')']) (some (.group m)) none] := by
  refine readsAs_of (toks := ("\\left".toList :: ['('] :: lex s ++ ["\\right".toList, [')']]) ++
    (['^'] :: ['{'] :: lex t ++ [['}']])) (fun b => ?_) fun kind items r h1 _ => ?_
  · have e : ∀ b, lex ("\\left(".toList ++ b) = "\\left".toList :: ['('] :: lex b := fun b => by simp [lex, lexGo]
    have e' : ∀ b, lex ("\\right)^{".toList ++ b) = "\\right".toList :: [')'] :: ['^'] :: ['{'] :: lex b :=
      fun b => by simp [lex, lexGo]
    simp only [List.append_assoc]
    rw [e, h.1 _ (by simp), e', ht.1 _ (by simp), List.singleton_append, lex_brace_close]
    simp
  · rw [tex_run_append, tex_run_paren h h1]
    simp only [Frame.add, Option.map_some, Option.bind_some]
    rw [run_superscript ht h1 rfl]
    rfl

/-- `\left ( s \right )` in a context. -/
theorem readsAs_paren (h : ReadsAs s l) : ReadsAs ("\\left ( ".toList ++ s ++ " \\right )".toList)
    [.paren (.tok ['('] :: l) [')']] := by
  refine readsAs_of (toks := "\\left".toList :: ['('] :: lex s ++ ["\\right".toList, [')']]) (fun b => ?_)
    fun kind items r h1 _ => ?_
  · have e : ∀ b, lex ("\\left ( ".toList ++ b) = "\\left".toList :: ['('] :: lex b := fun b => by simp [lex, lexGo]
    have e' : ∀ b, lex (" \\right )".toList ++ b) = "\\right".toList :: [')'] :: lex b := fun b => by simp [lex, lexGo]
    simp only [List.append_assoc]
    rw [e, h.1 _ (by simp), e']
    simp
  · rw [tex_run_paren h h1]
    rfl

/-- `{s}`. -/
theorem readsAs_braces (h : ReadsAs s l) : ReadsAs ('{' :: s ++ ['}']) [.group l] := by
  refine readsAs_of (toks := ['{'] :: lex s ++ [['}']]) (fun b => ?_) fun kind items r h1 _ => ?_
  · rw [List.append_assoc, List.cons_append, lex_cons (by decide) (by decide), h.1 _ (by simp), List.singleton_append,
      lex_brace_close]
    simp
  · rw [tex_run_group h h1]
    rfl

/-- `s^{t}`, when `s` is one part. -/
theorem readsAs_up {N : Node} (hN : N.plain = true) (h : ReadsAs s [N]) (ht : ReadsAs t m) :
    ReadsAs (s ++ "^{".toList ++ t ++ ['}']) [.script N (some (.group m)) none] := by
  refine readsAs_of (toks := lex s ++ (['^'] :: ['{'] :: lex t ++ [['}']])) (fun b => ?_) fun kind items r h1 h2 => ?_
  · have e : ∀ b, lex ("^{".toList ++ b) = ['^'] :: ['{'] :: lex b := fun b => by simp [lex, lexGo]
    simp only [List.append_assoc]
    rw [h.1 _ (by simp), e, ht.1 _ (by simp), List.singleton_append, lex_brace_close]
    simp
  · rw [tex_run_append, h.2 kind items r h1 h2, Option.bind_some]
    simp only [List.reverse_cons, List.reverse_nil, List.nil_append, List.singleton_append]
    rw [run_superscript ht h1 hN]

end

end GA
