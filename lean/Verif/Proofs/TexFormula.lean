import Verif.Spec.TexFormula
import Verif.Proofs.TexLex

/-!
# Facts on how TeX reads formulas
-/

namespace GA
open Tex

theorem tex_run_append (st : List Frame) (a b : List (List Char)) :
    run st (a ++ b) = (run st a).bind fun st => run st b := by
  induction a generalizing st with
  | nil => rfl
  | cons t a ih =>
    rw [List.cons_append, run, run]
    cases step st t with
    | none => rfl
    | some st' => exact ih st'

/-- A text in braces is one part. -/
theorem tex_run_group {s : List Char} {l : List Node} (h : ReadsAs s l) {f : Frame} (hf : f.kind ≠ .closing) (r : List Frame) :
    run (f :: r) (['{'] :: lex s ++ [['}']]) = (f.add (.group l)).map (· :: r) := by
  rw [List.cons_append, run, step, stepIn.eq_def, if_neg hf, if_pos rfl, Option.bind_some, tex_run_append,
    h.2 .brace [] _ (by decide) (by decide), Option.bind_some, run, step, stepIn.eq_def, if_neg (by simp), if_neg (by decide), if_pos rfl,
    if_pos ⟨rfl, rfl⟩, close]
  simp only [List.append_nil, List.reverse_reverse]
  cases f.add (.group l) <;> rfl

/-- A text in parentheses is one part. -/
theorem tex_run_paren {s : List Char} {l : List Node} (h : ReadsAs s l) {f : Frame} (hf : f.kind ≠ .closing) (r : List Frame) :
    run (f :: r) ("\\left".toList :: ['('] :: lex s ++ ["\\right".toList, [')']]) =
      (f.add (.paren (.tok ['('] :: l) [')'])).map (· :: r) := by
  rw [List.cons_append, List.cons_append, run, step, stepIn.eq_def, if_neg hf, if_neg (by decide), if_neg (by decide), if_pos rfl,
    Option.bind_some, run]
  have h1 : step (⟨.left, [], none⟩ :: f :: r) ['('] = some (⟨.left, [.tok ['(']], none⟩ :: f :: r) := by
    simp [step, stepIn, Frame.add]
  rw [h1, Option.bind_some, tex_run_append, h.2 .left _ _ (by decide) (by decide), Option.bind_some, run]
  have h2 : ∀ items, step (⟨.left, items, none⟩ :: f :: r) "\\right".toList = some (⟨.closing, items, none⟩ :: f :: r) :=
    fun items => by simp [step, stepIn]
  rw [h2, Option.bind_some, run, step, stepIn.eq_def, if_pos rfl, close]
  simp only [List.reverse_append, List.reverse_reverse, List.reverse_cons, List.reverse_nil, List.nil_append,
    List.singleton_append]
  cases f.add (.paren (.tok ['('] :: l) [')']) <;> rfl

theorem tex_run_up {f : Frame} (hf : f.kind ≠ .closing) (hp : f.pend = none) (r : List Frame) (t : List (List Char)) :
    run (f :: r) (['^'] :: t) = run ({ f with pend := some .up } :: r) t := by
  rw [run, step, stepIn.eq_def, if_neg hf]
  simp [Frame.wait, hp]

theorem tex_run_frac {f : Frame} (hf : f.kind ≠ .closing) (hp : f.pend = none) (r : List Frame) (t : List (List Char)) :
    run (f :: r) ("\\frac".toList :: t) = run ({ f with pend := some .frac } :: r) t := by
  rw [run, step, stepIn.eq_def, if_neg hf]
  simp [Frame.wait, hp]

theorem tex_run_sqrt {f : Frame} (hf : f.kind ≠ .closing) (hp : f.pend = none) (r : List Frame) (t : List (List Char)) :
    run (f :: r) ("\\sqrt".toList :: t) = run ({ f with pend := some .sqrt } :: r) t := by
  rw [run, step, stepIn.eq_def, if_neg hf]
  simp [Frame.wait, hp]

theorem tex_run_itexRoot {f : Frame} (hf : f.kind ≠ .closing) (hp : f.pend = none) (r : List Frame) (t : List (List Char)) :
    run (f :: r) ("\\root".toList :: t) = run ({ f with pend := some .itexRoot } :: r) t := by
  rw [run, step, stepIn.eq_def, if_neg hf]
  simp [Frame.wait, hp]

/-- A character that TeX reads as itself. -/
def Ordinary (c : Char) : Prop := c ≠ '{' ∧ c ≠ '}' ∧ c ≠ '^' ∧ c ≠ '_' ∧ c ≠ '[' ∧ c ≠ ']' ∧ c ≠ '\\' ∧ c ≠ ' '

theorem tex_run_chars {s : List Char} (h : ∀ c ∈ s, Ordinary c) {kind : Kind} (hk : kind ≠ .closing) (items : List Node)
    (r : List Frame) : run (⟨kind, items, none⟩ :: r) (s.map fun c => [c]) =
      some (⟨kind, (chars s).reverse ++ items, none⟩ :: r) := by
  induction s generalizing items with
  | nil => rfl
  | cons c s ih =>
    obtain ⟨h1, h2, h3, h4, h5, h6, h7, h8⟩ := h c List.mem_cons_self
    rw [List.map_cons, run, step, stepIn.eq_def, if_neg hk]
    simp only [List.cons.injEq, h1, h2, h3, h4, h6, h7, false_and, if_false, Frame.add, String.reduceToList]
    simp only [Option.map_some, Option.bind_some]
    rw [ih fun c hc => h c (List.mem_cons_of_mem _ hc)]
    simp [chars]

theorem readsAs_chars {s : List Char} (h : ∀ c ∈ s, Ordinary c) : ReadsAs s (chars s) := by
  refine ⟨(closed_of_plain fun c hc => (h c hc).2.2.2.2.2.2.1).complete, fun kind items r hk _ => ?_⟩
  rw [lex_plain fun c hc => ⟨(h c hc).2.2.2.2.2.2.1, (h c hc).2.2.2.2.2.2.2⟩, tex_run_chars h hk]

/-- A text which is read in one way however it goes on. -/
theorem readsAs_of {s : List Char} {toks : List (List Char)} {l : List Node} (h : ∀ b, lex (s ++ b) = toks ++ lex b)
    (hr : ∀ kind items r, kind ≠ .closing → kind ≠ .index →
      run (⟨kind, items, none⟩ :: r) toks = some (⟨kind, l.reverse ++ items, none⟩ :: r)) : ReadsAs s l := by
  have h0 : lex s = toks := by
    have := h []
    rwa [List.append_nil, lex_nil, List.append_nil] at this
  refine ⟨fun b _ => by rw [h, h0], fun kind items r h1 h2 => by rw [h0, hr kind items r h1 h2]⟩

theorem lex_cons {c : Char} (h : c ≠ '\\') (h' : c ≠ ' ') (b : List Char) : lex (c :: b) = [c] :: lex b := by
  rw [lex, lexGo, if_pos rfl, if_neg h', if_neg h, lex]

theorem Tex.ReadsAs.nil : ReadsAs [] [] := ⟨fun _ _ => rfl, fun _ _ _ _ _ => rfl⟩

theorem Tex.ReadsAs.append {s t : List Char} {l m : List Node} (hs : ReadsAs s l) (ht : ReadsAs t m)
    (h : ∀ c ∈ t.head?, c.isAlpha = false) (h' : t ≠ []) : ReadsAs (s ++ t) (l ++ m) := by
  refine ⟨fun b hb => ?_, fun kind items r h1 h2 => ?_⟩
  · rw [List.append_assoc, hs.1, ht.1 b hb, hs.1 t h, List.append_assoc]
    intro c hc
    refine h c ?_
    cases t with
    | nil => exact absurd rfl h'
    | cons x t => exact hc
  · rw [hs.1 t h, tex_run_append, hs.2 kind items r h1 h2, Option.bind_some, ht.2 kind _ r h1 h2, List.reverse_append,
      List.append_assoc]

/-- What a text reads as in every context is how TeX reads it alone. -/
theorem Tex.ReadsAs.read {s : List Char} {l : List Node} (h : ReadsAs s l) : read s = some l := by
  rw [Tex.read, h.2 .top [] [] (by decide) (by decide)]
  simp

theorem Tex.ReadsAs.unique {s : List Char} {l m : List Node} (h : ReadsAs s l) (h' : ReadsAs s m) : l = m := by
  have := h.read.symm.trans h'.read
  exact Option.some.inj this

end GA
