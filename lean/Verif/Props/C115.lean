import Verif.Spec.DerivTex
import Verif.Props.C89
import Verif.Props.C112Fun
import Verif.Proofs.DopText

/-!
# C115: derivatives and differential operators in LaTeX, as TeX reads them

How TeX reads a formula is in `Spec/TexFormula.lean`, the parts of derivatives are in `Spec/DerivTex.lean`.
-/

set_option maxRecDepth 10000
set_option linter.unusedSectionVars false

namespace GA
open Tex

section
variable {s t : List Char} {l m : List Node}

theorem readsAs_append_closed (hs : ReadsAs s l) (hc : Closed s) (ht : ReadsAs t m) : ReadsAs (s ++ t) (l ++ m) := by
  refine ⟨hc.append_complete ht.1, fun kind items r h1 h2 => ?_⟩
  rw [hc, tex_run_append, hs.2 kind items r h1 h2, Option.bind_some, ht.2 kind _ r h1 h2]
  simp

theorem readsAs_frac (hs : ReadsAs s l) (ht : ReadsAs t m) :
    ReadsAs ("\\frac{".toList ++ s ++ "}{".toList ++ t ++ ['}']) [.frac (.group l) (.group m)] ∧
      Closed ("\\frac{".toList ++ s ++ "}{".toList ++ t ++ ['}']) := by
  have e : ∀ b, lex ("\\frac{".toList ++ b) = "\\frac".toList :: ['{'] :: lex b := fun b => by simp [lex, lexGo]
  have e' : ∀ b, lex ("}{".toList ++ b) = ['}'] :: ['{'] :: lex b := fun b => by simp [lex, lexGo]
  have key : ∀ b, lex ("\\frac{".toList ++ s ++ "}{".toList ++ t ++ ['}'] ++ b) =
      "\\frac".toList :: ((['{'] :: lex s ++ [['}']]) ++ (['{'] :: lex t ++ [['}']])) ++ lex b := by
    intro b
    simp only [List.append_assoc]
    rw [e, hs.1 _ (by simp), e', ht.1 _ (by simp), List.singleton_append, lex_brace_close]
    simp
  refine ⟨readsAs_of key fun kind items r h1 _ => ?_, fun b => ?_⟩
  · rw [tex_run_frac h1 rfl, tex_run_append, tex_run_group hs h1]
    simp only [Frame.add, Option.map_some, Option.bind_some]
    rw [tex_run_group ht h1]
    rfl
  · have := key []
    rw [List.append_nil, lex_nil, List.append_nil] at this
    rw [key, this]

theorem readsAs_partial : ReadsAs "\\partial".toList [.tok "\\partial".toList] := by
  have : Command "partial".toList := ⟨by decide, by decide, by decide⟩
  exact readsAs_command this

theorem readsAs_sign (k : ℕ) : ReadsAs ("\\partial".toList ++ if k = 1 then [] else "^{".toList ++ Nat.toDigits 10 k ++ ['}'])
    [partialSign k] := by
  rw [partialSign]
  split_ifs with h
  · rw [List.append_nil]; exact readsAs_partial
  · have := readsAs_up (N := .tok "\\partial".toList) rfl readsAs_partial (readsAs_strNat k)
    simpa only [List.append_assoc, strNat] using this

/-- `s^{t}`, when `s` is one part without superscript. -/
theorem readsAs_raised {N : Node} (hN : N.free = true) (h : ReadsAs s [N]) {k : ℕ} (hk : k ≠ 1) :
    ReadsAs (s ++ "^{".toList ++ Nat.toDigits 10 k ++ ['}']) [raised k N] := by
  have ht := readsAs_strNat k
  refine readsAs_of (toks := lex s ++ (['^'] :: ['{'] :: lex (strNat k) ++ [['}']])) (fun b => ?_)
    fun kind items r h1 h2 => ?_
  · have e : ∀ b, lex ("^{".toList ++ b) = ['^'] :: ['{'] :: lex b := fun b => by simp [lex, lexGo]
    simp only [List.append_assoc]
    rw [h.1 _ (by simp), e]
    change _ ++ ['^'] :: ['{'] :: lex (strNat k ++ _) = _
    rw [ht.1 _ (by simp), List.singleton_append, lex_brace_close]
    simp
  · rw [tex_run_append, h.2 kind items r h1 h2, Option.bind_some]
    simp only [List.reverse_cons, List.reverse_nil, List.nil_append, List.singleton_append]
    rw [List.cons_append, tex_run_up h1 rfl, tex_run_group ht h1]
    rcases N with _ | _ | _ | ⟨b, _ | u, d⟩ | _ | _ <;> simp_all [Frame.add, setUp, Node.free, raised, strNat]

/-- `_{t}` after the sign. -/
theorem readsAs_below (k : ℕ) (ht : ReadsAs t m) :
    ReadsAs (partialTex true t k) [partialBelow k m] ∧ Closed (partialTex true t k) := by
  have hs := readsAs_sign k
  have e : ∀ b, lex ("_{".toList ++ b) = ['_'] :: ['{'] :: lex b := fun b => by simp [lex, lexGo]
  have key : ∀ b, lex (partialTex true t k ++ b) =
      lex ("\\partial".toList ++ if k = 1 then [] else "^{".toList ++ Nat.toDigits 10 k ++ ['}']) ++
        (['_'] :: ['{'] :: lex t ++ [['}']]) ++ lex b := by
    intro b
    rw [partialTex]
    simp only [if_true]
    generalize (if k = 1 then [] else "^{".toList ++ Nat.toDigits 10 k ++ ['}']) = pow at hs ⊢
    rw [List.append_assoc, List.append_assoc ("\\partial".toList ++ pow ++ "_{".toList),
      List.append_assoc ("\\partial".toList ++ pow), hs.1 _ (by simp), e, ht.1 _ (by simp), List.singleton_append,
      lex_brace_close]
    simp
  refine ⟨readsAs_of key fun kind items r h1 h2 => ?_, fun b => ?_⟩
  · rw [tex_run_append, hs.2 kind items r h1 h2, Option.bind_some, List.cons_append, run, step, stepIn.eq_def, if_neg h1]
    simp only [List.reverse_cons, List.reverse_nil, List.nil_append, List.singleton_append]
    have : (if ['_'] = ['{'] then some (⟨.brace, [], none⟩ :: ⟨kind, partialSign k :: items, none⟩ :: r) else
        (Frame.wait .down ⟨kind, partialSign k :: items, none⟩).map (· :: r)) =
        some (⟨kind, partialSign k :: items, some .down⟩ :: r) := by simp [Frame.wait]
    simp [Frame.wait]
    have h3 := tex_run_group ht (f := ⟨kind, partialSign k :: items, some .down⟩) h1 r
    simp only [List.cons_append] at h3
    rw [h3]
    rw [partialSign, partialBelow]
    split_ifs <;> simp [Frame.add, setDown]
  · have := key []
    rw [List.append_nil, lex_nil, List.append_nil] at this
    rw [key, this]

end

section derivative
variable {V : Type*} [DecidableEq V]

theorem neighbours_eq (x : V) (l : List V) : neighbours (x :: l) = multiplicities x 1 l := by
  have h := multiplicities_eq x l 0
  rw [zero_add, List.replicate_one, List.singleton_append] at h
  rw [neighbours, ← h, List.filterMap_map]
  have : ∀ p ∈ multiplicities x 1 l, 0 < p.2 := multiplicities_pos x l 0
  generalize multiplicities x 1 l = M at this
  induction M with
  | nil => rfl
  | cons p M ih =>
    have h0 := this p (by simp)
    obtain ⟨k, hk⟩ := Nat.exists_eq_succ_of_ne_zero h0.ne'
    rw [List.filterMap_cons, ih fun q hq => this q (by simp [hq])]
    simp only [Function.comp_apply, hk, List.replicate_succ, List.head?_cons, Option.map_some, List.length_cons,
      List.length_replicate]
    rw [← Nat.succ_eq_add_one, ← hk]

theorem runsTex_neighbours (flat : Bool) (print : V → List Char) (vars : List V) :
    runsTex flat print vars = (neighbours vars).flatMap fun p => partialTex flat (print p.1) p.2 := by
  cases vars with
  | nil => rfl
  | cons x l => rw [runsTex_eq, neighbours_eq]

variable {print : V → List Char} {L : V → List Node}

theorem readsAs_flat (hp : ∀ v, ReadsAs (print v) (L v)) (M : List (V × ℕ)) :
    ReadsAs (M.flatMap fun p => partialTex true (print p.1) p.2) (M.map fun p => partialBelow p.2 (L p.1)) ∧
      Closed (M.flatMap fun p => partialTex true (print p.1) p.2) := by
  induction M with
  | nil => exact ⟨ReadsAs.nil, fun b => rfl⟩
  | cons p M ih =>
    have h := readsAs_below p.2 (hp p.1)
    rw [List.flatMap_cons, List.map_cons]
    exact ⟨readsAs_append_closed h.1 h.2 ih.1, h.2.append ih.2⟩

theorem readsAs_under (hp : ∀ v, ReadsAs (print v) (L v)) (M : List (V × ℕ)) :
    ReadsAs (M.flatMap fun p => partialTex false (print p.1) p.2) (M.flatMap fun p => partialSign p.2 :: L p.1) ∧
      ∀ c ∈ (M.flatMap fun p => partialTex false (print p.1) p.2).head?, c.isAlpha = false := by
  induction M with
  | nil => exact ⟨ReadsAs.nil, by simp⟩
  | cons p M ih =>
    have hs := readsAs_sign p.2
    have h1 := readsAs_blank hs
    have h2 : ReadsAs (partialTex false (print p.1) p.2) (partialSign p.2 :: L p.1) := by
      have := readsAs_append_closed h1 hs.1.blank (hp p.1)
      rw [partialTex]
      simpa using this
    rw [List.flatMap_cons, List.flatMap_cons]
    refine ⟨?_, by rw [partialTex]; simp⟩
    cases M with
    | nil => simpa using h2
    | cons q M => exact h2.append ih.1 ih.2 (by rw [List.flatMap_cons, partialTex]; simp)

/-- `\left(s\right)`. -/
theorem readsAs_tight {s : List Char} {l : List Node} (h : ReadsAs s l) :
    ReadsAs ("\\left(".toList ++ s ++ "\\right)".toList) [.paren (.tok ['('] :: l) [')']] := by
  refine readsAs_of (toks := "\\left".toList :: ['('] :: lex s ++ ["\\right".toList, [')']]) (fun b => ?_)
    fun kind items r h1 _ => ?_
  · have e : ∀ b, lex ("\\left(".toList ++ b) = "\\left".toList :: ['('] :: lex b := fun b => by simp [lex, lexGo]
    have e' : ∀ b, lex ("\\right)".toList ++ b) = "\\right".toList :: [')'] :: lex b := fun b => by simp [lex, lexGo]
    simp only [List.append_assoc]
    rw [e, h.1 _ (by simp), e']
    simp
  · rw [tex_run_paren h h1]
    rfl

theorem readsAs_operand {s body : List Char} {l B : List Node} (hs : ReadsAs s l) (hc : Closed s) (hb : ReadsAs body B)
    (assoc : Bool) : ReadsAs (s ++ if assoc then "\\left(".toList ++ body ++ "\\right)".toList else ' ' :: body)
      (l ++ operand assoc B) := by
  refine readsAs_append_closed hs hc ?_
  cases assoc with
  | true => exact readsAs_tight hb
  | false =>
    have h0 : ReadsAs [' '] [] := ⟨fun b _ => by simp [lex_blank, lex_nil], fun _ _ _ _ _ => by simp [lex_blank, lex_nil, run]⟩
    have := readsAs_append_closed h0 (fun b => by simp [lex_blank, lex_nil]) hb
    simpa [operand] using this

/-- C115: TeX reads the text of a derivative as a fraction, with the sign of the derivative and its order above and the
signs with the variables below, equal neighbours together, and after it the function, in parentheses if it is a sum or
a product. -/
theorem C115_derivative (hp : ∀ v, ReadsAs (print v) (L v)) {vars : List V} (hv : vars ≠ []) (assoc : Bool)
    {body : List Char} {B : List Node} (hb : ReadsAs body B) :
    ReadsAs (derivativeTex false print vars assoc body)
      (.frac (.group [partialSign vars.length])
        (.group ((neighbours vars).flatMap fun p => partialSign p.2 :: L p.1)) :: operand assoc B) := by
  rw [C89_derivative_fraction print hv, runsTex_neighbours]
  have h1 := (readsAs_under hp (neighbours vars)).1
  have h2 := readsAs_frac (readsAs_sign vars.length) h1
  have e : "\\frac{".toList ++ ("\\partial".toList ++ if vars.length = 1 then [] else
      "^{".toList ++ Nat.toDigits 10 vars.length ++ ['}']) ++ "}{".toList ++
      ((neighbours vars).flatMap fun p => partialTex false (print p.1) p.2) ++ ['}'] =
      "\\frac{\\partial".toList ++ (if vars.length = 1 then [] else "^{".toList ++ Nat.toDigits 10 vars.length ++ ['}']) ++
        "}{".toList ++ ((neighbours vars).flatMap fun p => partialTex false (print p.1) p.2) ++ ['}'] := by
    simp
  rw [e] at h2
  generalize "\\frac{\\partial".toList ++ (if vars.length = 1 then [] else
    "^{".toList ++ Nat.toDigits 10 vars.length ++ ['}']) ++ "}{".toList ++
    ((neighbours vars).flatMap fun p => partialTex false (print p.1) p.2) ++ ['}'] = F at h2
  have h3 : ReadsAs (F ++ if vars.length = 1 then [] else [' ']) [.frac (.group [partialSign vars.length])
      (.group ((neighbours vars).flatMap fun p => partialSign p.2 :: L p.1))] ∧
      Closed (F ++ if vars.length = 1 then [] else [' ']) := by
    split_ifs
    · rw [List.append_nil]; exact h2
    · exact ⟨readsAs_blank h2.1, h2.1.1.blank⟩
  exact readsAs_operand h3.1 h3.2 hb assoc

/-- C115: with the setting `omit_partial_derivative_fraction` it reads a row of signs with the variables below and the
orders above. -/
theorem C115_derivative_flat (hp : ∀ v, ReadsAs (print v) (L v)) {vars : List V} (hv : vars ≠ []) (assoc : Bool)
    {body : List Char} {B : List Node} (hb : ReadsAs body B) :
    ReadsAs (derivativeTex true print vars assoc body)
      ((neighbours vars).map (fun p => partialBelow p.2 (L p.1)) ++ operand assoc B) := by
  rw [C89_derivative_flat print hv, runsTex_neighbours]
  have h := readsAs_flat hp (neighbours vars)
  exact readsAs_operand h.1 h.2 hb assoc

end derivative

/-! ### Operators -/

section operators
variable {V : Type*} [LinearOrder V] {R : Type*} [CommRing R] [DecidableEq R] {B : Type*} {P : Printer V R B}
  {N : V → Node} {C : R → List Node}

theorem raised_one (M : Node) : raised 1 M = M := by
  rcases M with _ | _ | _ | ⟨b, _ | u, d⟩ | _ | _ <;> simp [raised]

theorem pdop_get? {p : Pdop V} (hp : (p.map Prod.fst).Nodup) {e : V × ℕ} (he : e ∈ p) : Dict.get? p e.1 = some e.2 := by
  induction p with
  | nil => simp at he
  | cons f p ih =>
    obtain ⟨k, v⟩ := f
    rw [List.map_cons, List.nodup_cons] at hp
    rcases List.mem_cons.mp he with rfl | he
    · simp [Dict.get?]
    · have : k ≠ e.1 := fun h => hp.1 (h ▸ List.mem_map.mpr ⟨e, he, rfl⟩)
      rw [Dict.get?, if_neg this, ih hp.2 he]

theorem readsAs_partialBlank {s : List Char} {l : List Node} (h : ReadsAs s l) :
    ReadsAs ("\\partial ".toList ++ s) (.tok "\\partial".toList :: l) :=
  readsAs_append_closed (s := "\\partial ".toList) (readsAs_blank readsAs_partial) readsAs_partial.1.blank h

/-- C115, in part: TeX reads the text of an operator `Pdop` so, if every variable with a higher order is read as one part
without superscript.  Missing: other variables, see `C115_superscript_counterexample`. -/
theorem C115_pdop_partial {p : Pdop V} (hN : ∀ e ∈ p, ReadsAs (P.sym e.1) [N e.1])
    (hf : ∀ e ∈ p, e.2 = 1 ∨ (N e.1).free = true) (h0 : ∀ e ∈ p, e.2 ≠ 0) (hp : (p.map Prod.fst).Nodup) :
    ReadsAs (p.latex P) (pdopNodes N p) ∧ Closed (p.latex P) := by
  rw [Pdop.latex, pdopNodes]
  by_cases ho : p.order = 0
  · rw [if_pos ho, if_pos ho]; exact ⟨ReadsAs.nil, fun b => by simp [lex_nil]⟩
  rw [if_neg ho, if_neg ho]
  have hk : (p.map Prod.fst).insertionSort (· ≤ ·) = (p.insertionSort fun e f => e.1 ≤ f.1).map Prod.fst :=
    (List.map_insertionSort (r := fun e f : V × ℕ => e.1 ≤ f.1) (s := (· ≤ ·)) Prod.fst p fun _ _ _ _ => Iff.rfl).symm
  have hm : ∀ e ∈ p.insertionSort (fun e f => e.1 ≤ f.1), e ∈ p := fun e he => (List.mem_insertionSort _).mp he
  have key : ∀ (l : List (V × ℕ)), (∀ e ∈ l, e ∈ p) → ∃ t, (∀ acc, (l.map Prod.fst).foldl (fun s x =>
      s ++ "\\partial ".toList ++ P.sym x ++ if 1 < (Dict.get? p x).getD 0 then
        '^' :: '{' :: digits ((Dict.get? p x).getD 0) ++ ['}'] else []) acc = acc ++ t) ∧
      ReadsAs t (l.flatMap fun e => [.tok "\\partial".toList, raised e.2 (N e.1)]) ∧
      (∀ c ∈ t.head?, c.isAlpha = false) ∧ (l ≠ [] → t ≠ []) := by
    intro l
    induction l with
    | nil => exact fun _ => ⟨[], by simp, ReadsAs.nil, by simp, by simp⟩
    | cons e l ih =>
      intro hl
      obtain ⟨t, h1, h2, h3, h5⟩ := ih fun f hf => hl f (by simp [hf])
      have he := hl e (by simp)
      have h4 : ReadsAs ("\\partial ".toList ++ (P.sym e.1 ++ if 1 < (Dict.get? p e.1).getD 0 then
          '^' :: '{' :: digits ((Dict.get? p e.1).getD 0) ++ ['}'] else []))
          [.tok "\\partial".toList, raised e.2 (N e.1)] := by
        refine readsAs_partialBlank ?_
        rw [pdop_get? hp he, Option.getD_some]
        by_cases h1 : e.2 = 1
        · rw [h1, raised_one, if_neg (by omega), List.append_nil]; exact hN e he
        · rw [if_pos (by have := h0 e he; omega)]
          have := readsAs_raised ((hf e he).resolve_left h1) (hN e he) h1
          rw [List.append_assoc, List.append_assoc] at this
          exact this
      refine ⟨"\\partial ".toList ++ (P.sym e.1 ++ if 1 < (Dict.get? p e.1).getD 0 then
          '^' :: '{' :: digits ((Dict.get? p e.1).getD 0) ++ ['}'] else []) ++ t, fun acc => ?_, ?_, ?_, by simp⟩
      · rw [List.map_cons, List.foldl_cons, h1]; simp
      · rw [List.flatMap_cons]
        cases l with
        | nil =>
          have := h1 []
          simp only [List.map_nil, List.foldl_nil, List.nil_append] at this
          subst this
          simpa using h4
        | cons f l => exact h4.append h2 h3 (h5 (by simp))
      · intro c hc
        simp at hc
        subst hc
        decide
  obtain ⟨t, h1, h2, -⟩ := key _ hm
  have h3 := readsAs_frac (readsAs_sign p.order) h2
  simp only [hk, h1]
  have e : (if 1 < p.order then "\\frac{\\partial".toList ++ ('^' :: '{' :: digits p.order ++ ['}']) else
      "\\frac{\\partial".toList) = "\\frac{".toList ++ ("\\partial".toList ++ if p.order = 1 then [] else
        "^{".toList ++ Nat.toDigits 10 p.order ++ ['}']) := by
    by_cases h : p.order = 1
    · rw [h]; rfl
    · rw [if_pos (by omega), if_neg h]
      rfl
  rw [e]
  exact h3

/-! ### Sums of terms -/

theorem readsAs_minus : ReadsAs ['-'] [.tok ['-']] := readsAs_chars (s := ['-']) fun c hc => by
  rw [List.mem_singleton] at hc
  subst hc
  unfold Ordinary
  decide

theorem Pdop.latex_head (p : Pdop V) : (p.latex P).head? = if p.order = 0 then none else some '\\' := by
  rw [Pdop.latex]
  by_cases h : p.order = 0
  · simp [h]
  · rw [if_neg h, if_neg h]
    have key : ∀ (l : List V) (acc : List Char), acc.head? = some '\\' → (l.foldl (fun s x =>
        s ++ "\\partial ".toList ++ P.sym x ++ if 1 < (Dict.get? p x).getD 0 then
          '^' :: '{' :: digits ((Dict.get? p x).getD 0) ++ ['}'] else []) acc).head? = some '\\' := by
      intro l
      induction l with
      | nil => exact fun _ h => h
      | cons x l ih => exact fun acc h => ih _ (by simp [List.head?_append, h])
    simp only [List.head?_append]
    rw [key]
    · rfl
    · split_ifs <;> rfl

theorem Pdop.latex_eq_nil (p : Pdop V) : p.latex P = [] ↔ p.order = 0 := by
  rw [← List.head?_eq_none_iff, Pdop.latex_head]
  split_ifs with h <;> simp [h]

theorem readsAs_append_other {s t : List Char} {l m : List Node} (hs : ReadsAs s l) (ht : ReadsAs t m)
    (h : ∀ c ∈ t.head?, c.isAlpha = false) : ReadsAs (s ++ t) (l ++ m) := by
  by_cases h0 : t = []
  · subst h0
    have := ht.2 .brace [] [] (by decide) (by decide)
    simp [lex_nil, run] at this
    simpa [this] using hs
  · exact hs.append ht h h0

theorem readsAs_term {t : R × Pdop V} (hC : ReadsAs (P.coef t.1) (C t.1)) (h : ReadsAs (t.2.latex P) (pdopNodes N t.2)) :
    ReadsAs (Sdop.latexTerm P t) (termNodes P N C t) := by
  have hm : Closed ['-'] := fun b => by simp [lex, lexGo]
  rw [Sdop.latexTerm, termNodes]
  simp only [Pdop.latex_eq_nil]
  split_ifs
  · exact readsAs_one
  · exact h
  · exact readsAs_append_closed (s := ['-']) readsAs_minus hm readsAs_one
  · exact readsAs_append_closed (s := ['-']) readsAs_minus hm h
  · have e : ∀ b, lex ("\\left ( ".toList ++ b) = "\\left".toList :: ['('] :: lex b := fun b => by simp [lex, lexGo]
    have e' : ∀ b, lex ("\\right ) ".toList ++ b) = "\\right".toList :: [')'] :: lex b := fun b => by
      simp [lex, lexGo]
    have key : ∀ b, lex ("\\left ( ".toList ++ P.coef t.1 ++ "\\right ) ".toList ++ b) =
        "\\left".toList :: ['('] :: lex (P.coef t.1) ++ ["\\right".toList, [')']] ++ lex b := by
      intro b
      simp only [List.append_assoc]
      rw [e, hC.1 _ (by simp), e']
      simp
    refine readsAs_append_closed (l := [.paren (.tok ['('] :: C t.1) [')']]) (readsAs_of key fun kind items r h1 _ => ?_) (fun b => ?_) h
    · rw [tex_run_paren hC h1]; rfl
    · have := key []
      rw [List.append_nil, lex_nil, List.append_nil] at this
      rw [key, this]
  · exact readsAs_append_closed (readsAs_blank hC) hC.1.blank h

theorem startsMinus_append (l m : List Node) : startsMinus (l ++ m) = if l = [] then startsMinus m else startsMinus l := by
  cases l with
  | nil => rfl
  | cons a l =>
    rw [if_neg (by simp), List.cons_append]
    rcases a with ⟨_ | ⟨c, _ | ⟨d, w⟩⟩⟩ | _ | _ | _ | _ | _ <;> try rfl
    · by_cases hc : c = '-'
      · subst hc; rfl
      · simp [startsMinus, hc]
    · simp [startsMinus]

theorem startsMinus_pdop (p : Pdop V) : startsMinus (pdopNodes N p) = false := by
  rw [pdopNodes]; split_ifs <;> rfl

theorem startsMinus_term {t : R × Pdop V} (hm : startsMinus (C t.1) = true ↔ (P.coef t.1).head? = some '-') :
    startsMinus (termNodes P N C t) = true ↔ (Sdop.latexTerm P t).head? = some '-' := by
  rw [Sdop.latexTerm, termNodes]
  simp only [Pdop.latex_eq_nil]
  split_ifs
  · decide
  · rw [startsMinus_pdop, Pdop.latex_head]; simp [*]
  · decide
  · simp [startsMinus]
  · simp [startsMinus]
  · rw [startsMinus_append, List.append_assoc, List.head?_append]
    by_cases hc : C t.1 = []
    · rw [if_pos hc, startsMinus_pdop]
      rw [hc] at hm
      cases h : (P.coef t.1).head? with
      | none => simp
      | some c =>
        rw [h] at hm
        simpa [startsMinus] using hm
    · rw [if_neg hc, hm]
      cases h : (P.coef t.1).head? with
      | none => simp
      | some c => simp

theorem readsAs_further {t : List Char} {l : List Node} (h : ReadsAs t l)
    (hm : startsMinus l = true ↔ t.head? = some '-') :
    ReadsAs (further ['-', ' '] t) (if startsMinus l then l else .tok ['+'] :: l) := by
  by_cases ht : t.head? = some '-'
  · rw [if_pos (hm.mpr ht)]
    obtain ⟨u, rfl⟩ : ∃ u, t = '-' :: u := by
      cases t with
      | nil => simp at ht
      | cons c u => exact ⟨u, by simpa using ht⟩
    have e : ∀ b, lex (further ['-', ' '] ('-' :: u) ++ b) = lex ('-' :: u ++ b) := fun b => by
      simp [further, lex, lexGo]
    have e0 := e []
    simp only [List.append_nil] at e0
    refine ⟨fun b hb => ?_, fun kind items r h1 h2 => ?_⟩
    · rw [e, h.1 b hb, e0]
    · rw [e0]; exact h.2 kind items r h1 h2
  · rw [if_neg (fun h => ht (hm.mp h))]
    have e : further ['-', ' '] t = [' ', '+', ' '] ++ t := by
      unfold further
      split
      · simp at ht
      · rfl
    rw [e]
    refine readsAs_append_closed (l := [.tok ['+']]) (readsAs_of (toks := [['+']]) (fun b => by simp [lex, lexGo])
      fun kind items r h1 _ => ?_) (fun b => by simp [lex, lexGo]) h
    have := tex_run_chars (s := ['+']) (fun c hc => by
      rw [List.mem_singleton] at hc
      subst hc
      unfold Ordinary
      decide) h1 items r
    exact this

/-- C115, in part: TeX reads the text of a scalar operator as the sum of its terms in their order.  Missing: variables
as in `C115_pdop_partial`; texts of coefficients that the replacement in the code damages, see
C79. -/
theorem C115_sdop_partial (hP : P.OK) {s : Sdop R V} (hs : s ≠ []) (hC : ∀ t ∈ s, ReadsAs (P.coef t.1) (C t.1))
    (hm : ∀ t ∈ s, startsMinus (C t.1) = true ↔ (P.coef t.1).head? = some '-')
    (hN : ∀ t ∈ s, ∀ e ∈ t.2, ReadsAs (P.sym e.1) [N e.1])
    (hf : ∀ t ∈ s, ∀ e ∈ t.2, e.2 = 1 ∨ (N e.1).free = true) (h0 : ∀ t ∈ s, ∀ e ∈ t.2, e.2 ≠ 0)
    (hp : ∀ t ∈ s, (t.2.map Prod.fst).Nodup) :
    ReadsAs (s.latex P) (sumNodes (s.sorted.map (termNodes P N C))) := by
  rw [Sdop.latex_eq hP hs]
  have hsub : ∀ t ∈ s.sorted, t ∈ s := fun t ht => s.sorted_perm.mem_iff.mp ht
  have ht : ∀ t ∈ s.sorted, ReadsAs (Sdop.latexTerm P t) (termNodes P N C t) := fun t ht =>
    readsAs_term (hC t (hsub t ht)) (C115_pdop_partial (hN t (hsub t ht)) (hf t (hsub t ht)) (h0 t (hsub t ht))
      (hp t (hsub t ht))).1
  have hm' : ∀ t ∈ s.sorted, startsMinus (termNodes P N C t) = true ↔ (Sdop.latexTerm P t).head? = some '-' :=
    fun t ht => startsMinus_term (hm t (hsub t ht))
  generalize s.sorted = l at ht hm'
  have hh : ∀ l : Sdop R V, ∀ c ∈ ((l.map (Sdop.latexTerm P)).flatMap (further ['-', ' '])).head?, c.isAlpha = false := by
    intro l c hc
    cases l with
    | nil => simp at hc
    | cons t l =>
      have : ∀ s, (further ['-', ' '] s).head? = some ' ' := fun s => by unfold further; split <;> rfl
      rw [List.map_cons, List.flatMap_cons, List.head?_append, this] at hc
      simp at hc
      subst hc
      decide
  have key : ∀ l : Sdop R V, (∀ t ∈ l, ReadsAs (Sdop.latexTerm P t) (termNodes P N C t)) →
      (∀ t ∈ l, startsMinus (termNodes P N C t) = true ↔ (Sdop.latexTerm P t).head? = some '-') →
      ReadsAs ((l.map (Sdop.latexTerm P)).flatMap (further ['-', ' ']))
        ((l.map (termNodes P N C)).flatMap fun m => if startsMinus m then m else .tok ['+'] :: m) := by
    intro l
    induction l with
    | nil => exact fun _ _ => ReadsAs.nil
    | cons t l ih =>
      intro h1 h2
      simp only [List.map_cons, List.flatMap_cons]
      exact readsAs_append_other (readsAs_further (h1 t (by simp)) (h2 t (by simp)))
        (ih (fun u hu => h1 u (by simp [hu])) fun u hu => h2 u (by simp [hu])) (hh l)
  cases l with
  | nil => exact ReadsAs.nil
  | cons t l =>
    exact readsAs_append_other (ht t (by simp)) (key l (fun u hu => ht u (by simp [hu])) fun u hu => hm' u (by simp [hu]))
      (hh l)

end operators

/-! ### Examples -/

/-- A coordinate with a superscript: the second derivative by it is printed with two superscripts, which TeX does not
read; the first derivative is read. -/
theorem C115_superscript_counterexample {P : Printer (Fin 1) ℤ Unit} (h : P.sym 0 = "x^{1}".toList) :
    Pdop.latex P [(0, 2)] = "\\frac{\\partial^{2}}{\\partial x^{1}^{2}}".toList ∧
      Tex.read (Pdop.latex P [(0, 2)]) = none ∧
      Tex.read (Pdop.latex P [(0, 1)]) = some [.frac (.group [.tok "\\partial".toList])
        (.group [.tok "\\partial".toList, .script (.tok ['x']) (some (.group [.tok ['1']])) none])] := by
  have e1 : Pdop.latex P [(0, 2)] = "\\frac{\\partial^{2}}{".toList ++ "\\partial ".toList ++ P.sym 0 ++ "^{2}".toList ++
      ['}'] := by
    rw [Pdop.latex, if_neg (by decide)]
    rfl
  have e2 : Pdop.latex P [(0, 1)] = "\\frac{\\partial}{".toList ++ "\\partial ".toList ++ P.sym 0 ++ [] ++ ['}'] := by
    rw [Pdop.latex, if_neg (by decide)]
    rfl
  rw [e1, e2, h]
  exact ⟨rfl, rfl, rfl⟩

/-- Whole numbers as coefficients, the coordinates are x and θ. -/
def derivP : Printer (Fin 2) ℤ Unit where
  coef := texInt
  isAdd _ := false
  sym i := if i = 0 then ['x'] else "\\theta".toList
  base _ := []

def derivN (i : Fin 2) : Node := if i = 0 then .tok ['x'] else .tok "\\theta".toList

theorem derivP_sym (i : Fin 2) : ReadsAs (derivP.sym i) [derivN i] := by
  fin_cases i
  · exact readsAs_chars (s := ['x']) fun c hc => by
      rw [List.mem_singleton] at hc
      subst hc
      unfold Ordinary
      decide
  · have h : Command "theta".toList := ⟨by decide, by decide, by decide⟩
    exact readsAs_command h

theorem derivP_coef (c : ℤ) : ReadsAs (derivP.coef c) (chars (texInt c)) := by
  refine readsAs_chars fun d hd => ?_
  simp only [derivP, texInt, List.mem_append] at hd
  rcases hd with hd | hd
  · split_ifs at hd
    · rw [List.mem_singleton] at hd
      subst hd
      unfold Ordinary
      decide
    · simp at hd
  · exact ordinary_digit (isDigit_strNat hd)

theorem derivP_ok : derivP.OK where
  coef c := plain_of_not_mem fun h => by
    simp only [derivP, texInt, List.mem_append] at h
    rcases h with h | h
    · split_ifs at h <;> simp at h
    · exact not_mem_strNat (by decide) _ h
  sym i := plain_of_not_mem (by fin_cases i <;> decide)
  base _ := plain_of_not_mem (by simp [derivP])

/-- The hypotheses of `C115_pdop_partial` and `C115_sdop_partial` are met for 3 ∂³/∂x²∂θ - ∂/∂θ - 7. -/
example : ReadsAs (Sdop.latex derivP [(3, [(1, 1), (0, 2)]), (-1, [(1, 1)]), (-7, [])])
    (chars ['-', '7'] ++ [.tok ['-'], .frac (.group [.tok "\\partial".toList])
        (.group [.tok "\\partial".toList, .tok "\\theta".toList]), .tok ['+'], .tok ['3'],
      .frac (.group [.script (.tok "\\partial".toList) (some (.group [.tok ['3']])) none])
        (.group [.tok "\\partial".toList, .script (.tok ['x']) (some (.group [.tok ['2']])) none,
          .tok "\\partial".toList, .tok "\\theta".toList])]) := by
  have := C115_sdop_partial (s := [(3, [(1, 1), (0, 2)]), (-1, [(1, 1)]), (-7, [])]) (N := derivN)
    (C := fun c => chars (texInt c)) derivP_ok (by simp) (fun t _ => derivP_coef t.1)
    (by decide) (fun _ _ e _ => derivP_sym e.1)
    (fun _ _ e _ => Or.inr (by obtain ⟨i, k⟩ := e; fin_cases i <;> rfl)) (by decide) (by decide)
  exact this

/-- The hypotheses of `C115_derivative` and `C115_derivative_flat` are met, with the variables x, x, θ. -/
example : ReadsAs (derivativeTex false derivP.sym [0, 0, 1] true "f+g".toList)
    [.frac (.group [.script (.tok "\\partial".toList) (some (.group [.tok ['3']])) none])
      (.group [.script (.tok "\\partial".toList) (some (.group [.tok ['2']])) none, .tok ['x'],
        .tok "\\partial".toList, .tok "\\theta".toList]),
      .paren (.tok ['('] :: chars "f+g".toList) [')']] ∧
    ReadsAs (derivativeTex true derivP.sym [0, 0, 1] false ['f'])
      [.script (.tok "\\partial".toList) (some (.group [.tok ['2']])) (some (.group [.tok ['x']])),
        .script (.tok "\\partial".toList) none (some (.group [.tok "\\theta".toList])), .tok ['f']] := by
  have ho : ∀ c ∈ "f+g".toList, Ordinary c := by
    intro c hc
    unfold Ordinary
    revert c
    decide
  have hf : ∀ c ∈ ['f'], Ordinary c := by
    intro c hc
    unfold Ordinary
    revert c
    decide
  exact ⟨C115_derivative (L := fun i => [derivN i]) derivP_sym (by simp) true (readsAs_chars ho),
    C115_derivative_flat (L := fun i => [derivN i]) derivP_sym (by simp) false (readsAs_chars hf)⟩

end GA
