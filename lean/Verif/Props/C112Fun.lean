import Verif.Props.C112

/-!
# C112: functions in LaTeX
-/

set_option maxRecDepth 10000

namespace GA
open Tex

/-- A text without percent sign is copied. -/
theorem pyPercent_append {p : List Char} (h : '%' ∉ p) (arg : Option (List Char)) (f : List Char) :
    pyPercent arg (p ++ f) = (pyPercent arg f).map (p ++ ·) := by
  induction p with
  | nil => simp
  | cons c p ih =>
    obtain ⟨h1, h2⟩ : '%' ≠ c ∧ '%' ∉ p := by simpa using h
    rw [List.cons_append, pyPercent, ih h2, Option.map_map]
    · rfl
    · rintro _ rfl
      exact absurd rfl h1
    · rintro _ rfl
      exact absurd rfl h1
    · rintro rfl
      exact absurd rfl h1

theorem pyPercent_arg {p q : List Char} (h : '%' ∉ p) (h' : '%' ∉ q) (a : List Char) :
    pyPercent (some a) (p ++ "%s".toList ++ q) = some (p ++ a ++ q) := by
  have e : pyPercent none q = some q := by
    have := pyPercent_append h' none []
    rw [List.append_nil, pyPercent] at this
    simpa using this
  rw [List.append_assoc, pyPercent_append h]
  simp [pyPercent, e]

/-- A command with a name of letters, which is no command of its own kind. -/
def Command (f : List Char) : Prop :=
  f ≠ [] ∧ (∀ c ∈ f, c.isAlpha = true) ∧ f ∉ ["left", "right", "frac", "sqrt", "root"].map String.toList

theorem lexGo_letters {f : List Char} (h : ∀ c ∈ f, c.isAlpha = true) {w : List Char} (hw : w ≠ []) (hw' : w ≠ ['\\'])
    {b : List Char} (hb : ∀ c ∈ b.head?, c.isAlpha = false) : lexGo w (f ++ b) = (w ++ f) :: lex b := by
  induction f generalizing w with
  | nil =>
    cases b with
    | nil => simp [lexGo, hw, lex]
    | cons c b =>
      have hc : c.isAlpha = false := hb c rfl
      rw [List.nil_append, lexGo, if_neg hw, if_neg hw', if_neg (by simp [hc]), List.append_nil, lex, lexGo, if_pos rfl]
  | cons c f ih =>
    rw [List.cons_append, lexGo, if_neg hw, if_neg hw', if_pos (h c List.mem_cons_self),
      ih (fun c hc => h c (List.mem_cons_of_mem _ hc)) (by simp)]
    · simp
    · intro e
      have := congrArg List.length e
      simp at this
      exact hw this

theorem lex_command {f : List Char} (h : ∀ c ∈ f, c.isAlpha = true) (h0 : f ≠ []) {b : List Char}
    (hb : ∀ c ∈ b.head?, c.isAlpha = false) : lex ('\\' :: f ++ b) = ('\\' :: f) :: lex b := by
  cases f with
  | nil => exact absurd rfl h0
  | cons c f =>
    rw [List.cons_append, lex, lexGo, if_pos rfl, if_neg (by decide), if_pos rfl, List.cons_append, lexGo,
      if_neg (by simp), if_pos rfl, if_pos (h c List.mem_cons_self),
      lexGo_letters (fun c hc => h c (List.mem_cons_of_mem _ hc)) (by simp) (by simp) hb]
    simp

theorem readsAs_command {f : List Char} (h : Command f) : ReadsAs ('\\' :: f) [.tok ('\\' :: f)] := by
  obtain ⟨h0, h1, h2⟩ := h
  have e : lex ('\\' :: f) = ['\\' :: f] := by
    have := lex_command h1 h0 (b := []) (by simp)
    rwa [List.append_nil, lex_nil] at this
  refine ⟨fun b hb => by rw [lex_command h1 h0 hb, e]; rfl, fun kind items r k1 k2 => ?_⟩
  rw [e, run, step, stepIn.eq_def, if_neg k1]
  simp only [List.map_cons, List.map_nil, List.mem_cons, List.not_mem_nil, or_false, not_or, String.reduceToList] at h2
  obtain ⟨a1, a2, a3, a4, a5⟩ := h2
  simp [h0, a1, a2, a3, a4, a5, Frame.add, run]

theorem readsAs_blank {s : List Char} {l : List Node} (h : ReadsAs s l) : ReadsAs (s ++ [' ']) l :=
  ⟨h.1.blank.complete, fun kind items r h1 h2 => by rw [h.1.lex_blank, h.2 kind items r h1 h2]⟩

/-- `{\left (a \right )}`. -/
theorem readsAs_call {a : List Char} {l : List Node} (h : ReadsAs a l) :
    ReadsAs ("{\\left (".toList ++ a ++ " \\right )}".toList) [.group [.paren (.tok ['('] :: l) [')']]] := by
  have e : ∀ b, lex ("\\left (".toList ++ b) = "\\left".toList :: ['('] :: lex b := fun b => by simp [lex, lexGo]
  have e' : ∀ b, lex (" \\right )".toList ++ b) = "\\right".toList :: [')'] :: lex b := fun b => by simp [lex, lexGo]
  have h1 : ReadsAs ("\\left (".toList ++ a ++ " \\right )".toList) [.paren (.tok ['('] :: l) [')']] := by
    refine readsAs_of (toks := "\\left".toList :: ['('] :: lex a ++ ["\\right".toList, [')']]) (fun b => ?_)
      fun kind items r h1 _ => ?_
    · simp only [List.append_assoc]
      rw [e, h.1 _ (by simp), e']
      simp
    · rw [tex_run_paren h h1]
      rfl
  have := readsAs_braces h1
  have e2 : '{' :: ("\\left (".toList ++ a ++ " \\right )".toList) ++ ['}'] = "{\\left (".toList ++ a ++ " \\right )}".toList := by
    simp
  rwa [e2] at this

theorem readsAs_commas {args : List (List Char)} {L : List (List Node)} (h : List.Forall₂ ReadsAs args L) :
    ReadsAs ([','].intercalate args) (commas L) := by
  induction h with
  | nil => exact ReadsAs.nil
  | @cons a l as ls h1 h2 ih =>
    cases h2 with
    | nil => simpa [commas, List.intercalate] using h1
    | @cons a' l' as' ls' h3 h4 =>
      have e : [','].intercalate (a :: a' :: as') = a ++ ',' :: [','].intercalate (a' :: as') := by
        simp [List.intercalate, List.intersperse]
      rw [e, commas]
      have hc : ReadsAs [','] [.tok [',']] := readsAs_chars (s := [',']) fun c hc => by
        rw [List.mem_singleton] at hc
        subst hc
        unfold Ordinary
        decide
      have h5 : ReadsAs (',' :: [','].intercalate (a' :: as')) (.tok [','] :: commas (l' :: ls')) := by
        refine ⟨?_, fun kind items r k1 k2 => ?_⟩
        · have := (closed_of_plain (s := [',']) (by simp)).append_complete ih.1
          exact this
        · rw [lex_cons (by decide) (by decide), show ([','] :: lex ([','].intercalate (a' :: as'))) =
            lex [','] ++ lex ([','].intercalate (a' :: as')) by simp [lex_cons, lex_nil], tex_run_append, hc.2 kind items r k1 k2,
            Option.bind_some, ih.2 kind _ r k1 k2]
          simp
      exact h1.append h5 (by simp) (by simp)
      simp

/-- The call `name(args)` as it is shown. -/
def callNode (L : List (List Node)) : Node := .group [.paren (.tok ['('] :: commas L) [')']]

section
variable {S : TexSettings} {accepted : List (List Char)} {symTex : List Char → List Char} {func : List Char}
  {args : List (List Char)} {L : List (List Node)} {N : List Node} {nb : Bool}

theorem name_call {name : List Char} (hn : ReadsAs name N) (hp : '%' ∉ name) (ha : List.Forall₂ ReadsAs args L) :
    ∃ t, pyPercent (some ([','].intercalate args)) (name ++ "{\\left (%s \\right )}".toList) = some t ∧
      ReadsAs t (N ++ [callNode L]) := by
  have e : name ++ "{\\left (%s \\right )}".toList =
      (name ++ "{\\left (".toList) ++ "%s".toList ++ " \\right )}".toList := by simp
  rw [e, pyPercent_arg (by simp [hp]) (by simp)]
  refine ⟨_, rfl, ?_⟩
  have := hn.append (readsAs_call (readsAs_commas ha)) (by simp) (by simp)
  rw [callNode]
  simpa using this

theorem mem_letters {f : List Char} (h : Command f) : '%' ∉ '\\' :: f := by
  intro hm
  rcases List.mem_cons.mp hm with hm | hm
  · exact absurd hm (by decide)
  · exact absurd (h.2.1 _ hm) (by decide)

/-- How the name of a function is read: the command of that name, or as the symbol of that name. -/
def NameReads (accepted : List (List Char)) (symTex : List Char → List Char) (f : List Char) (N : List Node) : Prop :=
  (f ∈ accepted ∧ Command f ∧ N = [.tok ('\\' :: f)]) ∨ (f ∉ accepted ∧ ReadsAs (symTex f) N ∧ '%' ∉ symTex f)

theorem name_reads {f : List Char} (h : NameReads accepted symTex f N) :
    ReadsAs (if f ∈ accepted then '\\' :: f else symTex f ++ [' ']) N ∧
      '%' ∉ (if f ∈ accepted then '\\' :: f else symTex f ++ [' ']) := by
  rcases h with ⟨h1, h2, rfl⟩ | ⟨h1, h2, h3⟩
  · rw [if_pos h1]
    exact ⟨readsAs_command h2, mem_letters h2⟩
  · rw [if_neg h1]
    exact ⟨readsAs_blank h2, by simp [h3]⟩

/-- C112, functions: the text shows the name and in parentheses the arguments with commas between them. -/
theorem C112_function_partial (hi : func ∉ invTrigTable ∨ S.invTrigStyle ≠ "power".toList)
    (hN : NameReads accepted symTex (styledName S func) N) (ha : List.Forall₂ ReadsAs args L)
    (ho : styledName S func ∈ accepted ∨ S.omitFunctionArgs = false)
    (hf : S.foldFuncBrackets = false ∨ args.length ≠ 1 ∨ nb = true) :
    ∃ t, printFunction S accepted symTex func args nb none = some t ∧ read t = some (N ++ [callNode L]) ∧
      ReadsAs t (N ++ [callNode L]) := by
  obtain ⟨h1, h2⟩ := name_reads hN
  obtain ⟨t, h3, h4⟩ := name_call h1 h2 ha
  refine ⟨t, ?_, h4.read, h4⟩
  have hp : ¬ (func ∈ invTrigTable ∧ S.invTrigStyle = "power".toList) := fun h => hi.elim (· h.1) (· h.2)
  have ho' : styledName S func ∈ accepted ∨ (!S.omitFunctionArgs) = true := ho.imp id (by simp)
  have hfold : ¬ (S.foldFuncBrackets && args.length == 1 && !nb &&
      !(decide (func ∈ invTrigTable ∧ S.invTrigStyle = "power".toList) && (none : Option (List Char)).isSome)) = true := by
    rcases hf with h | h | h <;> simp [h]
  rw [← h3, printFunction]
  simp only [hp, decide_false, Bool.false_eq_true, if_false]
  rw [if_pos ho', if_neg (by simpa using hfold), if_pos ho']

/-- C112, functions with the setting `omit_function_args`: the name alone, if it has no command of its own. -/
theorem C112_omitted (hi : func ∉ invTrigTable ∨ S.invTrigStyle ≠ "power".toList)
    (hN : styledName S func ∉ accepted) (hs : ReadsAs (symTex (styledName S func)) N) (ho : S.omitFunctionArgs = true) :
    ∃ t, printFunction S accepted symTex func args nb none = some t ∧ read t = some N ∧ ReadsAs t N := by
  have hp : ¬ (func ∈ invTrigTable ∧ S.invTrigStyle = "power".toList) := fun h => hi.elim (· h.1) (· h.2)
  refine ⟨_, ?_, (readsAs_blank hs).read, readsAs_blank hs⟩
  rw [printFunction]
  simp only [hp, hN, ho, decide_false, Bool.false_eq_true, if_false, if_true, Bool.not_true, or_self, ite_self]

theorem folded_command {a : List Char} {l : List Node} (hp : ¬ (func ∈ invTrigTable ∧ S.invTrigStyle = "power".toList))
    (hc : styledName S func ∈ accepted) (hC : Command (styledName S func)) (ha : ReadsAs a l)
    (hf : S.foldFuncBrackets = true) : ∃ t, printFunction S accepted symTex func [a] false none = some t ∧
      read t = some [.tok ('\\' :: styledName S func), .group l] := by
  have e : '\\' :: styledName S func ++ " {%s}".toList =
      ('\\' :: styledName S func ++ " {".toList) ++ "%s".toList ++ "}".toList := by simp
  have ei : [','].intercalate [a] = a := by simp [List.intercalate]
  have h3 := (readsAs_blank (readsAs_command hC)).append (readsAs_braces ha) (by simp) (by simp)
  have e2 : ('\\' :: styledName S func ++ " {".toList) ++ a ++ "}".toList =
      ('\\' :: styledName S func ++ [' ']) ++ ('{' :: a ++ ['}']) := by simp
  have hq : '%' ∉ '\\' :: styledName S func ++ " {".toList := by
    rw [List.mem_append, not_or]
    exact ⟨mem_letters hC, by simp⟩
  refine ⟨_, ?_, h3.read⟩
  rw [← e2, ← pyPercent_arg hq (by simp), ← e, printFunction]
  simp only [hp, hc, hf, ei, decide_false, Bool.false_eq_true, if_false, true_or, if_true, List.length_singleton,
    beq_self_eq_true, Bool.not_false, Bool.and_self, Bool.false_and]

theorem folded_name {a : List Char} {l : List Node} (hp : ¬ (func ∈ invTrigTable ∧ S.invTrigStyle = "power".toList))
    (hc : styledName S func ∉ accepted) (hr : ReadsAs (symTex (styledName S func)) N)
    (hq : '%' ∉ symTex (styledName S func)) (ha : ReadsAs a l) (hf : S.foldFuncBrackets = true)
    (ho : S.omitFunctionArgs = false) : ∃ t, printFunction S accepted symTex func [a] false none = some t ∧
      read t = some (N ++ l) := by
  have ei : [','].intercalate [a] = a := by simp [List.intercalate]
  have c1 := hr.1.blank
  have h3 : ReadsAs (symTex (styledName S func) ++ [' '] ++ a) (N ++ l) := by
    refine ⟨c1.append_complete ha.1, fun kind items r k1 k2 => ?_⟩
    rw [c1 a, tex_run_append, (readsAs_blank hr).2 kind items r k1 k2, Option.bind_some, ha.2 kind _ r k1 k2]
    simp
  have e := pyPercent_arg (p := symTex (styledName S func) ++ [' ']) (q := []) (by simp [hq]) (by simp) a
  rw [List.append_nil, List.append_nil] at e
  refine ⟨_, ?_, h3.read⟩
  rw [← e, printFunction]
  simp only [hp, hc, hf, ho, ei, decide_false, Bool.false_eq_true, if_false, List.length_singleton, beq_self_eq_true,
    Bool.not_false, Bool.and_self, Bool.false_and, if_true, false_or]

/-- C112, functions with the setting `fold_func_brackets` and an argument that needs no brackets. -/
theorem C112_folded_partial {a : List Char} {l : List Node}
    (hi : func ∉ invTrigTable ∨ S.invTrigStyle ≠ "power".toList)
    (hN : NameReads accepted symTex (styledName S func) N) (ha : ReadsAs a l) (hf : S.foldFuncBrackets = true) :
    (styledName S func ∈ accepted → ∃ t, printFunction S accepted symTex func [a] false none = some t ∧
      read t = some (N ++ [.group l])) ∧
    (styledName S func ∉ accepted → S.omitFunctionArgs = false →
      ∃ t, printFunction S accepted symTex func [a] false none = some t ∧ read t = some (N ++ l)) := by
  have hp : ¬ (func ∈ invTrigTable ∧ S.invTrigStyle = "power".toList) := fun h => hi.elim (· h.1) (· h.2)
  rcases hN with ⟨c1, c2, rfl⟩ | ⟨c1, c2, c3⟩
  · exact ⟨fun _ => folded_command hp c1 c2 ha hf, fun h => absurd c1 h⟩
  · exact ⟨fun h => absurd h c1, fun _ ho => folded_name hp c1 c2 c3 ha hf ho⟩

/-- C112, inverse trigonometric functions: the names in the three styles. -/
theorem C112_inverse_names {x : List Char} :
    (S.invTrigStyle = "abbreviated".toList → styledName S x = x) ∧
    (S.invTrigStyle = "full".toList → 'a' :: x ∈ invTrigTable → styledName S ('a' :: x) = "arc".toList ++ x) ∧
    (S.invTrigStyle = "power".toList → 'a' :: x ∈ invTrigTable → styledName S ('a' :: x) = x) ∧
    (x ∉ invTrigTable → styledName S x = x) := by
  refine ⟨fun h => ?_, fun h h' => ?_, fun h h' => ?_, fun h => ?_⟩
  · simp [styledName, h]
  · simp [styledName, h, h']
  · simp [styledName, h, h']
  · simp [styledName, h]

/-- C112, inverse trigonometric functions in the style `power`: the function with the exponent -1, then the arguments; an
exponent of the function stands after them. -/
theorem C112_inverse_power_partial (hi : func ∈ invTrigTable) (hs : S.invTrigStyle = "power".toList)
    (hc : styledName S func ∈ accepted) (hC : Command (styledName S func)) (ha : List.Forall₂ ReadsAs args L)
    (hf : S.foldFuncBrackets = false ∨ args.length ≠ 1 ∨ nb = true) :
    (∃ t, printFunction S accepted symTex func args nb none = some t ∧ read t = some
      [.script (.tok ('\\' :: styledName S func)) (some (.group (chars "-1".toList))) none, callNode L]) ∧
    ∀ {e : List Char} {E : List Node}, ReadsAs e E → '%' ∉ e →
      ∃ t, printFunction S accepted symTex func args nb (some e) = some t ∧ read t = some
      [.script (.tok ('\\' :: styledName S func)) (some (.group (chars "-1".toList))) none,
        .script (callNode L) (some (.group E)) none] := by
  have hm : ReadsAs "-1".toList (chars "-1".toList) := readsAs_chars fun c hc => by
    have : c = '-' ∨ c = '1' := by simpa using hc
    rcases this with rfl | rfl <;> (unfold Ordinary; decide)
  have h1 : ReadsAs ('\\' :: styledName S func ++ "^{-1}".toList)
      [.script (.tok ('\\' :: styledName S func)) (some (.group (chars "-1".toList))) none] := by
    have := readsAs_up (N := .tok ('\\' :: styledName S func)) rfl (readsAs_command hC) hm
    simpa using this
  have h2 : '%' ∉ '\\' :: styledName S func ++ "^{-1}".toList := by
    rw [List.mem_append, not_or]
    exact ⟨mem_letters hC, by simp⟩
  have hp : func ∈ invTrigTable ∧ S.invTrigStyle = "power".toList := ⟨hi, hs⟩
  have hfold : ∀ e : Option (List Char), ¬ (S.foldFuncBrackets && args.length == 1 && !nb &&
      !(true && e.isSome)) = true := fun e => by rcases hf with h | h | h <;> simp [h]
  constructor
  · obtain ⟨t, h3, h4⟩ := name_call h1 h2 ha
    refine ⟨t, ?_, by rw [h4.read]; rfl⟩
    rw [← h3, printFunction]
    simp only [hp, hc, and_self, decide_true, if_true, true_or]
    rw [if_neg (by simpa using hfold none)]
  · intro e E he hq
    have h5 := readsAs_up (N := callNode L) rfl (readsAs_call (readsAs_commas ha)) he
    have h6 := h1.append h5 (by simp) (by simp)
    refine ⟨_, ?_, h6.read⟩
    rw [printFunction]
    simp only [hp, hc, and_self, decide_true, if_true, true_or]
    rw [if_neg (by simpa using hfold (some e))]
    have e2 : '\\' :: styledName S func ++ "^{-1}".toList ++ "{\\left (%s \\right )}".toList ++ "^{".toList ++ e ++ ['}'] =
        ('\\' :: styledName S func ++ "^{-1}".toList ++ "{\\left (".toList) ++ "%s".toList ++
          (" \\right )}".toList ++ "^{".toList ++ e ++ ['}']) := by simp
    rw [e2, pyPercent_arg]
    · simp
    · rw [List.mem_append, not_or]
      exact ⟨h2, by simp⟩
    · simp [hq]

/-- C112, a function with an exponent: the exponent stands on the name. -/
theorem C112_function_exponent_partial (hi : func ∉ invTrigTable ∨ S.invTrigStyle ≠ "power".toList)
    (hN : NameReads accepted symTex (styledName S func) N) (ha : List.Forall₂ ReadsAs args L)
    (ho : styledName S func ∈ accepted ∨ S.omitFunctionArgs = false)
    (hf : S.foldFuncBrackets = false ∨ args.length ≠ 1 ∨ nb = true) {e : List Char} {E : List Node} (he : ReadsAs e E)
    (hq : '%' ∉ e) (h1 : styledName S func ∈ accepted ∨ '_' ∈ styledName S func ∨ '^' ∈ styledName S func ∨ OnePart N) :
    ∃ t M, printFunction S accepted symTex func args nb (some e) = some t ∧ Holds N M ∧
      read t = some [.script M (some (.group E)) none, callNode L] := by
  have hp : ¬ (func ∈ invTrigTable ∧ S.invTrigStyle = "power".toList) := fun h => hi.elim (· h.1) (· h.2)
  have ho' : styledName S func ∈ accepted ∨ (!S.omitFunctionArgs) = true := ho.imp id (by simp)
  have hfold : ¬ (S.foldFuncBrackets && args.length == 1 && !nb && !(false && (some e).isSome)) = true := by
    rcases hf with h | h | h <;> simp [h]
  obtain ⟨name, M, hM, k1, k2, k3⟩ : ∃ name M, Holds N M ∧ ReadsAs name [.script M (some (.group E)) none] ∧ '%' ∉ name ∧
      name = if styledName S func ∈ accepted then '\\' :: styledName S func ++ "^{".toList ++ e ++ ['}']
        else if '_' ∈ styledName S func ∨ '^' ∈ styledName S func then
          "{\\left ( ".toList ++ symTex (styledName S func) ++ " \\right ) }^{".toList ++ e ++ ['}']
        else symTex (styledName S func) ++ " ^{".toList ++ e ++ ['}'] := by
    rcases hN with ⟨c1, c2, rfl⟩ | ⟨c1, c2, c3⟩
    · refine ⟨_, _, .self rfl rfl, readsAs_up (N := .tok ('\\' :: styledName S func)) rfl (readsAs_command c2) he, ?_,
        by rw [if_pos c1]⟩
      have := mem_letters c2
      simp only [List.mem_append, not_or]
      exact ⟨⟨⟨this, by simp⟩, hq⟩, by simp⟩
    · by_cases hu : '_' ∈ styledName S func ∨ '^' ∈ styledName S func
      · refine ⟨_, _, .group .paren, ?_, ?_, by rw [if_neg c1, if_pos hu]⟩
        · have := readsAs_up (N := .group [.paren (.tok ['('] :: N) [')']]) rfl
            (readsAs_braces (readsAs_blank (readsAs_paren c2))) he
          simpa using this
        · simp [c3, hq]
      · obtain ⟨M, hM, rfl⟩ : OnePart N := by
          rcases h1 with h | h | h | h
          · exact absurd h c1
          · exact absurd (.inl h) hu
          · exact absurd (.inr h) hu
          · exact h
        refine ⟨_, M, .self hM rfl, ?_, ?_, by rw [if_neg c1, if_neg hu]⟩
        · have := readsAs_up hM (readsAs_blank c2) he
          simpa using this
        · simp [c3, hq]
  obtain ⟨t, h3, h4⟩ := name_call k1 k2 ha
  refine ⟨t, M, ?_, hM, by rw [h4.read]; rfl⟩
  rw [← h3, printFunction, k3]
  simp only [hp, decide_false, Bool.false_eq_true, if_false]
  rw [if_pos ho', if_neg (by simpa using hfold), if_pos ho']

end

/-- C112 is false of names with a percent sign: the name is part of a format string, so that one percent sign raises an
exception and of two only one is shown. -/
theorem C112_percent_doubled_counterexample :
    printFunction {} [] id "f%g".toList [['x']] false none = none ∧
      printFunction {} [] id "f%%g".toList [['x']] false none = some "f%g {\\left (x \\right )}".toList := by
  constructor <;> rfl

end GA
