import Verif.Model.Capture

/-!
# C76: capturing printed output

`run s cmds` runs a program of calls of `print`, `Format`, `LatexFormat` and `tex` and gives the state and
the result of each call.  `Res.doc t` is the text that `tex` turns into a document.
-/

set_option linter.unusedSectionVars false
set_option maxRecDepth 10000

namespace GA.Capture

/-- What a program prints, in plain text. -/
def plainOf : List Cmd → List Char
  | [] => []
  | .print p _ :: cs => p ++ ['\n'] ++ plainOf cs
  | _ :: cs => plainOf cs

/-- What a program prints, in LaTeX. -/
def latexOf : List Cmd → List Char
  | [] => []
  | .print _ l :: cs => l ++ ['\n'] ++ latexOf cs
  | _ :: cs => latexOf cs

/-- A call of `print`. -/
def IsPrint : Cmd → Prop
  | .print _ _ => True
  | _ => False

/-- A call of `print` or `Format`. -/
def IsPrintOrFormat : Cmd → Prop
  | .print _ _ => True
  | .format => True
  | _ => False

theorem run_append (s : State) (c d : List Cmd) :
    run s (c ++ d) = ((run (run s c).1 d).1, (run s c).2 ++ (run (run s c).1 d).2) := by
  induction c generalizing s with
  | nil => simp [run]
  | cons a c ih => simp [run, ih]

/-- In plain mode on the terminal, prints go to the terminal. -/
theorem run_prints_terminal {s : State} (ht : s.stdout = .terminal) (hf : s.flg = false)
    {cs : List Cmd} (hc : ∀ c ∈ cs, IsPrint c) :
    run s cs = ({ s with term := s.term ++ plainOf cs }, cs.map fun _ => Res.done) := by
  induction cs generalizing s with
  | nil => simp [run, plainOf]
  | cons c cs ih =>
    cases c with
    | print p l =>
      have h1 : (step s (.print p l)) = ({ s with term := s.term ++ (p ++ ['\n']) }, .done) := by
        simp [step, State.print, State.write, ht, hf]
      rw [run, h1]
      simp only
      rw [ih (s := { s with term := s.term ++ (p ++ ['\n']) }) ht hf
        (fun c h => hc c (by simp [h]))]
      simp [plainOf]
    | _ => exact absurd (hc _ List.mem_cons_self) (by simp [IsPrint])

/-- The same with calls of `Format` after the first one. -/
theorem run_formats_terminal {s : State} (ht : s.stdout = .terminal) (hf : s.flg = false)
    (hn : s.cnt ≠ 0) {cs : List Cmd} (hc : ∀ c ∈ cs, IsPrintOrFormat c) :
    run s cs = ({ s with term := s.term ++ plainOf cs }, cs.map fun _ => Res.done) := by
  induction cs generalizing s with
  | nil => simp [run, plainOf]
  | cons c cs ih =>
    cases c with
    | print p l =>
      have h1 : (step s (.print p l)) = ({ s with term := s.term ++ (p ++ ['\n']) }, .done) := by
        simp [step, State.print, State.write, ht, hf]
      rw [run, h1]
      simp only
      rw [ih (s := { s with term := s.term ++ (p ++ ['\n']) }) ht hf hn
        (fun c h => hc c (by simp [h]))]
      simp [plainOf]
    | format =>
      have h1 : step s .format = (s, .done) := by simp [step, State.format, hn]
      rw [run, h1]
      simp only
      rw [ih ht hf hn (fun c h => hc c (by simp [h]))]
      simp [plainOf]
    | _ => exact absurd (hc _ List.mem_cons_self) (by simp [IsPrintOrFormat])

theorem modify_last (bs : List (List Char)) (b t : List Char) :
    (bs ++ [b]).modify bs.length (· ++ t) = bs ++ [b ++ t] := by
  induction bs with
  | nil => rfl
  | cons a bs ih => simpa using ih

/-- In LaTeX mode with a buffer, prints go to the buffer. -/
theorem run_formats_buffer {s : State} {bs : List (List Char)} {b : List Char}
    (ht : s.stdout = .buffer bs.length) (hb : s.bufs = bs ++ [b]) (hf : s.flg = true)
    {cs : List Cmd} (hc : ∀ c ∈ cs, IsPrintOrFormat c) (hn : s.cnt ≠ 0 ∨ ∀ c ∈ cs, IsPrint c) :
    run s cs = ({ s with bufs := bs ++ [b ++ latexOf cs] }, cs.map fun _ => Res.done) := by
  induction cs generalizing s b with
  | nil => simp [run, latexOf, ← hb]
  | cons c cs ih =>
    have hn' : s.cnt ≠ 0 ∨ ∀ c ∈ cs, IsPrint c := hn.imp_right fun h c hc => h c (by simp [hc])
    cases c with
    | print p l =>
      have h1 : (step s (.print p l)) = ({ s with bufs := bs ++ [b ++ (l ++ ['\n'])] }, .done) := by
        simp [step, State.print, State.write, ht, hf, hb, modify_last]
      rw [run, h1]
      simp only
      rw [ih (s := { s with bufs := bs ++ [b ++ (l ++ ['\n'])] }) (b := b ++ (l ++ ['\n'])) ht rfl hf
        (fun c h => hc c (by simp [h])) hn']
      simp [latexOf]
    | format =>
      have hn0 : s.cnt ≠ 0 := by
        rcases hn with h | h
        · exact h
        · exact absurd (h _ List.mem_cons_self) (by simp [IsPrint])
      have h1 : step s .format = (s, .done) := by simp [step, State.format, hn0]
      rw [run, h1]
      simp only
      rw [ih ht hb hf (fun c h => hc c (by simp [h])) hn']
      simp [latexOf]
    | _ => exact absurd (hc _ List.mem_cons_self) (by simp [IsPrintOrFormat])

/-- The state after the first `tex`, in a program that used `Format`. -/
theorem run_session (term : List Char) {before between : List Cmd} (h1 : ∀ c ∈ before, IsPrint c)
    (h2 : ∀ c ∈ between, IsPrintOrFormat c) :
    run (.init term) (before ++ [.format] ++ between ++ [.tex]) =
      (⟨term ++ plainOf before, [latexOf between], .terminal, some .terminal, false, latexOf between,
          false, 1⟩,
        before.map (fun _ => .done) ++ [.done] ++ between.map (fun _ => .done) ++
          [.doc (latexOf between)]) := by
  rw [run_append, run_append, run_append, run_prints_terminal rfl rfl h1]
  have hf : run { State.init term with term := (State.init term).term ++ plainOf before } [.format] =
      (⟨term ++ plainOf before, [[]], .buffer 0, some .terminal, true, [], false, 1⟩, [.done]) := by
    simp [run, step, State.format, State.init, State.redirect]
  simp only [hf]
  rw [run_formats_buffer (s := ⟨term ++ plainOf before, [[]], .buffer 0, some .terminal, true, [],
    false, 1⟩) (bs := []) (b := []) rfl rfl rfl h2 (Or.inl (by simp))]
  simp [run, step, State.tex, State.getvalue, State.restore]

/-- C76: in a program that prints, calls `Format`, prints (and may call `Format` again), calls `tex` and
prints, the document has the LaTeX form of exactly what was printed between `Format` and `tex`, in
order; the terminal has the plain form of the rest, and nothing else.  Missing for the full claim:
programs with a second `tex` or with `LatexFormat`, for which it is false (`C76_second_tex_raises`,
`C76_repeated_text`, `C76_nested_counterexample`). -/
theorem C76_capture_partial (term : List Char) {before between after : List Cmd}
    (h1 : ∀ c ∈ before, IsPrint c) (h2 : ∀ c ∈ between, IsPrintOrFormat c)
    (h3 : ∀ c ∈ after, IsPrintOrFormat c) :
    (run (.init term) (before ++ [.format] ++ between ++ [.tex] ++ after)).2 =
      before.map (fun _ => .done) ++ [.done] ++ between.map (fun _ => .done) ++
        [.doc (latexOf between)] ++ after.map (fun _ => .done) ∧
    (run (.init term) (before ++ [.format] ++ between ++ [.tex] ++ after)).1.term =
      term ++ plainOf before ++ plainOf after := by
  rw [run_append, run_session term h1 h2]
  have := run_formats_terminal (s := ⟨term ++ plainOf before, [latexOf between], .terminal,
    some .terminal, false, latexOf between, false, 1⟩) rfl rfl (by simp) h3
  simp only [this]
  simp

/-- C76: … and at every moment before `tex` the terminal has only what was printed before `Format`. -/
theorem C76_hidden (term : List Char) {before between : List Cmd} (h1 : ∀ c ∈ before, IsPrint c)
    (h2 : ∀ c ∈ between, IsPrintOrFormat c) :
    (run (.init term) (before ++ [.format] ++ between)).1.term = term ++ plainOf before := by
  rw [run_append, run_append, run_prints_terminal rfl rfl h1]
  have hf : run { State.init term with term := (State.init term).term ++ plainOf before } [.format] =
      (⟨term ++ plainOf before, [[]], .buffer 0, some .terminal, true, [], false, 1⟩, [.done]) := by
    simp [run, step, State.format, State.init, State.redirect]
  simp only [hf]
  rw [run_formats_buffer (s := ⟨term ++ plainOf before, [[]], .buffer 0, some .terminal, true, [],
    false, 1⟩) (bs := []) (b := []) rfl rfl rfl h2 (Or.inl (by simp))]

/-- C76: `tex` without `Format` raises, whatever was printed. -/
theorem C76_tex_without_format (term : List Char) {before : List Cmd} (h1 : ∀ c ∈ before, IsPrint c) :
    (run (.init term) (before ++ [.tex])).2 = before.map (fun _ => .done) ++ [.attributeError] := by
  rw [run_append, run_prints_terminal rfl rfl h1]
  simp [run, step, State.tex, State.getvalue, State.init]

/-- The claim fails for a second document: after `tex`, `Format` does nothing any more, everything
printed goes to the terminal in plain form, and every further `tex` raises. -/
theorem C76_second_tex_raises (term : List Char) {before between after : List Cmd}
    (h1 : ∀ c ∈ before, IsPrint c) (h2 : ∀ c ∈ between, IsPrintOrFormat c)
    (h3 : ∀ c ∈ after, IsPrintOrFormat c) :
    (run (.init term) (before ++ [.format] ++ between ++ [.tex] ++ after ++ [.tex])).2 =
      before.map (fun _ => .done) ++ [.done] ++ between.map (fun _ => .done) ++
        [.doc (latexOf between)] ++ after.map (fun _ => .done) ++ [.attributeError] ∧
    (run (.init term) (before ++ [.format] ++ between ++ [.tex] ++ after ++ [.tex])).1.term =
      term ++ plainOf before ++ plainOf after := by
  rw [run_append, run_append, run_session term h1 h2]
  have := run_formats_terminal (s := ⟨term ++ plainOf before, [latexOf between], .terminal,
    some .terminal, false, latexOf between, false, 1⟩) rfl rfl (by simp) h3
  simp only [this]
  simp [run, step, State.tex, State.getvalue]

/-- A document made with `LatexFormat`: what is printed for it, and what is printed after it. -/
structure Session where
  inside : List Cmd
  outside : List Cmd
  inside_print : ∀ c ∈ inside, IsPrint c
  outside_print : ∀ c ∈ outside, IsPrint c

/-- The calls for a document made with `LatexFormat`. -/
def Session.calls (x : Session) : List Cmd := [.latexFormat false] ++ x.inside ++ [.tex] ++ x.outside

/-- The documents among the results. -/
def docs : List Res → List (List Char)
  | [] => []
  | .doc t :: rs => t :: docs rs
  | _ :: rs => docs rs

theorem docs_append (r t : List Res) : docs (r ++ t) = docs r ++ docs t := by
  induction r with
  | nil => rfl
  | cons a r ih => cases a <;> simp [docs, ih]

theorem docs_done (l : List Cmd) : docs (l.map fun _ => Res.done) = [] := by
  induction l with
  | nil => rfl
  | cons a l ih => rw [List.map_cons, docs, ih]; simp

/-- `[x0, x1 ++ … ]`: each text with the one before it. -/
def withPrevious : List Char → List (List Char) → List (List Char)
  | _, [] => []
  | p, x :: xs => (p ++ x) :: withPrevious x xs

theorem run_latexFormat {s : State} (ht : s.stdout = .terminal) (x : Session) :
    run s x.calls = (⟨s.term ++ plainOf x.outside, s.bufs ++ [latexOf x.inside], .terminal,
        some .terminal, false, latexOf x.inside, false, s.cnt⟩,
      [.done] ++ x.inside.map (fun _ => .done) ++ [.doc (s.str ++ latexOf x.inside)] ++
        x.outside.map (fun _ => .done)) := by
  have hinit : run s [.latexFormat false] =
      (⟨s.term, s.bufs ++ [[]], .buffer s.bufs.length, some .terminal, true, s.str, false, s.cnt⟩,
        [.done]) := by
    simp [run, step, State.latexFormat, State.redirect, ht]
  have hin : ∀ c ∈ x.inside, IsPrintOrFormat c := by
    intro c hc
    have := x.inside_print c hc
    cases c <;> simp_all [IsPrint, IsPrintOrFormat]
  rw [Session.calls, run_append, run_append, run_append, hinit]
  simp only
  rw [run_formats_buffer (bs := s.bufs) (b := []) rfl rfl rfl hin (Or.inr x.inside_print)]
  simp only [List.nil_append]
  have htex : run ⟨s.term, s.bufs ++ [latexOf x.inside], .buffer s.bufs.length, some .terminal, true,
      s.str, false, s.cnt⟩ [.tex] = (⟨s.term, s.bufs ++ [latexOf x.inside], .terminal,
        some .terminal, false, latexOf x.inside, false, s.cnt⟩,
      [.doc (s.str ++ latexOf x.inside)]) := by
    simp [run, step, State.tex, State.getvalue, State.restore]
  rw [htex]
  simp only
  rw [run_prints_terminal rfl rfl x.outside_print]

/-- The claim fails for documents made with `LatexFormat` one after the other: each document begins
with the text of the document before it. -/
theorem C76_repeated_text (term : List Char) (xs : List Session) :
    docs (run (.init term) (xs.map Session.calls).flatten).2 =
      withPrevious [] (xs.map fun x => latexOf x.inside) ∧
    (run (.init term) (xs.map Session.calls).flatten).1.term =
      term ++ (xs.map fun x => plainOf x.outside).flatten := by
  have key : ∀ (xs : List Session) (s : State), s.stdout = .terminal → s.flg = false →
      docs (run s (xs.map Session.calls).flatten).2 =
        withPrevious s.str (xs.map fun x => latexOf x.inside) ∧
      (run s (xs.map Session.calls).flatten).1.term =
        s.term ++ (xs.map fun x => plainOf x.outside).flatten := by
    intro xs
    induction xs with
    | nil => intro s _ _; simp [run, docs, withPrevious]
    | cons x xs ih =>
      intro s ht hf
      rw [List.map_cons, List.flatten_cons, run_append, run_latexFormat ht]
      obtain ⟨h1, h2⟩ := ih ⟨s.term ++ plainOf x.outside, s.bufs ++ [latexOf x.inside], .terminal,
        some .terminal, false, latexOf x.inside, false, s.cnt⟩ rfl rfl
      constructor
      · simp only [docs_append, docs_done, h1, withPrevious, List.map_cons]
        simp [docs]
      · simp only [h2]
        simp
  exact key xs (.init term) rfl rfl

/-- Two documents made with `LatexFormat`: the second one has the text of the first one. -/
example : docs (run (.init []) [.latexFormat false, .print ['a'] ['A'], .tex, .latexFormat false,
    .print ['b'] ['B'], .tex]).2 = [['A', '\n'], ['A', '\n', 'B', '\n']] := by decide +kernel

/-- The claim fails if `LatexFormat` is called twice before `tex`: what was printed between the two calls
is not in the document, and nothing printed after `tex` is seen on the terminal. -/
theorem C76_nested_counterexample (term : List Char) {first second after : List Cmd}
    (h1 : ∀ c ∈ first, IsPrint c) (h2 : ∀ c ∈ second, IsPrint c) (h3 : ∀ c ∈ after, IsPrint c) :
    docs (run (.init term) ([.latexFormat false] ++ first ++ [.latexFormat false] ++ second ++
      [.tex] ++ after)).2 = [latexOf second] ∧
    (run (.init term) ([.latexFormat false] ++ first ++ [.latexFormat false] ++ second ++
      [.tex] ++ after)).1.term = term := by
  have hP : ∀ {cs : List Cmd}, (∀ c ∈ cs, IsPrint c) → ∀ c ∈ cs, IsPrintOrFormat c := by
    intro cs h c hc
    have := h c hc
    cases c <;> simp_all [IsPrint, IsPrintOrFormat]
  have e1 : run (.init term) [.latexFormat false] =
      (⟨term, [[]], .buffer 0, some .terminal, true, [], false, 0⟩, [.done]) := by
    simp [run, step, State.latexFormat, State.redirect, State.init]
  have e2 : run ⟨term, [latexOf first], .buffer 0, some .terminal, true, [], false, 0⟩
      [.latexFormat false] =
      (⟨term, [latexOf first] ++ [[]], .buffer 1, some (.buffer 0), true, [], false, 0⟩,
        [.done]) := by
    simp [run, step, State.latexFormat, State.redirect]
  have e3 : run ⟨term, [latexOf first] ++ [latexOf second], .buffer 1, some (.buffer 0), true, [],
      false, 0⟩ [.tex] = (⟨term, [latexOf first] ++ [latexOf second], .buffer 0, some (.buffer 0),
        false, latexOf second, false, 0⟩, [.doc (latexOf second)]) := by
    simp [run, step, State.tex, State.getvalue, State.restore]
  have e4 : ∀ (cs : List Cmd) (s : State), s.stdout = .buffer 0 → (∀ c ∈ cs, IsPrint c) →
      (run s cs).1.term = s.term ∧ docs (run s cs).2 = [] := by
    intro cs
    induction cs with
    | nil => intro s _ _; simp [run, docs]
    | cons c cs ih =>
      intro s ht hc
      cases c with
      | print p l =>
        have := ih (step s (.print p l)).1 (by simp [step, State.print, State.write, ht])
          (fun c h => hc c (by simp [h]))
        rw [run]
        simp only
        refine ⟨this.1.trans (by simp [step, State.print, State.write, ht]), ?_⟩
        simp only [step, docs]
        exact this.2
      | _ => exact absurd (hc _ List.mem_cons_self) (by simp [IsPrint])
  rw [run_append, run_append, run_append, run_append, run_append, e1]
  simp only
  rw [run_formats_buffer (bs := []) (b := []) rfl rfl rfl (hP h1) (Or.inr h1)]
  simp only [List.nil_append]
  rw [e2]
  simp only
  rw [run_formats_buffer (bs := [latexOf first]) (b := []) rfl rfl rfl (hP h2) (Or.inr h2)]
  simp only [List.nil_append]
  rw [e3]
  simp only
  obtain ⟨h4, h5⟩ := e4 after ⟨term, [latexOf first] ++ [latexOf second], .buffer 0,
    some (.buffer 0), false, latexOf second, false, 0⟩ rfl h3
  refine ⟨?_, h4⟩
  simp only [docs_append, docs_done, h5]
  simp [docs]

/-- The hypotheses are met, and the results of a program with `Format`. -/
example : run (.init []) ([.print ['a'] ['A']] ++ [.format] ++ [.print ['b'] ['B'], .format,
      .print ['c'] ['C']] ++ [.tex] ++ [.print ['d'] ['D']]) =
    (⟨['a', '\n', 'd', '\n'], [['B', '\n', 'C', '\n']], .terminal, some .terminal, false,
        ['B', '\n', 'C', '\n'], false, 1⟩,
      [.done, .done, .done, .done, .done, .doc ['B', '\n', 'C', '\n'], .done]) := by decide +kernel

end GA.Capture
