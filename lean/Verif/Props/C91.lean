import Verif.Proofs.GPrint

/-!
# C91: formulas printed with `gprint` and documents made with `gxpdf`

The model is `Model/GPrint`; `State.gprint s interactive xs` is the call `gprint(*xs)`, where `interactive` says
whether it is made in a notebook; `none` is an exception.  `xs.map Item.escape` are the arguments `xs` with
every percent sign in a string written twice; strings without percent signs are not changed by this.
`formula flg xs` are the lines that should be shown (`Spec/GPrint`).
-/

set_option maxRecDepth 10000

namespace GA.GPrint

/-- C91: strings without percent signs need no change. -/
theorem C91_escape {s : List Char} (h : '%' ∉ s) : escape s = s := by
  induction s with
  | nil => rfl
  | cons c s ih =>
    rw [List.mem_cons, not_or] at h
    rw [escape_cons, if_neg (Ne.symm h.1), ih h.2]
    rfl

/-- C91: with LaTeX turned on, `gprint` adds the lines of the formula to the document, each as an
equation, in order. -/
theorem C91_latex {s : State} (hf : s.flg = true) {xs : List Item} (hx : ∀ x ∈ xs, x.ok) :
    s.gprint false (xs.map Item.escape) =
      some { s with str := s.str ++ equations (formula true xs) } := by
  rw [State.gprint]
  simp only [hf, if_true, Bool.false_eq_true, if_false]
  rw [gprint_text false true hx, Option.map_some, equations,
    ← intercalate_equations '\n' (formula_ne_nil true xs)]
  simp only [sepOf, Bool.false_eq_true, if_false, List.append_assoc]
  rfl

theorem formula_one (flg : Bool) {x : Item} {xs : List Item}
    (h : ∀ t, .text t ∈ xs → ¬ ['\\', '\\'] <:+: t) :
    formula flg (x :: xs) = [(x :: xs).flatMap (Item.meaning flg)] := by
  rw [formula_cons]
  have : ∀ (xs : List Item) (a : List Char), (∀ t, .text t ∈ xs → ¬ ['\\', '\\'] <:+: t) →
      xs.foldl (fun L y => glue L (itemLines flg y)) [a] = [a ++ xs.flatMap (Item.meaning flg)] := by
    intro xs
    induction xs with
    | nil => intro a _; simp
    | cons y xs ih =>
      intro a h
      have e : itemLines flg y = [y.meaning flg] := by
        cases y with
        | text t => exact breakLines_of_not_infix (h t (List.mem_cons_self ..))
        | _ => rfl
      rw [List.foldl_cons, e, glue, ih _ fun t ht => h t (List.mem_cons_of_mem _ ht)]
      simp
  rw [this xs _ h]
  rfl

/-- C91: without LaTeX, `gprint` prints its arguments one after the other on one line, if no string after
the first argument contains two backslashes. -/
theorem C91_plain_partial {s : State} (interactive : Bool) (hf : s.flg = false) {x : Item} {xs : List Item}
    (hx : ∀ y ∈ x :: xs, y.ok) (h : ∀ t, .text t ∈ xs → ¬ ['\\', '\\'] <:+: t) :
    s.gprint interactive ((x :: xs).map Item.escape) =
      some { s with term := s.term ++ ((x :: xs).flatMap (Item.meaning false) ++ ['\n']) } := by
  rw [State.gprint]
  simp only [hf, Bool.false_eq_true, if_false]
  rw [gprint_text interactive false hx, Option.map_some, formula_one false h]
  simp [List.intercalate]

theorem addLast_splitOn {c : Char} {t : List Char} (ht : c ∉ t) (s : List Char) :
    addLast t (splitOn c s) = splitOn c (s ++ t) := by
  induction s with
  | nil => rw [List.nil_append, splitOn_of_not_mem ht]; rfl
  | cons a s ih =>
    rw [List.cons_append, splitOn, splitOn, ← ih]
    split_ifs with ha
    · cases hs : splitOn c s with
      | nil => exact absurd hs (splitOn_ne_nil c s)
      | cons w ws => rfl
    · cases hs : splitOn c s with
      | nil => exact absurd hs (splitOn_ne_nil c s)
      | cons w ws => cases ws <;> rfl

theorem addFirst_splitOn {c : Char} {t : List Char} (ht : c ∉ t) (s : List Char) :
    addFirst t (splitOn c s) = splitOn c (t ++ s) := by
  induction t with
  | nil => rw [List.nil_append]; cases hs : splitOn c s <;> rfl
  | cons a t ih =>
    rw [List.mem_cons, not_or] at ht
    rw [List.cons_append, splitOn, if_neg (Ne.symm ht.1), ← ih ht.2]
    cases hs : splitOn c s with
    | nil => exact absurd hs (splitOn_ne_nil c s)
    | cons w ws => rfl

theorem joinWith_eq (c : Char) (L : List (List Char)) : joinWith c L = [c].intercalate L := by
  induction L with
  | nil => rfl
  | cons a L ih =>
    cases L with
    | nil => simp [joinWith, List.intercalate]
    | cons b L => rw [joinWith, ih, List.intercalate_cons_cons]; simp; simp

/-- C91: in a notebook, `gprint` displays a formula of one line as it is and each line of a longer formula
as an equation, if no line contains the sign `@`. -/
theorem C91_notebook_partial {s : State} (hf : s.flg = true) {xs : List Item} (hx : ∀ x ∈ xs, x.ok)
    (ha : ∀ l ∈ formula true xs, '@' ∉ l) :
    s.gprint true (xs.map Item.escape) =
      some { s with shown := s.shown ++
        if (formula true xs).length = 1 then formula true xs else (formula true xs).map equation } := by
  rw [State.gprint]
  simp only [hf, if_true]
  rw [gprint_text true true hx, Option.map_some]
  have hne := formula_ne_nil true xs
  revert hne ha
  generalize formula true xs = L
  intro ha hne
  obtain ⟨l, L, rfl⟩ := List.exists_cons_of_ne_nil hne
  cases L with
  | nil =>
    have : '@' ∉ l := ha l (List.mem_cons_self ..)
    simp [List.intercalate, this]
  | cons l' L =>
    rw [if_pos, if_neg (by simp), addFirst_splitOn (by decide), addLast_splitOn (by decide)]
    · have : sepOf true = endEq ++ ['@'] ++ beginEq := rfl
      rw [this, intercalate_equations '@' (by simp), ← joinWith_eq, splitOn_joinWith (by simp)]
      intro w hw
      obtain ⟨v, hv, rfl⟩ := List.mem_map.mp hw
      have h1 : '@' ∉ beginEq := by decide
      have h2 : '@' ∉ endEq := by decide
      rw [equation_eq]
      simp only [List.mem_append, not_or]
      exact ⟨⟨h1, ha v hv⟩, h2⟩
    · rw [List.intercalate_cons_cons]
      have : '@' ∈ sepOf true := by decide
      simp [this]

/-! ### Documents -/

section document
variable {preamble argv0 term : List Char}

theorem gxpdf_fields (s : State) (preamble argv0 : List Char) (canOpen : List Char → Bool) (a : PdfArgs) :
    (s.gxpdf preamble argv0 canOpen a).flg = s.flg ∧ (s.gxpdf preamble argv0 canOpen a).cnt = s.cnt ∧
      (s.gxpdf preamble argv0 canOpen a).str = [] := by
  rw [State.gxpdf]
  dsimp only
  split_ifs <;> exact ⟨rfl, rfl, rfl⟩

/-- C91: LaTeX is turned on exactly after a call of `gFormat`, and nothing is collected before. -/
theorem C91_flag (h : List Call) :
    (((State.init term).run false preamble argv0 h).flg = true ↔ .gFormat ∈ h) ∧
    (((State.init term).run false preamble argv0 h).cnt = 0 ↔ .gFormat ∉ h) ∧
    (.gFormat ∉ h → ((State.init term).run false preamble argv0 h).str = []) := by
  induction h using List.reverseRecOn with
  | nil => simp [State.run, State.init]
  | append_singleton h c ih =>
    obtain ⟨h1, h2, h3⟩ := ih
    rw [State.run, List.foldl_append, List.foldl_cons, List.foldl_nil, ← State.run]
    cases c with
    | gFormat =>
      rw [State.call, State.gFormat]
      split_ifs with hc
      · simp
      · have : Call.gFormat ∈ h := by by_contra hn; exact hc (h2.mpr hn)
        simp [hc, h1.mpr this]
    | gprint xs =>
      rw [State.call]
      have key : ∀ (s t : State), s.gprint false xs = some t →
          t.flg = s.flg ∧ t.cnt = s.cnt ∧ (s.flg = false → t.str = s.str) := by
        intro s t ht
        rw [State.gprint] at ht
        dsimp only at ht
        cases hs : s.flg with
        | true =>
          simp only [hs, if_true, Bool.false_eq_true, if_false] at ht
          obtain ⟨u, -, rfl⟩ := Option.map_eq_some_iff.mp ht
          exact ⟨rfl, rfl, fun h => by simp at h⟩
        | false =>
          simp only [hs, Bool.false_eq_true, if_false] at ht
          obtain ⟨u, -, rfl⟩ := Option.map_eq_some_iff.mp ht
          exact ⟨rfl, rfl, fun _ => rfl⟩
      cases hg : State.gprint ((State.init term).run false preamble argv0 h) false xs with
      | none => simpa using ⟨h1, h2, h3⟩
      | some t =>
        obtain ⟨k1, k2, k3⟩ := key _ _ hg
        rw [Option.getD_some, k1, k2]
        refine ⟨by simpa using h1, by simpa using h2, fun hn => ?_⟩
        have hn' : Call.gFormat ∉ h := by simpa using hn
        rw [k3 (by rw [Bool.eq_false_iff]; exact fun h' => hn' (h1.mp h')), h3 hn']
    | printFunction src =>
      rw [State.call, State.printFunction]
      split_ifs with hc
      · refine ⟨by simpa using h1, by simpa using h2, fun hn => ?_⟩
        exact absurd (h1.mp hc) (by simpa using hn)
      · exact ⟨by simpa using h1, by simpa using h2, fun hn => h3 (by simpa using hn)⟩
    | gxpdf canOpen a =>
      rw [State.call]
      obtain ⟨k1, k2, k3⟩ := gxpdf_fields ((State.init term).run false preamble argv0 h) preamble argv0 canOpen a
      rw [k1, k2, k3]
      exact ⟨by simpa using h1, by simpa using h2, fun _ => rfl⟩

theorem run_acts {s : State} (hf : s.flg = true) (hc : s.cnt ≠ 0) {acts : List Act} (ho : ∀ x ∈ acts, x.ok) :
    s.run false preamble argv0 (acts.map Act.toCall) = { s with str := s.str ++ acts.flatMap Act.content } := by
  induction acts generalizing s with
  | nil => simp [State.run]
  | cons x acts ih =>
    rw [List.map_cons, State.run, List.foldl_cons, ← State.run]
    have hx : State.call false preamble argv0 s x.toCall = { s with str := s.str ++ x.content } := by
      cases x with
      | format => simp [State.call, Act.toCall, State.gFormat, hc, Act.content]
      | print xs =>
        rw [Act.toCall, State.call, C91_latex hf (ho _ (List.mem_cons_self ..))]
        rfl
      | source src => rw [Act.toCall, State.call, State.printFunction, if_pos hf]; rfl
    rw [hx, ih (s := { s with str := s.str ++ x.content }) hf hc fun y hy => ho y (List.mem_cons_of_mem _ hy)]
    simp

/-- C91: the document that `gxpdf` writes contains, in order, everything that was printed since `gFormat`
was first called or since the last call of `gxpdf`, and nothing else. -/
theorem C91_document {h : List Call}
    (hh : (∃ h0 c b, h = h0 ++ [.gxpdf c b] ∧ .gFormat ∈ h0) ∨ ∃ h0, h = h0 ++ [.gFormat] ∧ .gFormat ∉ h0)
    {acts : List Act} (ho : ∀ x ∈ acts, x.ok) {canOpen : List Char → Bool} {a : PdfArgs}
    (hw : canOpen (fileNames argv0 a.filename).2.1 = true) :
    ((State.init term).run false preamble argv0 (h ++ acts.map Act.toCall ++ [.gxpdf canOpen a])).files =
      ((State.init term).run false preamble argv0 h).files ++ [((fileNames argv0 a.filename).2.1,
        paperFormat a.paper a.pt a.documentclass ++ preamble ++ acts.flatMap Act.content ++
          "\\end{document}".toList)] := by
  have hs : ((State.init term).run false preamble argv0 h).str = [] := by
    rcases hh with ⟨h0, c, b, rfl, -⟩ | ⟨h0, rfl, hn⟩
    · rw [State.run, List.foldl_append, List.foldl_cons, List.foldl_nil, State.call]
      exact (gxpdf_fields ..).2.2
    · rw [State.run, List.foldl_append, List.foldl_cons, List.foldl_nil, State.call, ← State.run,
        State.gFormat]
      split_ifs <;> exact (C91_flag (preamble := preamble) (argv0 := argv0) h0).2.2 hn
  have hm : Call.gFormat ∈ h := by
    rcases hh with ⟨h0, c, b, rfl, h1⟩ | ⟨h0, rfl, -⟩
    · simp [h1]
    · simp
  have hi := C91_flag (term := term) (preamble := preamble) (argv0 := argv0) h
  have key := run_acts (preamble := preamble) (argv0 := argv0) (hi.1.mpr hm)
    (fun h0 => hi.2.1.mp h0 hm) ho
  rw [State.run, List.foldl_append, List.foldl_append, List.foldl_cons, List.foldl_nil, ← State.run,
    ← State.run, key, State.call, State.gxpdf]
  dsimp only
  rw [if_pos hw, hs, List.nil_append]

/-- C91: `gxpdf(filename=…)` with a name that ends in `.tex` and does not contain `.tex` before: the PDF file has
the same name with `.pdf`. -/
theorem C91_names_partial {root : List Char} (h : ¬ ".tex".toList <:+: root) :
    fileNames argv0 (some (root ++ ".tex".toList)) = (root, root ++ ".tex".toList, root ++ ".pdf".toList) := by
  have key : ∀ (new root : List Char), ¬ ".tex".toList <:+: root →
      strReplace ".tex".toList new 0 (root ++ ".tex".toList) = root ++ new := by
    intro new root h
    induction root with
    | nil => simp [strReplace, List.isPrefixOf]
    | cons c root ih =>
      rw [List.cons_append, strReplace, if_neg, ih fun h' => h (h'.trans (List.suffix_cons _ _).isInfix)]
      · rfl
      · intro hp
        rw [List.isPrefixOf_iff_prefix, ← List.cons_append] at hp
        apply h
        by_cases hl : 4 ≤ (c :: root).length
        · exact ((List.prefix_of_prefix_length_le hp (List.prefix_append _ _)) (by simpa using hl)).isInfix
        · exfalso
          obtain ⟨r, hr⟩ := hp
          rcases root with _ | ⟨d, _ | ⟨e, _ | ⟨f, root⟩⟩⟩
          · simp at hr
          · simp at hr
          · simp at hr
          · simp at hl
  rw [fileNames]
  rw [key _ _ h, key _ _ h, List.append_nil]

/-- C91: the header of a document has the font size and the class, and the size of the paper unless it is
`'letter'`. -/
theorem C91_header {paper : Paper} {pt cls : List Char} (hc : '@' ∉ cls)
    (hp : ∀ w h w1 h1, paper = .size w h w1 h1 → '@' ∉ w ∧ '@' ∉ h ∧ '@' ∉ w1 ∧ '@' ∉ h1) :
    paperFormat paper pt cls =
      "\n\\documentclass[".toList ++ pt ++ ",fleqn]{".toList ++ cls ++ "}\n".toList ++
      match paper with
      | .letter => []
      | .landscape => "\\usepackage[vcentering]{geometry}\n\\geometry{papersize={11in,8.5in},total={10in,7.5in}}\n".toList
      | .size w h w1 h1 => "\\usepackage[vcentering]{geometry}\n\\geometry{papersize={".toList ++ w ++ "in,".toList ++ h ++
          "in},total={".toList ++ w1 ++ "in,".toList ++ h1 ++ "in}}\n".toList := by
  have skip : ∀ (a r : List Char), '@' ∉ a →
      strReplace "@10pt@".toList pt 0 (a ++ r) = a ++ strReplace "@10pt@".toList pt 0 r := by
    intro a r ha
    induction a with
    | nil => rfl
    | cons c a ih =>
      rw [List.mem_cons, not_or] at ha
      rw [List.cons_append, strReplace, if_neg, ih ha.2]
      · rfl
      · have h1 : ('@' == c) = false := by simpa using ha.1
        simp [List.isPrefixOf, h1]
  have hit : ∀ r : List Char, strReplace "@10pt@".toList pt 0 ("@10pt@".toList ++ r) =
      pt ++ strReplace "@10pt@".toList pt 0 r := by
    intro r
    simp [strReplace, List.isPrefixOf]
  have all : ∀ b : List Char, '@' ∉ b →
      strReplace "@10pt@".toList pt 0 ("\n\\documentclass[".toList ++ ("@10pt@".toList ++ b)) =
        "\n\\documentclass[".toList ++ (pt ++ b) := by
    intro b hb
    rw [skip _ _ (by decide), hit]
    have := skip b [] hb
    rw [List.append_nil] at this
    rw [this]
    simp [strReplace]
  have first : "\n\\documentclass[@10pt@,fleqn]{".toList =
      "\n\\documentclass[".toList ++ ("@10pt@".toList ++ ",fleqn]{".toList) := by decide
  cases paper with
  | letter =>
    rw [paperFormat]
    dsimp only
    rw [first]
    simp only [List.append_assoc]
    rw [all _ (by simp only [List.mem_append, not_or]; exact ⟨by decide, hc, by decide⟩)]
    simp only [List.append_nil]
  | landscape =>
    rw [paperFormat]
    dsimp only
    rw [first]
    simp only [List.append_assoc]
    rw [all _ (by
      simp only [List.mem_append, not_or]
      exact ⟨by decide, hc, by decide, by decide, by decide, by decide, by decide, by decide, by decide,
        by decide, by decide, by decide, by decide⟩)]
    rfl
  | size w h w1 h1 =>
    obtain ⟨q1, q2, q3, q4⟩ := hp w h w1 h1 rfl
    rw [paperFormat]
    dsimp only
    rw [first]
    simp only [List.append_assoc]
    rw [all _ (by
      simp only [List.mem_append, not_or]
      exact ⟨by decide, hc, by decide, by decide, by decide, q1, by decide, q2, by decide,
        q3, by decide, q4, by decide⟩)]
    have e : "\\usepackage[vcentering]{geometry}\n\\geometry{papersize={".toList =
        "\\usepackage[vcentering]{geometry}\n".toList ++ "\\geometry{papersize={".toList := by decide
    rw [e]
    simp only [List.append_assoc]

/-- C91: if the file can be written, `gxpdf` runs the program on the file that it has written, then shows the PDF
file of the same name, unless this is turned off; without a program it runs nothing, and with `debug` it does
not run the program. -/
theorem C91_commands {s : State} {preamble argv0 : List Char} {canOpen : List Char → Bool} {a : PdfArgs}
    {root : List Char} (hf : a.filename = some (root ++ ".tex".toList)) (hr : ¬ ".tex".toList <:+: root)
    (hw : canOpen (root ++ ".tex".toList) = true) :
    ∃ run clean, (s.gxpdf preamble argv0 canOpen a).cmds =
        s.cmds ++ run ++ (if a.evince = true ∧ a.pdfprog ≠ none then [["evince".toList, root ++ ".pdf".toList]] else []) ++ clean ∧
      (∀ prog, a.pdfprog = some prog → a.debug = false → ∃ opts, run = [prog :: (root ++ ".tex".toList) :: opts]) ∧
      (a.pdfprog = none ∨ a.debug = true → run = []) ∧
      (a.pdfprog = none ∨ a.rm = false → clean = []) ∧ ∀ c ∈ clean, c.head? = some "rm".toList := by
  rw [State.gxpdf]
  dsimp only
  rw [hf, C91_names_partial hr]
  dsimp only
  rw [if_pos hw]
  dsimp only
  rw [pdfCommands]
  cases hp : a.pdfprog with
  | none => exact ⟨[], [], by simp, by simp, by simp, by simp, by simp⟩
  | some prog =>
    refine ⟨if a.debug then [] else if a.null then [[prog, root ++ ".tex".toList, " > /dev/null".toList]]
        else [[prog, root ++ ".tex".toList]],
      if a.rm then
        if a.debug then [["rm".toList, root ++ ".aux ".toList, root ++ ".log".toList]]
        else [["rm".toList, root ++ ".aux ".toList, root ++ ".log ".toList, root ++ ".tex".toList]]
      else [], ?_, ?_, ?_, ?_, ?_⟩
    rotate_left
    · intro p h hd
      cases h
      rw [hd, if_neg Bool.false_ne_true]
      by_cases hn : a.null = true
      · exact ⟨_, if_pos hn⟩
      · exact ⟨[], if_neg hn⟩
    · rintro (h | h)
      · simp at h
      · rw [h, if_pos rfl]
    · rintro (h | h)
      · simp at h
      · rw [h, if_neg Bool.false_ne_true]
    · intro c hc
      split_ifs at hc
      · rw [List.mem_singleton] at hc; rw [hc]; rfl
      · rw [List.mem_singleton] at hc; rw [hc]; rfl
      · simp at hc
    · have : (a.evince = true ∧ some prog ≠ none) = (a.evince = true) :=
        propext ⟨And.left, fun h => ⟨h, Option.some_ne_none _⟩⟩
      simp only [this, List.append_assoc]

end document

/-! ### Where the code does something else -/

/-- C91 fails for a percent sign at the end of a string before an object: `gprint('100%', A)` raises an
exception. -/
theorem C91_percent_object_counterexample (A : List Char) :
    (State.init []).gprint false [.text "100%".toList, .obj A A] = none := by
  simp [State.gprint, State.init, collect, collectItem, pyFormat, fmtGo]

/-- C91 fails for a percent sign in a string: `gprint('100%')` raises an exception. -/
theorem C91_percent_counterexample :
    (State.init []).gprint false [.text "100%".toList] = none ∧
    (State.init []).gFormat.gprint false [.text "100%".toList] = none := by decide

/-- C91 fails for a percent sign in a string: in `gprint('50% sure ', A)` the text of `A` is used up by the
percent sign, so the call raises an exception. -/
theorem C91_percent_sure_counterexample (A : List Char) :
    (State.init []).gprint false [.text "50% sure ".toList, .obj A A] = none := by
  simp [State.gprint, State.init, collect, collectItem, pyFormat, fmtGo]

/-- C91 fails without LaTeX: two backslashes in a string print LaTeX commands on the terminal. -/
theorem C91_plain_counterexample :
    ((State.init []).gprint false [.text "a".toList, .text "b\\\\c".toList]).map State.term =
      some "ab\\end{equation*}\n\\begin{equation*} c\n".toList := by decide

/-- C91 fails in a notebook for strings with the sign `@`: the displayed formulas begin or end an equation
but do not do both. -/
theorem C91_notebook_counterexample :
    ((State.init []).gFormat.gprint true [.text "u@v".toList]).map State.shown =
      some ["\\begin{equation*} u".toList, "v\\end{equation*}".toList] := by decide

/-- C91: if the file cannot be opened, everything that was printed is lost: the next document does not contain
it. -/
theorem C91_failed_write_counterexample : ∃ calls : List Call, ∃ canOpen,
    ((State.init []).run false [] [] (.gFormat :: .gprint [.text ['x']] :: calls)).files.map Prod.fst =
      ["b.tex".toList] ∧
    calls = [.gxpdf canOpen { filename := some "a.tex".toList }, .gxpdf canOpen { filename := some "b.tex".toList }] ∧
    ∀ f ∈ ((State.init []).run false [] [] (.gFormat :: .gprint [.text ['x']] :: calls)).files,
      f.2 = paperFormat (.size "14".toList "11".toList "13".toList "10".toList) "10pt".toList "book".toList ++
        "\\end{document}".toList :=
  ⟨[.gxpdf (fun f => f = "b.tex".toList) { filename := some "a.tex".toList },
    .gxpdf (fun f => f = "b.tex".toList) { filename := some "b.tex".toList }],
    fun f => f = "b.tex".toList, by decide, rfl, by decide⟩

/-- C91 fails for directories whose names contain `.tex` or `.py`: the names of the files are wrong. -/
theorem C91_names_counterexample :
    (fileNames [] (some "my.texts/a.tex".toList)).2.2 = "my.pdfts/a.pdf".toList ∧
    (fileNames "my.python/a.py".toList none).2.1 = "mython/a.tex".toList := by decide

/-- C91: with its defaults `gxpdf` deletes the TeX file and tries to delete files whose names end with a
blank, so the files that pdflatex makes besides remain. -/
theorem C91_remove_counterexample (root tex pdf prog : List Char) (a : PdfArgs) (h : a.pdfprog = some prog)
    (hp : prog ≠ "rm".toList) (hr : a.rm = true) (hd : a.debug = false) :
    ["rm".toList, root ++ ".aux ".toList, root ++ ".log ".toList, root ++ ".tex".toList] ∈ pdfCommands root tex pdf a ∧
    ∀ c ∈ pdfCommands root tex pdf a, c.head? = some "rm".toList →
      c = ["rm".toList, root ++ ".aux ".toList, root ++ ".log ".toList, root ++ ".tex".toList] := by
  rw [pdfCommands, h]
  dsimp only
  rw [hr, hd, if_pos rfl, if_neg Bool.false_ne_true, if_neg Bool.false_ne_true]
  refine ⟨List.mem_append_right _ (List.mem_singleton_self _), fun c hc hh => ?_⟩
  rw [List.mem_append, List.mem_append] at hc
  rcases hc with (hc | hc) | hc
  · exfalso
    split_ifs at hc
    · rw [List.mem_singleton] at hc
      rw [hc, List.head?_cons, Option.some.injEq] at hh
      exact hp hh
    · rw [List.mem_singleton] at hc
      rw [hc, List.head?_cons, Option.some.injEq] at hh
      exact hp hh
  · exfalso
    split_ifs at hc
    · rw [List.mem_singleton] at hc
      rw [hc, List.head?_cons, Option.some.injEq] at hh
      exact absurd hh (by decide)
    · exact List.not_mem_nil hc
  · exact List.mem_singleton.mp hc

/-! ### Examples -/

/-- `gprint('A = ', A, '\\\\100% ', int)` -/
def exItems : List Item :=
  [.text "A = ".toList, .obj "x^{2}".toList "x**2".toList, .text "\\\\100% ".toList, .type "int".toList]

example : ∀ x ∈ exItems, x.ok := by
  intro x hx
  simp only [exItems, List.mem_cons, List.not_mem_nil, or_false] at hx
  rcases hx with rfl | rfl | rfl | rfl <;> simp [Item.ok]
example : formula true exItems = ["A =  x^{2} ".toList, "100%  \\text{int} ".toList] := by decide
example : ((State.init []).gFormat.gprint false (exItems.map Item.escape)).map State.str =
    some "\\begin{equation*} A =  x^{2} \\end{equation*}\n\\begin{equation*} 100%  \\text{int} \\end{equation*} \n".toList := by
  decide
example : ∀ l ∈ formula true exItems, '@' ∉ l := by decide
example : (((State.init []).run false "P".toList "prog.py".toList
    [.gprint [.text "lost".toList], .gFormat, .gprint [.text "x".toList], .gxpdf (fun _ => true) {},
      .gFormat, .gprint [.text "y".toList], .gxpdf (fun _ => true) { paper := .letter }]).files.map Prod.snd).getLast? =
    some "\n\\documentclass[10pt,fleqn]{book}\nP\\begin{equation*} y\\end{equation*} \n\\end{document}".toList := by
  decide
example : ¬ ".tex".toList <:+: "out/report".toList := by decide

end GA.GPrint
