import Verif.Spec.FmtList
import Verif.Proofs.TexLex
import Verif.Props.C91
import Mathlib.Order.Lattice
import Mathlib.Order.Defs.LinearOrder
import Mathlib.Algebra.Order.Group.Nat

/-!
# C92: lists and dictionaries in LaTeX, and titled objects as plain text

`fmt k row cells` models `Fmt(obj, fmt)` for a list, tuple or dictionary, and `oprint args` models `oprint(*args)`
(`Model/FmtList`).  `lex` are the tokens that TeX reads (`Spec/TexLex`); `Tex.Complete s` says that the text of a
cell does not change its meaning when something that does not begin with a letter follows.
-/

set_option maxRecDepth 10000

namespace GA.FmtList
open Tex (lex Closed Complete lexGo)

theorem fmt_row (k : Kind) {cells : List (List Char × List Char)} (hc : cells ≠ []) :
    fmt k true cells = " \\left ".toList ++ k.ldelim ++ " \\begin{array}{".toList ++
      List.replicate cells.length 'c' ++ "} ".toList ++ ", & ".toList.intercalate (cells.map (cellText k)) ++
      "\\\\ \\end{array} \\right ".toList ++ k.rdelim ++ " \n".toList := by
  have key : ∀ (cells : List (List Char × List Char)) (s : List Char), cells ≠ [] →
      cells.foldl (fun s cell => s ++ (cellText k cell ++ ", & ".toList)) s =
      s ++ ", & ".toList.intercalate (cells.map (cellText k)) ++ ", & ".toList := by
    intro cells
    induction cells with
    | nil => intro s h; exact absurd rfl h
    | cons c cells ih =>
      intro s _
      rw [List.foldl_cons]
      cases cells with
      | nil => simp [List.intercalate]
      | cons d cells =>
        rw [ih _ (by simp), List.map_cons, List.map_cons, List.map_cons,
          List.intercalate_cons_cons]
        simp only [List.append_assoc]
  rw [fmt]
  simp only [if_true]
  rw [key cells _ hc]
  congr 3
  generalize " \\left ".toList ++ k.ldelim ++ " \\begin{array}{".toList ++ List.replicate cells.length 'c' ++
    "} ".toList ++ ", & ".toList.intercalate (cells.map (cellText k)) = t
  rw [List.length_append, show (", & ".toList).length = 4 from rfl, Nat.add_sub_cancel, List.take_left]

theorem lex_cells {cs : List (List Char)} (h : ∀ c ∈ cs, Complete c) {b : List Char}
    (hb : ∀ c ∈ b.head?, c.isAlpha = false) :
    lex (", & ".toList.intercalate cs ++ b) = (chars ",&").intercalate (cs.map lex) ++ lex b := by
  induction cs with
  | nil => rfl
  | cons c cs ih =>
    cases cs with
    | nil => simpa [List.intercalate] using h c (List.mem_cons_self ..) b hb
    | cons d cs =>
      have hs : ∀ r, lex (", & ".toList ++ r) = chars ",&" ++ lex r := by
        intro r; simp [lex, lexGo, chars]
      rw [List.map_cons, List.map_cons, List.intercalate_cons_cons, List.intercalate_cons_cons,
        List.append_assoc, List.append_assoc, h c (List.mem_cons_self ..) _ (by simp), hs,
        ih fun x hx => h x (List.mem_cons_of_mem _ hx)]
      simp

theorem lex_columns (n : ℕ) (b : List Char) :
    lex (List.replicate n 'c' ++ b) = List.replicate n ['c'] ++ lex b := by
  induction n with
  | zero => rfl
  | succ n ih => rw [List.replicate_succ, List.cons_append, List.replicate_succ, List.cons_append, ← ih]; simp [lex, lexGo]

/-- C92: in format 1, TeX reads a list, tuple or dictionary with at least one element as an array with one
column for each element, between the delimiters. -/
theorem C92_row_partial (k : Kind) {cells : List (List Char × List Char)} (hc : cells ≠ [])
    (h : ∀ c ∈ cells, Complete (cellText k c)) :
    lex (fmt k true cells) = rowTokens k (cells.map fun c => lex (cellText k c)) := by
  have h1 : ∀ b, lex (" \\left ".toList ++ (k.ldelim ++ (" \\begin{array}{".toList ++ b))) =
      word "\\left" ++ (k.left ++ (word "\\begin" ++ (chars "{array}{" ++ lex b))) := by
    intro b; cases k <;> simp [lex, lexGo, word, chars, Kind.left, Kind.ldelim]
  have h2 : ∀ b, lex ("} ".toList ++ b) = chars "}" ++ lex b := by intro b; simp [lex, lexGo, chars]
  have h3 : lex ("\\\\ \\end{array} \\right ".toList ++ (k.rdelim ++ " \n".toList)) =
      word "\\\\" ++ (word "\\end" ++ (chars "{array}" ++ (word "\\right" ++ (k.right ++ chars "\n")))) := by
    cases k <;> simp [lex, lexGo, word, chars, Kind.right, Kind.rdelim]
  rw [fmt_row k hc, rowTokens]
  simp only [List.append_assoc]
  rw [h1, lex_columns, h2, lex_cells, h3, List.length_map, List.map_map]
  · rfl
  · intro c hx
    obtain ⟨x, hx', rfl⟩ := List.mem_map.mp hx
    exact h x hx'
  · simp

theorem fmt_column (k : Kind) (first last : List Char × List Char) (middle : List (List Char × List Char)) :
    fmt k false (first :: (middle ++ [last])) =
      "\\begin{array}{c} \\left ".toList ++ k.ldelim ++ [' '] ++ noNewline first.1 ++ ", \\right. \\\\ ".toList ++
      middle.flatMap (fun c => [' '] ++ noNewline c.1 ++ ", \\\\".toList) ++
      (" \\left. ".toList ++ noNewline last.1 ++ "\\right ".toList ++ k.rdelim ++ " \\\\ \\end{array}".toList) := by
  have key : ∀ (n i : ℕ) (s : List Char) (middle : List (List Char × List Char)), 1 < i → i + middle.length = n →
      (middle.foldl (fun acc cell => columnStep k n acc cell.1) (s, i)) =
        (s ++ middle.flatMap (fun c => [' '] ++ noNewline c.1 ++ ", \\\\".toList), n) := by
    intro n i s middle
    induction middle generalizing i s with
    | nil => intro _ h; simp at h; simp [h]
    | cons c middle ih =>
      intro h1 h2
      rw [List.length_cons] at h2
      have e : columnStep k n (s, i) c.1 = (s ++ ([' '] ++ noNewline c.1 ++ ", \\\\".toList), i + 1) := by
        rw [columnStep]
        dsimp only
        rw [if_neg (by omega), if_neg (by omega)]
      rw [List.foldl_cons, e, ih (i + 1) _ (by omega) (by omega), List.flatMap_cons, List.append_assoc]
  rw [fmt]
  simp only [Bool.false_eq_true, if_false]
  rw [List.foldl_cons, List.foldl_append, List.foldl_cons, List.foldl_nil]
  have e1 : ∀ n, columnStep k n ([], 1) first.1 = ([] ++ ("\\begin{array}{c} \\left ".toList ++ k.ldelim ++ [' '] ++
      noNewline first.1 ++ ", \\right. \\\\ ".toList), 2) := fun n => rfl
  rw [e1, key _ 2 _ middle (by omega) (by simp; omega), columnStep]
  dsimp only
  rw [if_neg (by simp), if_pos rfl]
  rfl

/-- C92: in the other format, TeX reads a list or tuple with at least two elements as an array with one line for
each element, whose delimiters are closed on each line. -/
theorem C92_column_partial (k : Kind) (first last : List Char × List Char)
    (middle : List (List Char × List Char))
    (h : ∀ c ∈ first :: (middle ++ [last]), Complete (noNewline c.1)) :
    lex (fmt k false (first :: (middle ++ [last]))) =
      columnTokens k (lex (noNewline first.1)) (middle.map fun c => lex (noNewline c.1)) (lex (noNewline last.1)) := by
  have h1 : ∀ b, lex ("\\begin{array}{c} \\left ".toList ++ (k.ldelim ++ ([' '] ++ b))) =
      word "\\begin" ++ (chars "{array}{c}" ++ (word "\\left" ++ (k.left ++ lex b))) := by
    intro b; cases k <;> simp [lex, lexGo, word, chars, Kind.left, Kind.ldelim]
  have h2 : ∀ b, lex (", \\right. \\\\ ".toList ++ b) =
      chars "," ++ (word "\\right" ++ (chars "." ++ (word "\\\\" ++ lex b))) := by
    intro b; simp [lex, lexGo, chars, word]
  have h3 : ∀ b, lex (", \\\\".toList ++ b) = chars "," ++ (word "\\\\" ++ lex b) := by
    intro b; simp [lex, lexGo, chars, word]
  have h4 : ∀ b, lex (" \\left. ".toList ++ b) = word "\\left" ++ (chars "." ++ lex b) := by
    intro b; simp [lex, lexGo, chars, word]
  have h5 : lex ("\\right ".toList ++ (k.rdelim ++ " \\\\ \\end{array}".toList)) =
      word "\\right" ++ (k.right ++ (word "\\\\" ++ (word "\\end" ++ chars "{array}"))) := by
    cases k <;> simp [lex, lexGo, word, chars, Kind.right, Kind.rdelim]
  have hm : ∀ (middle : List (List Char × List Char)) (b : List Char),
      (∀ c ∈ middle, Complete (noNewline c.1)) →
      lex (middle.flatMap (fun c => [' '] ++ (noNewline c.1 ++ ", \\\\".toList)) ++ b) =
        (middle.map fun c => lex (noNewline c.1)).flatMap (fun c => c ++ (chars "," ++ word "\\\\")) ++ lex b := by
    intro middle b hc
    induction middle with
    | nil => rfl
    | cons c middle ih =>
      rw [List.flatMap_cons, List.map_cons, List.flatMap_cons]
      simp only [List.append_assoc]
      rw [List.singleton_append, lex_blank, hc c (List.mem_cons_self ..) _ (by simp), h3,
        ih fun x hx => hc x (List.mem_cons_of_mem _ hx)]
  rw [fmt_column, columnTokens]
  simp only [List.append_assoc]
  rw [h1, h first (List.mem_cons_self ..) _ (by simp), h2, hm _ _ fun c hc => h c (by simp [hc]), h4,
    h last (by simp) _ (by simp), h5]

/-- C92: a row of a list or tuple contains its elements, and a row of a dictionary contains its keys and values,
each value after its key and a colon. -/
theorem C92_cells {a b : List Char} (ha : Complete a) (hn : '\n' ∉ a) (hn' : '\n' ∉ b) :
    cellText .list (a, b) = a ∧ cellText .tuple (a, b) = a ∧
    lex (cellText .dict (a, b)) = lex a ++ chars ":" ++ lex b := by
  have hc : ∀ s : List Char, '\n' ∉ s → noNewline s = s := by
    intro s hs
    rw [noNewline]
    conv_rhs => rw [← List.map_id s]
    exact List.map_congr_left fun c hc => if_neg fun (h : c = '\n') => hs (h ▸ hc)
  refine ⟨hc a hn, hc a hn, ?_⟩
  have : '\n' ∉ a ++ " : ".toList ++ b := by
    simp only [List.mem_append, not_or]; exact ⟨⟨hn, by decide⟩, hn'⟩
  rw [cellText, hc _ this, List.append_assoc, ha _ (by simp)]
  simp [lex, lexGo, chars]

/-- C92: a dictionary is printed in `dict_mode` with one line for each entry, in order: the key, an arrow and the
value. -/
theorem C92_dict_lines {entries : List (List Char × List Char)} (he : entries ≠ [])
    (hn : ∀ e ∈ entries, '\n' ∉ e.1 ∧ '\n' ∉ e.2) :
    splitOn '\n' (printDict entries) = entries.map fun e => e.1 ++ " -> ".toList ++ e.2 := by
  rw [printDict, ← GPrint.joinWith_eq, splitOn_joinWith (by simpa using he)]
  intro w hw
  obtain ⟨e, h, rfl⟩ := List.mem_map.mp hw
  simp only [List.mem_append, not_or]
  exact ⟨⟨(hn e h).1, by decide⟩, (hn e h).2⟩

/-- C92 fails for an empty list in format 1: the text `\begin{array` is never closed. -/
theorem C92_empty_counterexample (k : Kind) :
    fmt k true [] = " \\left ".toList ++ k.ldelim ++ " \\begin{array\\\\ \\end{array} \\right ".toList ++
      k.rdelim ++ " \n".toList := by cases k <;> rfl

/-- C92 fails for lists with one element in the other format: TeX reads `\begin` but no `\end`. -/
theorem C92_one_counterexample (k : Kind) (cell : List Char × List Char) :
    fmt k false [cell] = "\\begin{array}{c} \\left ".toList ++ k.ldelim ++ [' '] ++ noNewline cell.1 ++
      ", \\right. \\\\ ".toList := rfl

/-- C92 fails for dictionaries in the other format: the values are not printed. -/
theorem C92_dict_counterexample (entries : List (List Char × List Char)) (f : List Char → List Char) :
    fmt .dict false (entries.map fun e => (e.1, f e.2)) = fmt .dict false entries := by
  rw [fmt, fmt]
  simp [List.foldl_map]

/-! ### `oprint` -/

theorem titleWidth_entries {es : List Entry} (h : ∀ e ∈ es, e.ok) :
    titleWidth (pairs (es.flatMap Entry.args)) =
      some ((es.filterMap Entry.oneLine).foldr (fun t n => max t.length n) 0) := by
  induction es with
  | nil => rfl
  | cons e es ih =>
    have ih := ih fun x hx => h x (List.mem_cons_of_mem _ hx)
    have he := h e (List.mem_cons_self ..)
    cases e with
    | alone t => simp [Entry.args, pairs, titleWidth, ih, Arg.text]; rfl
    | one t s => simp [Entry.args, pairs, titleWidth, ih, Arg.text, Entry.oneLine, Arg.len, show '\n' ∉ s from he]
    | many t s => simp [Entry.args, pairs, titleWidth, ih, Arg.text, show '\n' ∈ s from he]; rfl

/-- C92: `oprint(title1, object1, title2, object2, ...)` prints every title with its object, in order; the texts of
one line follow an equality sign, and all equality signs are in the column after the longest title of
these. -/
theorem C92_oprint {es : List Entry} (hn : es ≠ []) (h : ∀ e ∈ es, e.ok) : ∃ n : ℕ,
    oprint (es.flatMap Entry.args) = some (es.flatMap (Entry.shown n)) ∧
    (∀ t ∈ es.filterMap Entry.oneLine, t.length ≤ n) ∧
    (n = 0 ∨ ∃ t ∈ es.filterMap Entry.oneLine, t.length = n) := by
  have key : ∀ (n : ℕ) (es : List Entry), (∀ e ∈ es, e.ok) →
      ((pairs (es.flatMap Entry.args)).mapM (printPair n)) = some (es.map (Entry.shown n)) := by
    intro n es h
    induction es with
    | nil => rfl
    | cons e es ih =>
      have ih := ih fun x hx => h x (List.mem_cons_of_mem _ hx)
      have he := h e (List.mem_cons_self ..)
      cases e with
      | alone t => simp [Entry.args, pairs, ih, Arg.text, printPair, Entry.shown]
      | one t s => simp [Entry.args, pairs, ih, Arg.text, printPair, Entry.shown, show '\n' ∉ s from he]
      | many t s => simp [Entry.args, pairs, ih, Arg.text, printPair, Entry.shown, show '\n' ∈ s from he]
  refine ⟨(es.filterMap Entry.oneLine).foldr (fun t n => max t.length n) 0, ?_, ?_, ?_⟩
  · have e : oprint (es.flatMap Entry.args) = (titleWidth (pairs (es.flatMap Entry.args))).bind fun n =>
        ((pairs (es.flatMap Entry.args)).mapM (printPair n)).map List.flatten := by
      obtain ⟨x, xs, rfl⟩ := List.exists_cons_of_ne_nil hn
      cases x <;> rfl
    rw [e, titleWidth_entries h, Option.bind_some, key _ _ h, Option.map_some]
    rfl
  · generalize es.filterMap Entry.oneLine = ts
    intro t ht
    induction ts with
    | nil => simp at ht
    | cons a ts ih =>
      rw [List.foldr_cons]
      rcases List.mem_cons.mp ht with rfl | ht
      · exact le_max_left _ _
      · exact (ih ht).trans (le_max_right _ _)
  · generalize es.filterMap Entry.oneLine = ts
    induction ts with
    | nil => exact Or.inl rfl
    | cons a ts ih =>
      rw [List.foldr_cons]
      rcases le_total a.length (ts.foldr (fun t n => max t.length n) 0) with hl | hl
      · rw [max_eq_right hl]
        refine ih.imp id ?_
        rintro ⟨t, ht, e⟩
        exact ⟨t, List.mem_cons_of_mem _ ht, e⟩
      · rw [max_eq_left hl]
        exact Or.inr ⟨a, List.mem_cons_self .., rfl⟩

/-- C92: a title at the end without an object is not printed. -/
theorem C92_last_title_counterexample (es : List Entry) (hn : es ≠ []) (t : List Char) :
    oprint (es.flatMap Entry.args ++ [.str t]) = oprint (es.flatMap Entry.args) := by
  have hp : pairs (es.flatMap Entry.args ++ [.str t]) = pairs (es.flatMap Entry.args) := by
    clear hn
    induction es with
    | nil => rfl
    | cons e es ih => cases e <;> simp [Entry.args, pairs, ih]
  obtain ⟨x, xs, rfl⟩ := List.exists_cons_of_ne_nil hn
  have e : ∀ l, oprint ((x :: xs).flatMap Entry.args ++ l) =
      (titleWidth (pairs ((x :: xs).flatMap Entry.args ++ l))).bind fun n =>
        ((pairs ((x :: xs).flatMap Entry.args ++ l)).mapM (printPair n)).map List.flatten := by
    intro l; cases x <;> rfl
  rw [e, hp]
  have := e []
  rw [List.append_nil] at this
  rw [this]

/-- C92: objects without titles are printed one after the other. -/
theorem C92_untitled (t : List Char) (xs : List Arg) :
    oprint (.obj t :: xs) = some (t ++ ['\n'] ++ xs.flatMap fun x => x.text.getD "None".toList ++ ['\n']) := rfl

/-! ### Examples -/

example : ∀ c ∈ [("x".toList, []), ("y^{2}".toList, ([] : List Char)), ("z".toList, [])],
    Complete (cellText .list c) := by
  intro c hc
  simp only [List.mem_cons, List.not_mem_nil, or_false] at hc
  rcases hc with rfl | rfl | rfl <;> exact (closed_of_plain (by decide)).complete
example : lex (cellText .dict ("x".toList, "y^{2}".toList)) = lex "x".toList ++ chars ":" ++ lex "y^{2}".toList :=
  (C92_cells (closed_of_plain (by decide)).complete (by decide) (by decide)).2.2
example : splitOn '\n' (printDict [("a".toList, "1".toList), ("b".toList, "2".toList)]) =
    ["a -> 1".toList, "b -> 2".toList] :=
  C92_dict_lines (by simp) (by decide)
example : fmt .list true [("x".toList, []), ("y^{2}".toList, [])] =
    " \\left [ \\begin{array}{cc} x, & y^{2}\\\\ \\end{array} \\right ] \n".toList := by decide
example : fmt .tuple false [("x".toList, []), ("y".toList, []), ("z".toList, [])] =
    "\\begin{array}{c} \\left ( x, \\right. \\\\  y, \\\\ \\left. z\\right ) \\\\ \\end{array}".toList := by decide
example : oprint [.str "e".toList, .obj "1".toList, .str "table".toList, .obj "a\nb".toList, .str "gamma".toList, .obj "2".toList] =
    some "e     = 1\ntable:\na\nb\ngamma = 2\n".toList := by decide

end GA.FmtList
