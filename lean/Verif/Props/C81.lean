import Verif.Proofs.Settings
import Verif.Props.C74

/-!
# C81: print settings and formats
-/

set_option linter.unusedSectionVars false
set_option maxRecDepth 10000

namespace GA
open Settings
variable {α : Type*} (shows : Kind → α → (String → Option Val) → Option (List Char))
  (join : Kind → List (List Char) → List Char) (sympy : Kind → SDict)

/-- C81: in every program, a text is made with the settings of the call, the last global settings that are
not `None`, the default ones, and for each formatted object inside of it with the format of that object.
`shows k a σ` is the text of the object `a` of galgebra or SymPy for settings `σ`, and `sympy` are the
default settings of the printers of SymPy. -/
theorem C81_text (cmds : List (Cmd α)) (k : Kind) (i : ℕ) (kw : SDict) {o : PObj α}
    (ho : (objsOf cmds)[i]? = some o) :
    (run shows join sympy (cmds ++ [.show k i kw])).outs
      = (run shows join sympy cmds).outs ++ [shown shows join sympy cmds k kw o] := by
  obtain ⟨e, he⟩ := show_spec shows join (Inv.run shows join sympy cmds) k i kw ho
  have : run shows join sympy (cmds ++ [.show k i kw])
      = step shows join (run shows join sympy cmds) (.show k i kw) := by
    simp [run]
  rw [this, he]

/-- C81: steps that make, format or print objects do not change the text of an object. -/
theorem C81_no_leak (cmds cmds' : List (Cmd α)) (k : Kind) (i : ℕ) (kw : SDict) {o : PObj α}
    (ho : (objsOf cmds)[i]? = some o)
    (hc : ∀ c ∈ cmds', (∀ v, c ≠ .fmt v) ∧ (∀ b f d, c ≠ .enhance b f d) ∧ ∀ f d v, c ≠ .format f d v) :
    (run shows join sympy (cmds ++ cmds' ++ [.show k i kw])).outs.getLast?
      = (run shows join sympy (cmds ++ [.show k i kw])).outs.getLast? := by
  have hasks : ∀ c ∈ cmds', c.asks = [] := by
    intro c hcm
    obtain ⟨h1, h2, h3⟩ := hc c hcm
    cases c with
    | fmt v => exact absurd rfl (h1 v)
    | enhance b f d => exact absurd rfl (h2 b f d)
    | format f d v => exact absurd rfl (h3 f d v)
    | new => rfl
    | list => rfl
    | mvFmt => rfl
    | mltFmt => rfl
    | «show» => rfl
  have has : assignments (cmds ++ cmds') = assignments cmds := by
    unfold assignments
    rw [List.flatMap_append, show cmds'.flatMap Cmd.asks = [] from by
      rw [List.flatMap_eq_nil_iff]; exact hasks, List.append_nil]
  have hobj : ∀ l : List (Cmd α), (objsOf (cmds ++ l))[i]? = some o := by
    intro l
    induction l using List.reverseRecOn with
    | nil => simpa using ho
    | append_singleton l c ih =>
      rw [← List.append_assoc, objsOf_snoc]
      rw [List.getElem?_append_left (List.getElem?_eq_some_iff.1 ih).1]
      exact ih
  rw [C81_text shows join sympy (cmds ++ cmds') k i kw (hobj cmds'),
    C81_text shows join sympy cmds k i kw ho]
  simp only [List.getLast?_append, List.getLast?_singleton, Option.some_or]
  unfold shown effective
  rw [has]

/-- C81: an object that got the format `v` is printed with it, whatever the global format and the format
of the call are. -/
theorem C81_object_format (cmds : List (Cmd α)) (k : Kind) (i : ℕ) (kw : SDict) (v : Val)
    (a : α) (ha : (objsOf cmds)[i]? = some (.leaf a)) (hv : v ≠ .none)
    (hkw : ∀ kv ∈ kw, ((k.defaults sympy).get? kv.1).isSome) (h : ℤ) :
    (run shows join sympy (cmds ++ [.mvFmt i v none, .fmt (.int h),
        .show k (objsOf cmds).length kw])).outs.getLast?
      = some (shows k a (override (effective (k.defaults sympy) cmds kw) "galgebra_mv_fmt" v)) := by
  have hm : objsOf (cmds ++ [.mvFmt i v none, .fmt (.int h)])
      = objsOf cmds ++ [.fmt "galgebra_mv_fmt" v (.leaf a)] := by
    rw [show cmds ++ [Cmd.mvFmt i v none, Cmd.fmt (.int h)]
      = cmds ++ [Cmd.mvFmt i v none] ++ [Cmd.fmt (.int h)] by simp, objsOf_snoc, objsOf_snoc]
    simp [Cmd.makes, formatted, ha, hv]
  rw [show cmds ++ [.mvFmt i v none, .fmt (.int h), .show k (objsOf cmds).length kw]
    = (cmds ++ [.mvFmt i v none, .fmt (.int h)]) ++ [.show k (objsOf cmds).length kw] by simp,
    C81_text shows join sympy (cmds ++ [Cmd.mvFmt i v none, Cmd.fmt (.int h)]) k
      (objsOf cmds).length kw (o := .fmt "galgebra_mv_fmt" v (.leaf a)) (by rw [hm]; simp)]
  have hc : ¬ ∃ kv ∈ kw, (k.defaults sympy).get? kv.1 = none := by
    rintro ⟨kv, hkv, hn⟩
    have := hkw kv hkv
    rw [hn] at this
    cases this
  simp only [List.getLast?_append, List.getLast?_singleton, Option.some_or, shown, if_neg hc]
  rw [textOf, textOf]
  congr 2
  funext key
  unfold override
  split_ifs with hk
  · rfl
  · have : lastValue (assignments (cmds ++ [.mvFmt i v none, .fmt (.int h)])) key
        = lastValue (assignments cmds) key := by
      rw [show cmds ++ [Cmd.mvFmt i v none, Cmd.fmt (.int h)]
        = cmds ++ [Cmd.mvFmt i v none] ++ [Cmd.fmt (.int h)] by simp, assignments_snoc,
        assignments_snoc]
      simp [Cmd.asks, Ne.symm hk, lastValue]
    unfold effective
    rw [this]

/-- C81: `Fmt(i)` sets the format of all later texts of objects without a format of their own. -/
theorem C81_global_format (cmds : List (Cmd α)) (k : Kind) (i : ℕ) (v : ℤ) (a : α)
    (ha : (objsOf cmds)[i]? = some (.leaf a)) :
    (run shows join sympy (cmds ++ [.fmt (.int v), .show k i []])).outs.getLast?
      = some (shows k a (override (effective (k.defaults sympy) cmds []) "galgebra_mv_fmt" (.int v))) := by
  have hm : objsOf (cmds ++ [.fmt (.int v)]) = objsOf cmds := by
    rw [objsOf_snoc]
    simp [Cmd.makes]
  rw [show cmds ++ [.fmt (.int v), .show k i []] = (cmds ++ [.fmt (.int v)]) ++ [.show k i []] by simp,
    C81_text shows join sympy (cmds ++ [Cmd.fmt (.int v)]) k i [] (o := .leaf a) (by rw [hm]; exact ha)]
  have hc : ¬ ∃ kv ∈ ([] : SDict), (k.defaults sympy).get? kv.1 = none := by
    rintro ⟨kv, hkv, -⟩
    cases hkv
  simp only [List.getLast?_append, List.getLast?_singleton, Option.some_or, shown, if_neg hc]
  rw [textOf]
  congr 2
  funext key
  have hl : lastValue (assignments (cmds ++ [.fmt (.int v)])) key
      = if "galgebra_mv_fmt" = key then some (.int v) else lastValue (assignments cmds) key := by
    rw [assignments_snoc, lastValue_append, show (Cmd.asks (.fmt (.int v) : Cmd α)).filter
      (fun kv => kv.2 ≠ .none) = [("galgebra_mv_fmt", .int v)] from by simp [Cmd.asks],
      lastValue_single]
    split_ifs <;> rfl
  unfold override effective
  rw [hl]
  by_cases hk : key = "galgebra_mv_fmt"
  · subst hk
    have hd : ∃ d, (k.defaults sympy).get? "galgebra_mv_fmt" = some d := by
      cases k
      · exact ⟨.int 1, rfl⟩
      · exact ⟨.int 1, rfl⟩
    obtain ⟨d, hd⟩ := hd
    simp [hd, lastValue]
  · rw [if_neg hk, if_neg (Ne.symm hk)]

/-- C81: `enhance_print(None, None, None)`, documented to disable colours, changes no text. -/
theorem C81_enhance_none (cmds : List (Cmd α)) (k : Kind) (i : ℕ) (kw : SDict) {o : PObj α}
    (ho : (objsOf cmds)[i]? = some o) :
    (run shows join sympy (cmds ++ [.enhance .none .none .none, .show k i kw])).outs.getLast?
      = (run shows join sympy (cmds ++ [.show k i kw])).outs.getLast? := by
  have hm : objsOf (cmds ++ [.enhance .none .none .none]) = objsOf cmds := by
    rw [objsOf_snoc]
    simp [Cmd.makes]
  rw [show cmds ++ [.enhance .none .none .none, .show k i kw]
    = (cmds ++ [.enhance .none .none .none]) ++ [.show k i kw] by simp,
    C81_text shows join sympy _ k i kw (hm ▸ ho), C81_text shows join sympy cmds k i kw ho]
  simp only [List.getLast?_append, List.getLast?_singleton, Option.some_or]
  have : assignments (cmds ++ [.enhance .none .none .none]) = assignments cmds := by
    rw [assignments_snoc]
    simp [Cmd.asks]
  unfold shown effective
  rw [this]

namespace Ex

/-- The texts of basis vectors with the settings of `GaPrinter` (printer.py:318-320), and of other objects
with format 1, 2 or 3. -/
def showBase (_ : Kind) (a : List Char) (get : String → Option Val) : Option (List Char) :=
  (get "basis_vector_color").map fun c => ansi [("blue", ['B'])] c a

/-- Lists. -/
def joinL (_ : Kind) (ts : List (List Char)) : List Char := ts.flatten

end Ex

/-- C81 fails for colours: after `enhance_print()` and `enhance_print(None, None, None)` the text of a
basis vector is still coloured. -/
theorem C81_colour_counterexample :
    (run Ex.showBase Ex.joinL (fun _ => [])
        [.new ['x'], .show .text 0 [], .enhance (.str "blue") (.str "red") (.str "cyan"),
          .enhance .none .none .none, .show .text 0 []]).outs
      = [some ['x'], some ("Bx".toList ++ "\x1b[0m".toList)] := by decide +kernel

/-- C81: a multivector that was given the format 1, 2 or 3 by its method `Fmt` is printed with one multivector, one
grade or one term per line, whatever the global format is and becomes. -/
theorem C81_object_layout {n : ℕ} {R : Type*} [CommRing R] [DecidableEq R] (g : Matrix (Fin n) (Fin n) R)
    (sh : R → Sym n → List Char) (join : Kind → List (List Char) → List Char) (sympy : Kind → SDict)
    (cmds : List (Cmd (Expr R n))) (k : Kind) (i : ℕ) (A : Expr R n) (ha : (objsOf cmds)[i]? = some (.leaf A))
    (f : ℕ) (hf : f = 1 ∨ f = 2 ∨ f = 3) (h : ℤ) :
    (run (fun _ => mvShows g sh) join sympy (cmds ++ [.mvFmt i (.int f) none, .fmt (.int h),
        .show k (objsOf cmds).length []])).outs.getLast? = some (mvStr g f sh A) := by
  rw [C81_object_format (fun _ => mvShows g sh) join sympy cmds k i [] (.int f) A ha (by simp) (by simp) h]
  rcases hf with rfl | rfl | rfl <;> rfl

/-- C81: `Fmt(1)`, `Fmt(2)` and `Fmt(3)` set the layout of all later texts of multivectors without a format of
their own. -/
theorem C81_global_layout {n : ℕ} {R : Type*} [CommRing R] [DecidableEq R] (g : Matrix (Fin n) (Fin n) R)
    (sh : R → Sym n → List Char) (join : Kind → List (List Char) → List Char) (sympy : Kind → SDict)
    (cmds : List (Cmd (Expr R n))) (k : Kind) (i : ℕ) (A : Expr R n) (ha : (objsOf cmds)[i]? = some (.leaf A))
    (f : ℕ) (hf : f = 1 ∨ f = 2 ∨ f = 3) :
    (run (fun _ => mvShows g sh) join sympy (cmds ++ [.fmt (.int f), .show k i []])).outs.getLast? =
      some (mvStr g f sh A) := by
  rw [C81_global_format (fun _ => mvShows g sh) join sympy cmds k i f A ha]
  rcases hf with rfl | rfl | rfl <;> rfl

/-- C81 for `GaLatexPrinter.latex` of a list, partially: the text has one line for each element, with the LaTeX text
that the element has in a call without settings. Missing: the settings of the call
(`C81_latex_list_counterexample`). -/
theorem C81_latex_list_partial (cmds : List (Cmd α)) (is : List ℕ) (os : List (PObj α))
    (ho : is.map (fun i => (objsOf cmds)[i]?) = os.map some) (kw : SDict) :
    latexList shows join (run shows join sympy cmds) is kw =
      (os.mapM fun o => shown shows join sympy cmds .latex [] o).map fun ts =>
        "\\begin{align*}".toList ++ (ts.map fun t => "\n & ".toList ++ t ++ " \\\\".toList).flatten ++
          "\n\\end{align*}".toList := by
  rw [latexList]
  congr 1
  induction is generalizing os with
  | nil =>
    cases os with
    | nil => rfl
    | cons o os => cases ho
  | cons i is ih =>
    cases os with
    | nil => cases ho
    | cons o os =>
      simp only [List.map_cons, List.cons.injEq] at ho
      obtain ⟨e, he⟩ := show_spec shows join (Inv.run shows join sympy cmds) .latex i [] ho.1
      rw [List.mapM_cons, List.mapM_cons, ih os ho.2, he]
      simp

/-- C81 fails for `GaLatexPrinter.latex` of a list: the settings of the call are not used, although they are for a
single object. -/
theorem C81_latex_list_counterexample :
    let cmds : List (Cmd (Expr ℚ 3)) := [.new [(2, .blade [0]), (3, .blade [0, 2])]]
    let s := run (fun _ => mvShows Ex.gO Ex.showTerm) Ex.joinL (fun _ => []) cmds
    let kw : SDict := [("galgebra_mv_fmt", .int 2)]
    latexList (fun _ => mvShows Ex.gO Ex.showTerm) Ex.joinL s [0] kw =
      some "\\begin{align*}\n & Iiix + Iiiixz \\\\\n\\end{align*}".toList ∧
    (step (fun _ => mvShows Ex.gO Ex.showTerm) Ex.joinL s (.show .latex 0 kw)).outs =
      [some " Iiix\n + Iiiixz".toList] := by
  decide +kernel

/-- C81 fails for the documented call `A.Fmt('2', 'A')`: the text of a multivector is the one of
format 1. -/
theorem C81_string_format_counterexample {n : ℕ} {R : Type*} [CommRing R] [DecidableEq R]
    (g : Matrix (Fin n) (Fin n) R) (sh : R → Sym n → List Char) (A : Expr R n)
    (σ : String → Option Val) (s : String) :
    mvShows g sh A (override σ "galgebra_mv_fmt" (.str s)) = mvStr g 1 sh A := rfl

-- the format of one object in a list of two is not the format of the other
example : (run (fun _ => mvShows Ex.gO Ex.showTerm) Ex.joinL (fun _ => [])
    [.new [(2, .blade [0]), (3, .blade [0, 2])], .mvFmt 0 (.int 2) (some ['A']), .list [1, 0],
      .show .text 2 []]).outs
    = [some ("A =  Iiix\n + Iiiixz".toList ++ "Iiix + Iiiixz".toList)] := by decide +kernel
-- `A.Fmt('2', 'A')`
example : (run (fun _ => mvShows Ex.gO Ex.showTerm) Ex.joinL (fun _ => [])
    [.new [(2, .blade [0]), (3, .blade [0, 2])], .mvFmt 0 (.str "2") (some ['A']),
      .show .text 1 []]).outs = [some "A = Iiix + Iiiixz".toList] := by decide +kernel
-- a setting that does not exist
example : (run Ex.showBase Ex.joinL (fun _ => [])
    [.new ['x'], .show .text 0 [("color", .none)]]).outs = [none] := by decide +kernel

end GA
