import Verif.Model.Dict
import Verif.Model.Print
import Verif.Model.MvLatex

/-!
# Model of the settings of printers (galgebra/printer.py, mv.py and lt.py)

A printer has a dictionary of settings.  Dictionaries are mutable objects that printers, classes and
formatted objects could share, so they are kept on a heap, and a reference to one is its index.
Simplification: a `ChainMap` is one dictionary (only its first map is ever written, and `copy` copies
that one).
-/

namespace GA.Settings

/-- The value of a setting or of an argument. -/
inductive Val
  | none
  | bool (b : Bool)
  | int (i : ℤ)
  | str (s : String)
deriving DecidableEq, Repr

/-- A dictionary of settings. -/
abbrev SDict := Dict String Val

/-- Python `d.update(e)`. -/
def update (d e : SDict) : SDict := e.foldl (fun d kv => d.set kv.1 kv.2) d

/-- SymPy `Printer.set_global_settings(**kvs)`, which printer.py:251-255, 814-818 and 1210 call: a value
`None` is ignored. -/
def setGlobal (d kvs : SDict) : SDict :=
  kvs.foldl (fun d kv => if kv.2 = .none then d else d.set kv.1 kv.2) d

/-- The dictionaries of the program. -/
abbrev SHeap := List SDict

/-- The reference of `Printer._global_settings`; all classes of printers share this dictionary. -/
def globalRef : ℕ := 0

/-- The two printers: printer.py:269-301 `GaPrinter` and 404-442 `GaLatexPrinter`. -/
inductive Kind
  | text
  | latex
deriving DecidableEq, Repr

/-- The reference of the dictionary `_default_settings` of a class. -/
def Kind.defaultRef : Kind → ℕ
  | .text => 1
  | .latex => 2

/-- printer.py:295-301 with mv.py:41-43 and lt.py:31-33: the settings of `GaPrinter` that galgebra adds
to those of SymPy. -/
def textDefaults : SDict :=
  [("dict_mode", .bool false), ("derivative_color", .none), ("function_color", .none),
    ("basis_vector_color", .none), ("galgebra_mv_fmt", .int 1), ("galgebra_mlt_lcnt", .int 1)]

/-- printer.py:438-442 with mv.py:38-40 and lt.py:28-30: the settings of `GaLatexPrinter` that galgebra
adds to those of SymPy or changes. -/
def latexDefaults : SDict :=
  [("mat_str", .str "array"), ("omit_function_args", .bool false),
    ("omit_partial_derivative_fraction", .bool false), ("inv_trig_style", .str "abbreviated"),
    ("galgebra_mv_fmt", .int 1), ("galgebra_mlt_lcnt", .int 1)]

/-- SymPy `Printer.__init__(settings)`, for printer.py:165, 363, 365, 367, 766, 785: a copy of the default
settings, with the global ones among them, and then those of the call.  Result: the reference of the
new dictionary; `none`: an unknown setting (`TypeError`). -/
def newPrinter (k : Kind) (kw : SDict) (h : SHeap) : Option ℕ × SHeap :=
  let new := h.length
  let h := h ++ [h.getD k.defaultRef []]
  let h := (h.getD globalRef []).foldl (fun h kv =>
    if ((h.getD k.defaultRef []).get? kv.1).isSome then h.set new ((h.getD new []).set kv.1 kv.2)
    else h) h
  let h := h.set new (update (h.getD new []) kw)
  (if (h.getD k.defaultRef []).length < (h.getD new []).length then none else some new, h)

/-- Objects that are printed: an object of galgebra or SymPy, printer.py:1216-1229 `_WithSettings` with a
reference to its dictionary, 1232-1246 `_FmtResult` with a label, and lists. -/
inductive Obj (α : Type*)
  | leaf (a : α)
  | settings (ref : ℕ) (o : Obj α)
  | label (l : List Char) (o : Obj α)
  | list (os : List (Obj α))

variable {α : Type*}

mutual
/-- The method `_print` of a printer whose settings are the dictionary `r`.  `shows a get` is the text of
an object of galgebra or SymPy for settings that are read by `get` (`none`: an exception), and
`join` the text of a list.  The dictionaries after the call are part of the result. -/
def print (shows : α → (String → Option Val) → Option (List Char))
    (join : List (List Char) → List Char) : Obj α → ℕ → SHeap → Option (List Char) × SHeap
  | .leaf a, r, h => (shows a (h.getD r []).get?, h)
  -- printer.py:1222-1227 `__do_print`
  | .settings d o, r, h =>
    let new := h.length
    let h := h ++ [h.getD r []]
    let h := h.set new (update (h.getD new []) (h.getD d []))
    print shows join o new h
  -- printer.py:1242-1246
  | .label l o, r, h =>
    let p := print shows join o r h
    (p.1.map fun t => l ++ " = ".toList ++ t, p.2)
  | .list os, r, h =>
    let p := printList shows join os r h
    (p.1.map join, p.2)
/-- SymPy prints the entries of a list one after the other, with the same printer. -/
def printList (shows : α → (String → Option Val) → Option (List Char))
    (join : List (List Char) → List Char) : List (Obj α) → ℕ → SHeap → Option (List (List Char)) × SHeap
  | [], _, h => (some [], h)
  | o :: os, r, h =>
    let p := print shows join o r h
    match p.1 with
    | none => (none, p.2)
    | some t =>
      let q := printList shows join os r p.2
      (q.1.map (t :: ·), q.2)
end

/-- printer.py:1234-1240 `_FmtResult(obj, label)`. -/
def fmtResult (o : Obj α) : Option (List Char) → Obj α
  | none => o
  | some l => .label l o

/-- What a program does with settings and texts. -/
inductive Cmd (α : Type*)
  /-- an object of galgebra or SymPy -/
  | new (a : α)
  /-- `[x, y, ...]` for objects that exist -/
  | list (is : List ℕ)
  /-- `printer.Fmt(v)` -/
  | fmt (v : Val)
  /-- `enhance_print(base, fct, deriv)` -/
  | enhance (base fct deriv : Val)
  /-- `Format(Fmode, Dmode, inverse)` -/
  | format (fmode dmode inverse : Val)
  /-- `x.Fmt(fmt, title)` for a multivector or differential operator `x` -/
  | mvFmt (i : ℕ) (fmt : Val) (title : Option (List Char))
  /-- `x.Fmt(lcnt, title)` for a multilinear function `x` -/
  | mltFmt (i : ℕ) (lcnt : Val) (title : Option (List Char))
  /-- `repr(x)`, `print(x)`, `latex(x, **kw)` or `ostr(x, **kw)` -/
  | show (k : Kind) (i : ℕ) (kw : SDict)

/-- The dictionaries, the objects and the texts of a program. -/
structure State (α : Type*) where
  heap : SHeap
  objs : List (Obj α)
  outs : List (Option (List Char))

/-- The default settings of a class; `sympy` are those of the printers of SymPy. -/
def Kind.defaults (sympy : Kind → SDict) : Kind → SDict
  | .text => textDefaults ++ sympy .text
  | .latex => latexDefaults ++ sympy .latex

/-- The state after `import galgebra`. -/
def start (sympy : Kind → SDict) : State α :=
  ⟨[[], Kind.text.defaults sympy, Kind.latex.defaults sympy], [], []⟩

/-- Assignment of global settings. -/
def State.setGlobal (s : State α) (kvs : SDict) : State α :=
  { s with heap := s.heap.set globalRef (Settings.setGlobal (s.heap.getD globalRef []) kvs) }

/-- `printer._FmtResult(printer._WithSettings(x, dict(key=v)), title)` for the object `i`. -/
def State.wrap (s : State α) (i : ℕ) (key : String) (v : Val) (title : Option (List Char)) : State α :=
  match s.objs[i]? with
  -- a method of the object; the results of `Fmt` and lists have no method `Fmt` (`AttributeError`)
  | some (.leaf a) =>
    { s with
      heap := s.heap ++ [[(key, v)]]
      objs := s.objs ++ [fmtResult (.settings s.heap.length (.leaf a)) title] }
  | _ => s

/-- One step of a program; a step that raises an exception changes nothing but the texts. -/
def step (shows : Kind → α → (String → Option Val) → Option (List Char))
    (join : Kind → List (List Char) → List Char) (s : State α) : Cmd α → State α
  | .new a => { s with objs := s.objs ++ [.leaf a] }
  | .list is =>
    match is.mapM fun i => s.objs[i]? with
    | some os => { s with objs := s.objs ++ [.list os] }
    | none => s
  -- printer.py:1209-1213 `Fmt`; in Python `True` is a number
  | .fmt (.int i) => s.setGlobal [("galgebra_mv_fmt", .int i)]
  | .fmt (.bool b) => s.setGlobal [("galgebra_mv_fmt", .bool b)]
  | .fmt _ => s
  -- printer.py:242-255 `enhance_print`
  | .enhance base fct deriv => s.setGlobal
      [("function_color", fct), ("derivative_color", deriv), ("basis_vector_color", base)]
  -- printer.py:814-818 `Format`
  | .format fmode dmode inverse => s.setGlobal
      [("omit_partial_derivative_fraction", dmode), ("omit_function_args", fmode),
        ("inv_trig_style", inverse)]
  -- mv.py:1303-1307, 1971-1975 `Fmt`
  | .mvFmt i .none title =>
    match s.objs[i]? with
    | some (.leaf a) => { s with objs := s.objs ++ [fmtResult (.leaf a) title] }
    | _ => s
  | .mvFmt i v title => s.wrap i "galgebra_mv_fmt" v title
  -- lt.py:765-766 `Fmt`
  | .mltFmt i v title => s.wrap i "galgebra_mlt_lcnt" v title
  | .show k i kw =>
    match s.objs[i]? with
    | none => s
    | some o =>
      match newPrinter k kw s.heap with
      | (none, h) => { s with heap := h, outs := s.outs ++ [none] }
      | (some r, h) =>
        let p := print (shows k) (join k) o r h
        { s with heap := p.2, outs := s.outs ++ [p.1] }

/-- A program. -/
def run (shows : Kind → α → (String → Option Val) → Option (List Char))
    (join : Kind → List (List Char) → List Char) (sympy : Kind → SDict) (cmds : List (Cmd α)) :
    State α := cmds.foldl (step shows join) (start sympy)

/-- printer.py:761-771 `GaLatexPrinter.latex([x, y, ...], **settings)` for the objects `is`: the elements are printed with
calls `latex(x)`.  Simplification: every element is printed in the same state (printing changes no settings). -/
def latexList (shows : Kind → α → (String → Option Val) → Option (List Char))
    (join : Kind → List (List Char) → List Char) (s : State α) (is : List ℕ) (_settings : SDict) :
    Option (List Char) :=
  (is.mapM fun i => ((step shows join s (.show .latex i [])).outs.getLast?).join).map fun ts =>
    "\\begin{align*}".toList ++ (ts.map fun t => "\n & ".toList ++ t ++ " \\\\".toList).flatten ++
      "\n\\end{align*}".toList

/-- printer.py:235-239 `_apply_ansi_color(color, text)`; `colors` is the table `_ansi_colors`.  A colour
that is neither a name nor `None` is used as it is. -/
def ansi (colors : Dict String (List Char)) (color : Val) (text : List Char) : List Char :=
  match color with
  | .str s => (colors.get? s).getD s.toList ++ text ++ "\x1b[0m".toList
  | _ => text

variable {n : ℕ} {R : Type*} [CommRing R] [DecidableEq R]

/-- mv.py:653-667: the tests `fmt == 3` and `fmt == 2` on a setting. -/
def fmtCase : Val → ℕ
  | .int 2 => 2
  | .int 3 => 3
  | _ => 1

/-- mv.py:611-675: the text of a multivector for the settings of a printer. -/
def mvShows (g : Matrix (Fin n) (Fin n) R) (shows : R → Sym n → List Char) (args : Expr R n)
    (get : String → Option Val) : Option (List Char) :=
  (get "galgebra_mv_fmt").bind fun v => mvStr g (fmtCase v) shows args

end GA.Settings
