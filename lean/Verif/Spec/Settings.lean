import Verif.Model.Settings

/-!
# What the settings of a text are

A format belongs to the object that it was given to, and the global settings are the last ones that were
made.  Nothing here mentions printers or dictionaries.
-/

namespace GA.Settings
variable {α : Type*}

/-- An object together with the formats and labels it was given. -/
inductive PObj (α : Type*)
  | leaf (a : α)
  | fmt (key : String) (v : Val) (o : PObj α)
  | label (l : List Char) (o : PObj α)
  | list (os : List (PObj α))

/-- The settings `σ` with one of them replaced. -/
def override (σ : String → Option Val) (key : String) (v : Val) : String → Option Val :=
  fun k => if k = key then some v else σ k

mutual
/-- The text of an object for settings `σ`: inside of a formatted object, its format replaces the
setting. -/
def textOf (shows : α → (String → Option Val) → Option (List Char))
    (join : List (List Char) → List Char) (σ : String → Option Val) : PObj α → Option (List Char)
  | .leaf a => shows a σ
  | .fmt key v o => textOf shows join (override σ key v) o
  | .label l o => (textOf shows join σ o).map fun t => l ++ " = ".toList ++ t
  | .list os => (textsOf shows join σ os).map join
/-- The texts of the entries of a list. -/
def textsOf (shows : α → (String → Option Val) → Option (List Char))
    (join : List (List Char) → List Char) (σ : String → Option Val) :
    List (PObj α) → Option (List (List Char))
  | [] => some []
  | o :: os => do
    let t ← textOf shows join σ o
    let ts ← textsOf shows join σ os
    return t :: ts
end

/-- The global settings that a step of a program asks for. -/
def Cmd.asks : Cmd α → List (String × Val)
  | .fmt (.int i) => [("galgebra_mv_fmt", .int i)]
  | .fmt (.bool b) => [("galgebra_mv_fmt", .bool b)]
  | .enhance base fct deriv =>
    [("basis_vector_color", base), ("function_color", fct), ("derivative_color", deriv)]
  | .format fmode dmode inverse =>
    [("omit_function_args", fmode), ("omit_partial_derivative_fraction", dmode),
      ("inv_trig_style", inverse)]
  | _ => []

/-- The last value for `key` in a list of assignments. -/
def lastValue (l : List (String × Val)) (key : String) : Option Val :=
  ((l.filter fun kv => kv.1 = key).getLast?).map Prod.snd

/-- The assignments of a program that are not `None`. -/
def assignments (cmds : List (Cmd α)) : List (String × Val) :=
  (cmds.flatMap Cmd.asks).filter fun kv => kv.2 ≠ .none

/-- The settings of a text after the steps `cmds`: those of the call, or else the last ones of the
program, or else the default ones. -/
def effective (defaults : SDict) (cmds : List (Cmd α)) (kw : SDict) (key : String) : Option Val :=
  (defaults.get? key).map fun d =>
    (lastValue kw key).getD ((lastValue (assignments cmds) key).getD d)

/-- `x.Fmt(...)`: `x` itself with a format and a label; other objects than those of galgebra have no
method `Fmt`. -/
def formatted (objs : List (PObj α)) (i : ℕ) (f : PObj α → PObj α) (title : Option (List Char)) :
    List (PObj α) :=
  match objs[i]? with
  | some (.leaf a) => [match title with
    | none => f (.leaf a)
    | some l => .label l (f (.leaf a))]
  | _ => []

/-- The objects that a step adds to those that exist. -/
def Cmd.makes (objs : List (PObj α)) : Cmd α → List (PObj α)
  | .new a => [.leaf a]
  | .list is => ((is.mapM fun i => objs[i]?).map PObj.list).toList
  | .mvFmt i v title =>
    formatted objs i (fun o => if v = .none then o else .fmt "galgebra_mv_fmt" v o) title
  | .mltFmt i v title => formatted objs i (fun o => .fmt "galgebra_mlt_lcnt" v o) title
  | _ => []

/-- The objects of a program. -/
def objsOf (cmds : List (Cmd α)) : List (PObj α) :=
  cmds.foldl (fun objs c => objs ++ c.makes objs) []

/-- The text of an object after the steps `cmds`, for a call with settings `kw`; a setting that the printer
does not know is an exception. -/
def shown (shows : Kind → α → (String → Option Val) → Option (List Char))
    (join : Kind → List (List Char) → List Char) (sympy : Kind → SDict) (cmds : List (Cmd α))
    (k : Kind) (kw : SDict) (p : PObj α) : Option (List Char) :=
  if ∃ kv ∈ kw, (k.defaults sympy).get? kv.1 = none then none
  else textOf (shows k) (join k) (effective (k.defaults sympy) cmds kw) p

end GA.Settings
