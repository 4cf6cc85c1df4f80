import Verif.Model.Session
import Verif.Model.Names

/-!
# The class `MV` of the module `galgebra.deprecated`

The class holds one algebra at a time.  Algebras are represented by their names, as in `Model/Session`.
-/

namespace GA

/-- A metric as it is given to `MV.setup` or passed on to `Ga`: `None`, a string, a list of integers, or
another object of type `α`. -/
inductive MetricVal (α : Type*)
  | none
  | text (s : List Char)
  | ints (l : List ℤ)
  | obj (a : α)
  deriving DecidableEq

/-- Python `int(s)`; `none` is the `ValueError`.  Simplification: blanks are the only white space, digits are
ASCII digits, and there are no underscores between digits. -/
def pyInt (s : List Char) : Option ℤ :=
  match strip s with
  | '-' :: d => (parseNat d).map fun k => -(k : ℤ)
  | '+' :: d => (parseNat d).map fun k => (k : ℤ)
  | d => (parseNat d).map fun k => (k : ℤ)

/-- deprecated.py:17-26 `MV.convert_metric`: `none` is an exception, `IndexError` for the empty string and
`ValueError` for an entry that is no integer. -/
def convertMetric {α : Type*} (s : List Char) : Option (MetricVal α) :=
  match s with
  | [] => none
  | c :: _ =>
    if c = '[' ∧ s.getLast? = some ']' then
      ((splitOn ',' (s.drop 1).dropLast).mapM pyInt).map .ints
    else some (.text s)

/-- The arguments of one call of `MV.setup` as far as they matter here: the metric, whether `coords` and the two
elements of `curv` are different from `None`, and how the call of `Ga` ends.  `rframe` is not used by the code. -/
structure MvSetup (α : Type*) where
  metric : MetricVal α
  coords : Bool
  curv : Bool × Bool
  build : Build

/-- deprecated.py:54-59: the argument `g` of `Ga`; `none` is an exception of `convert_metric`. -/
def MvSetup.gArg {α : Type*} (a : MvSetup α) : Option (MetricVal α) :=
  let m := match a.metric with
    | .text s => convertMetric s
    | m => some m
  m.map fun m => if a.curv = (false, false) then m else .none

/-- The class attributes, each with the name of the algebra it belongs to: `MV.GA`, `MV.I`, `MV.metric` and
`MV.grad`; `none` before the first assignment. -/
structure MvClass where
  session : Session
  ga : Option (List Char)
  i : Option (List Char)
  metric : Option (List Char)
  grad : Option (List Char)

/-- State after import. -/
def MvClass.init : MvClass := ⟨Session.init, none, none, none, none⟩

/-- What `MV.setup` returns: the basis vectors of an algebra, and with `coords` the gradient. -/
structure MvReturn where
  basis : List Char
  grad : Option (List Char)
  deriving DecidableEq

/-- Calls: `MV.setup`, or any other call that creates an algebra or sets the dual mode. -/
inductive MvEvent (α : Type*)
  | setup (a : MvSetup α)
  | other (e : Event)

/-- deprecated.py:28-66 `MV.setup`, and other calls: new state, and the value of a `setup` that returns. -/
def MvClass.step {α : Type*} (s : MvClass) : MvEvent α → MvClass × Option MvReturn
  | .other e => ({ s with session := (s.session.step e).1 }, none)
  | .setup a =>
    match a.gArg with
    | none => (s, none)
    | some _ =>
      let name := gaName s.session.count
      let r := s.session.build a.build
      if r.2 then
        (⟨r.1, some name, some name, some name, if a.coords then some name else s.grad⟩,
          some ⟨name, if a.coords then some name else none⟩)
      else ({ s with session := r.1 }, none)

/-- State after a sequence of calls. -/
def MvClass.run {α : Type*} (s : MvClass) (evs : List (MvEvent α)) : MvClass :=
  evs.foldl (fun s e => (s.step e).1) s

/-- deprecated.py:68-77 `MV(base, mvtype)`: the algebra of the new multivector; `none` is the `AttributeError`
before the first `setup`. -/
def MvClass.newMv (s : MvClass) : Option (List Char) := s.ga

end GA
