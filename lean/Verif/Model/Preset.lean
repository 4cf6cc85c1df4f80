import Verif.Model.Session

/-!
# Model of `Ga.preset`, `Ga.grad_sqr` (galgebra/ga.py), `Mv.Grad` (galgebra/mv.py) and `Simp.applymv` (galgebra/metric.py)

Only what decides whether the calls return is modelled: which names and attributes exist, and in which order they are looked
up.  The names are those of the source files.
-/

namespace GA

/-- The Python exceptions that occur here. -/
inductive LookupErr
  | valueError
  | nameError (name : List Char)
  | attributeError (name : List Char)
  | typeError (keyword : List Char)
  deriving DecidableEq

def isIdChar (c : Char) : Bool := c.isAlphanum || c == '_'

/-- The maximal runs of letters, digits and underscores of a text. -/
def idRuns : List Char → List Char → List (List Char)
  | run, [] => if run.isEmpty then [] else [run.reverse]
  | run, c :: s =>
    if isIdChar c then idRuns (c :: run) s
    else if run.isEmpty then idRuns [] s else run.reverse :: idRuns [] s

/-- The identifiers of a Python expression without strings, attributes and comprehensions, from left to right. -/
def identifiers (s : List Char) : List (List Char) :=
  (idRuns [] s).filter fun w => match w with
    | c :: _ => !c.isDigit
    | [] => false

/-- Python's `eval` of such an expression, as far as names are concerned: every identifier is looked up, the first one that
is not in scope raises `NameError`. -/
def evalNames (scope : List (List Char)) (s : List Char) : Except LookupErr Unit :=
  match (identifiers s).find? fun w => !scope.contains w with
  | some w => .error (.nameError w)
  | none => .ok ()

/-- ga.py:571-574 `Ga.presets`. -/
def presets : List (List Char × List Char) :=
  [("o3d".toList, "x,y,z:[1,1,1]:[1,1,0]".toList),
   ("cyl3d".toList, "r,theta,z:[1,r**2,1]:[1,1,0]:norm=True".toList),
   ("sph3d".toList, "r,theta,phi:[1,X[0]**2,X[0]**2*cos(X[1])**2]:[1,1,0]:norm=True".toList),
   ("para3d".toList, "u,v,z:[u**2+v**2,u**2+v**2,1]:[1,1,0]:norm=True".toList)]

/-- The names that are needed to look at a class or module: what its source defines. -/
structure Names where
  /-- attributes of the class -/
  attrs : List (List Char)
  /-- global names of the module and built-in names -/
  globals : List (List Char)
  /-- keywords that the constructor accepts -/
  keywords : List (List Char)

/-- ga.py:640-644: the additional keyword arguments of an entry. -/
def presetKeywords (scope : List (List Char)) : List (List Char) → Except LookupErr (List (List Char))
  | [] => .ok []
  | arg :: l =>
    match splitOn '=' arg with
    | [name, value] => do
      evalNames scope value
      let names ← presetKeywords scope l
      return name :: names
    | _ => .error .valueError

/-- ga.py:628-647 `Ga.preset`: the names of the coordinates and the keywords of the algebra that is returned. -/
def preset (N : Names) (setting : List Char) : Except LookupErr (List (List Char) × List (List Char)) :=
  match presets.lookup setting with
  | none => .error .valueError
  | some entry => do
    let setLst := splitOn ':' entry
    -- names in scope of `eval`: the local variables so far and the globals
    let locals := ["setting", "root", "debug", "set_lst", "X"].map String.toList
    let X := splitOn ',' (setLst.getD 0 [])
    evalNames (locals ++ N.globals) (setLst.getD 1 [])
    evalNames ("g".toList :: (locals ++ N.globals)) (setLst.getD 2 [])
    let kwargs := ["g", "coords", "debug", "I", "gsym"].map String.toList
    let more ← if 3 < setLst.length then
        presetKeywords (["g", "simps", "args", "kwargs"].map String.toList ++ (locals ++ N.globals))
          (splitOn ';' (setLst.getLastD []))
      else .ok []
    if !N.attrs.contains "set_simp".toList then .error (.attributeError "set_simp".toList)
    else match (kwargs ++ more).find? fun w => !N.keywords.contains w with
      | some w => .error (.typeError w)
      | none => .ok (X, kwargs ++ more)

/-- ga.py:2061-2112 `Ga.grad_sqr`: the first statement looks up `Ga.DopFop`; `rest` is what follows. -/
def gradSqr {α : Type*} (N : Names) (rest : Except LookupErr α) : Except LookupErr α :=
  if !N.attrs.contains "DopFop".toList then .error (.attributeError "DopFop".toList) else rest

/-- mv.py:1203-1216 `Mv.Grad`: `self.Ga.Diff` is looked up first; `rest` is what follows. -/
def mvGrad {α : Type*} (N : Names) (rest : Except LookupErr α) : Except LookupErr α :=
  if !N.attrs.contains "Diff".toList then .error (.attributeError "Diff".toList) else rest

/-- metric.py:315-317 `Simp.applymv`: the name `Mv` is looked up first; `rest` is what follows. -/
def applymv {α : Type*} (globals : List (List Char)) (rest : Except LookupErr α) : Except LookupErr α :=
  if !globals.contains "Mv".toList then .error (.nameError "Mv".toList) else rest

end GA
