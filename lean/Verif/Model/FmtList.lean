import Mathlib.Data.List.Basic

/-!
# Lists and dictionaries in print

Model of `Fmt`, `oprint` and the printing of dictionaries in `galgebra/printer.py`.  Texts of the objects in a list
or dictionary are given.
-/

namespace GA.FmtList

/-- The collections that `Fmt` prints. -/
inductive Kind
  | list
  | tuple
  | dict
  deriving DecidableEq, Repr

/-- The left delimiter (printer.py:1163-1171). -/
def Kind.ldelim : Kind → List Char
  | .list => ['[']
  | .dict => ['\\', '{']
  | .tuple => ['(']

/-- The right delimiter (printer.py:1163-1171). -/
def Kind.rdelim : Kind → List Char
  | .list => [']']
  | .dict => ['\\', '}']
  | .tuple => [')']

/-- Python `s.replace('\n', ' ')`. -/
def noNewline (s : List Char) : List Char := s.map fun c => if c = '\n' then ' ' else c

/-- The text of a cell of a row (printer.py:1175-1182): for a dictionary the key and the value. -/
def cellText (k : Kind) (cell : List Char × List Char) : List Char :=
  noNewline (match k with
    | .dict => cell.1 ++ " : ".toList ++ cell.2
    | _ => cell.1)

/-- The loop variables of printer.py:1192-1204. -/
def columnStep (k : Kind) (n : ℕ) (acc : List Char × ℕ) (cell : List Char) : List Char × ℕ :=
  let latexCell := noNewline cell
  if acc.2 = 1 then
    (acc.1 ++ ("\\begin{array}{c} \\left ".toList ++ k.ldelim ++ [' '] ++ latexCell ++ ", \\right. \\\\ ".toList), acc.2 + 1)
  else if acc.2 = n then
    (acc.1 ++ (" \\left. ".toList ++ latexCell ++ "\\right ".toList ++ k.rdelim ++ " \\\\ \\end{array}".toList), acc.2 + 1)
  else (acc.1 ++ ([' '] ++ latexCell ++ ", \\\\".toList), acc.2 + 1)

/-- `Fmt(obj, fmt)` (printer.py:1160-1207) for a list, tuple or dictionary outside of a notebook; `row` says
whether `fmt == 1`.  `cells` are the LaTeX texts of the elements, or of the keys and values of a
dictionary; for lists the second components are not used. -/
def fmt (k : Kind) (row : Bool) (cells : List (List Char × List Char)) : List Char :=
  let n := cells.length
  if row then
    let latexStr := " \\left ".toList ++ k.ldelim ++ " \\begin{array}{".toList ++ List.replicate n 'c' ++ "} ".toList
    let latexStr := cells.foldl (fun s cell => s ++ (cellText k cell ++ ", & ".toList)) latexStr
    latexStr.take (latexStr.length - 4) ++ "\\\\ \\end{array} \\right ".toList ++ k.rdelim ++ " \n".toList
  else (cells.foldl (fun acc cell => columnStep k n acc cell.1) ([], 1)).1

/-- The text of a dictionary in `dict_mode` (printer.py:346-353). -/
def printDict (entries : List (List Char × List Char)) : List Char :=
  ['\n'].intercalate (entries.map fun e => e.1 ++ " -> ".toList ++ e.2)

/-- An argument of `oprint`: `None`, a string, or another object with its text `ostr(obj)`. -/
inductive Arg
  | none
  | str (s : List Char)
  | obj (text : List Char)
  deriving DecidableEq, Repr

/-- The text `ostr(obj)` of an argument that is not `None`. -/
def Arg.text : Arg → Option (List Char)
  | .none => Option.none
  | .str s => some s
  | .obj t => some t

/-- `args[0::2]` and `args[1::2]`, zipped (printer.py:196-201, 208). -/
def pairs : List Arg → List (Arg × Arg)
  | t :: x :: args => (t, x) :: pairs args
  | _ => []

/-- `len(title)`; `none` is a `TypeError`. -/
def Arg.len : Arg → Option ℕ
  | .str s => some s.length
  | _ => Option.none

/-- The largest length of a title whose object has a text of one line (printer.py:202-206). -/
def titleWidth : List (Arg × Arg) → Option ℕ
  | [] => some 0
  | (t, x) :: ps =>
    (titleWidth ps).bind fun n =>
      match x.text with
      | some s => if '\n' ∈ s then some n else t.len.map fun l => max l n
      | Option.none => some n

/-- What is printed for a title and an object (printer.py:208-216), for titles that are strings or `None`; `none` is
a `TypeError`. -/
def printPair (n : ℕ) (p : Arg × Arg) : Option (List Char) :=
  match p.2.text with
  | Option.none =>
    match p.1 with
    | .none => some "None\n".toList
    | .str t => some (t ++ ['\n'])
    | .obj t => some (t ++ ['\n'])
  | some s =>
    match p.1 with
    | .str t =>
      if '\n' ∈ s then some (t ++ ":\n".toList ++ s ++ ['\n'])
      else some (t ++ List.replicate (n - t.length) ' ' ++ " = ".toList ++ s ++ ['\n'])
    | _ => Option.none

/-- `oprint(*args)` (printer.py:183-219); `none` is an exception. -/
def oprint (args : List Arg) : Option (List Char) :=
  match args with
  | [] => Option.none
  | .obj _ :: _ => some (args.flatMap fun x => (x.text.getD "None".toList) ++ ['\n'])
  | _ =>
    let ps := pairs args
    (titleWidth ps).bind fun n => (ps.mapM (printPair n)).map List.flatten

end GA.FmtList
