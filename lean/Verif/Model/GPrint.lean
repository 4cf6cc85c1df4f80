import Verif.Model.Session
import Verif.Model.SymbolTex

/-!
# Printing formulas and writing documents

Model of `galgebra/gprinter.py`: `gFormat`, `gprint`, `gPrint_Function`, `gxpdf` and `paper_format`.
-/

namespace GA.GPrint

/-- An argument of `gprint`: a string, a Python type with its text `str(xi)`, or another object with its
texts `latex(xi)` and `str(xi)`. -/
inductive Item
  | text (s : List Char)
  | type (s : List Char)
  | obj (latex str : List Char)
  deriving DecidableEq, Repr

/-- Python `fmt % args` for a tuple of strings; `conv` says that a `%` and perhaps some flags have been
read.  `none` is an exception.  Simplification: for widths, precisions and conversions other than `%s` and
`%%` the result is `none`; Python raises an exception for most of them. -/
def fmtGo : Bool → List Char → List (List Char) → Option (List Char)
  | false, [], [] => some []
  | false, [], _ :: _ => none
  | true, [], _ => none
  | false, c :: s, xs => if c = '%' then fmtGo true s xs else (fmtGo false s xs).map (c :: ·)
  | true, c :: s, xs =>
    if c = '%' then (fmtGo false s xs).map ('%' :: ·)
    else if c ∈ [' ', '#', '0', '-', '+'] then fmtGo true s xs
    else if c = 's' then
      match xs with
      | [] => none
      | x :: xs => (fmtGo false s xs).map (x ++ ·)
    else none

/-- Python `fmt % args`. -/
def pyFormat (fmt : List Char) (args : List (List Char)) : Option (List Char) := fmtGo false fmt args

def endEq : List Char := "\\end{equation*}".toList
def beginEq : List Char := "\\begin{equation*} ".toList

/-- The body of the loop of `gprint` (gprinter.py:153-178) for the argument number `i`; the accumulator are
the variables `fstr` and `x`. -/
def collectItem (interactive flg : Bool) (acc : List Char × List (List Char)) (p : Item × ℕ) :
    List Char × List (List Char) :=
  match p.1 with
  | .text xi =>
    if ['\\', '\\'] <:+: xi ∧ p.2 > 0 then
      (acc.1 ++ strReplace ['\\', '\\']
        (if interactive then endEq ++ ['@'] ++ beginEq else endEq ++ ['\n'] ++ beginEq) 0 xi, acc.2)
    else (acc.1 ++ xi, acc.2)
  | .type xi => if flg then (acc.1 ++ (" \\text{".toList ++ xi ++ "} ".toList), acc.2) else (acc.1 ++ xi, acc.2)
  | .obj l s => if flg then (acc.1 ++ " %s ".toList, acc.2 ++ [l]) else (acc.1 ++ " %s ".toList, acc.2 ++ [s])

/-- The format string and its arguments (gprinter.py:149-178). -/
def collect (interactive flg : Bool) (xargs : List Item) : List Char × List (List Char) :=
  xargs.zipIdx.foldl (collectItem interactive flg) ([], [])

/-- The class variables `LaTeX.latex_flg`, `LaTeX.latex_str` (gprinter.py:25-26), the global `Format_cnt`
of the module, and the effects: the text on the terminal, the formulas displayed in a notebook, the files
written, and the commands run. -/
structure State where
  flg : Bool
  str : List Char
  cnt : ℕ
  term : List Char
  shown : List (List Char)
  files : List (List Char × List Char)
  cmds : List (List (List Char))
  deriving DecidableEq, Repr

/-- The state when the module is imported (gprinter.py:25-26, printer.py:119). -/
def State.init (term : List Char) : State := ⟨false, [], 0, term, [], [], []⟩

/-- `gFormat` (gprinter.py:105-141), without the settings of the printers and the macros that are displayed
in a notebook. -/
def State.gFormat (s : State) : State :=
  if s.cnt = 0 then { s with cnt := s.cnt + 1, flg := true } else s

/-- `lines[-1] += t`. -/
def addLast (t : List Char) : List (List Char) → List (List Char)
  | [] => []
  | [l] => [l ++ t]
  | l :: ls => l :: addLast t ls

/-- `lines[0] = t + lines[0]`. -/
def addFirst (t : List Char) : List (List Char) → List (List Char)
  | [] => []
  | l :: ls => (t ++ l) :: ls

/-- `gprint` (gprinter.py:144-197); `none` is an exception, which leaves the state unchanged. -/
def State.gprint (s : State) (interactive : Bool) (xargs : List Item) : Option State :=
  let (fstr, x) := collect interactive s.flg xargs
  if s.flg then
    if interactive then
      (pyFormat fstr x).map fun lstr =>
        if '@' ∈ lstr then
          { s with shown := s.shown ++ addLast endEq (addFirst beginEq (splitOn '@' lstr)) }
        else { s with shown := s.shown ++ [lstr] }
    else
      (pyFormat fstr x).map fun t => { s with str := s.str ++ (beginEq ++ t ++ endEq ++ [' '] ++ ['\n']) }
  else (pyFormat fstr x).map fun t => { s with term := s.term ++ t ++ ['\n'] }

/-- `gPrint_Function` (gprinter.py:290-300) for the source text `src` of the calling function. -/
def State.printFunction (s : State) (src : List Char) : State :=
  if s.flg then { s with str := s.str ++
    ("\\begin{lstlisting}[language=Python,showspaces=false,showstringspaces=false,backgroundcolor=\\color{gray},frame=single]".toList
      ++ src ++ "\\end{lstlisting}\\text{Code Output:}".toList) }
  else { s with term := s.term ++ ['\n'] ++ List.replicate 80 '*' ++ ['\n'] ++ src ++ ['\n'] ++
    "Code output:\n\n".toList }

/-- The size of the paper: `'letter'`, `'landscape'`, or a pair of numbers, given by their texts and the
texts of the numbers less one. -/
inductive Paper
  | letter
  | landscape
  | size (w h w1 h1 : List Char)
  deriving DecidableEq, Repr

/-- `paper_format` (gprinter.py:268-287). -/
def paperFormat (paper : Paper) (pt documentclass : List Char) : List Char :=
  let first := "\n\\documentclass[@10pt@,fleqn]{".toList ++ documentclass ++ "}\n".toList
  let size := fun w h w1 h1 : List Char => first ++ "\\usepackage[vcentering]{geometry}\n".toList ++
    ("\\geometry{papersize={".toList ++ w ++ "in,".toList ++ h ++ "in},total={".toList ++ w1 ++
      "in,".toList ++ h1 ++ "in}}\n".toList)
  strReplace "@10pt@".toList pt 0 (match paper with
    | .letter => first
    | .landscape => size "11".toList "8.5".toList "10".toList "7.5".toList
    | .size w h w1 h1 => size w h w1 h1)

/-- The arguments of `gxpdf` that matter here: `filename` (`none`: the name of the program is used),
`paper`, `pt`, `documentclass`, `pdfprog`, `evince`, `rm`, `debug` and `null`; the defaults are those of
gprinter.py:200. -/
structure PdfArgs where
  filename : Option (List Char) := none
  paper : Paper := .size "14".toList "11".toList "13".toList "10".toList
  pt : List Char := "10pt".toList
  documentclass : List Char := "book".toList
  pdfprog : Option (List Char) := some "pdflatex".toList
  evince : Bool := true
  rm : Bool := true
  debug : Bool := false
  null : Bool := true

/-- The names of the files (gprinter.py:219-227): the root, the TeX file and the PDF file; `argv0` is
`sys.argv[0]`. -/
def fileNames (argv0 : List Char) (filename : Option (List Char)) : List Char × List Char × List Char :=
  match filename with
  | none =>
    let root := strReplace ".py".toList [] 0 argv0
    (root, root ++ ".tex".toList, root ++ ".pdf".toList)
  | some f => (strReplace ".tex".toList [] 0 f, f, strReplace ".tex".toList ".pdf".toList 0 f)

/-- The commands that `gxpdf` runs on Linux (gprinter.py:235-258), without `crop` and `png`. -/
def pdfCommands (root tex pdf : List Char) (a : PdfArgs) : List (List (List Char)) :=
  match a.pdfprog with
  | none => []
  | some prog =>
    (if a.debug then [] else if a.null then [[prog, tex, " > /dev/null".toList]] else [[prog, tex]]) ++
    (if a.evince then [["evince".toList, pdf]] else []) ++
    (if a.rm then
      if a.debug then [["rm".toList, root ++ ".aux ".toList, root ++ ".log".toList]]
      else [["rm".toList, root ++ ".aux ".toList, root ++ ".log ".toList, root ++ ".tex".toList]]
    else [])

/-- `gxpdf` (gprinter.py:200-265) on Linux, with the preamble (gprinter.py:28-76) as a parameter.  `canOpen`
says which files can be opened for writing; otherwise an exception is raised when `LaTeX.latex_str` is already
emptied.  Simplifications: without `crop` and `png`, and without the messages of `debug`. -/
def State.gxpdf (s : State) (preamble argv0 : List Char) (canOpen : List Char → Bool) (a : PdfArgs) : State :=
  let latexStr := paperFormat a.paper a.pt a.documentclass ++ preamble ++ s.str ++ "\\end{document}".toList
  let s := { s with str := [] }
  let (root, tex, pdf) := fileNames argv0 a.filename
  if canOpen tex then
    { s with
      files := s.files ++ [(tex, latexStr)]
      cmds := s.cmds ++ pdfCommands root tex pdf a }
  else s

/-- A call of a function of the module; the files that can be opened may be different every time. -/
inductive Call
  | gFormat
  | gprint (xargs : List Item)
  | printFunction (src : List Char)
  | gxpdf (canOpen : List Char → Bool) (a : PdfArgs)

/-- The state after a call; an exception of `gprint` leaves the state as it is. -/
def State.call (interactive : Bool) (preamble argv0 : List Char) (s : State) : Call → State
  | .gFormat => s.gFormat
  | .gprint xs => (s.gprint interactive xs).getD s
  | .printFunction src => s.printFunction src
  | .gxpdf canOpen a => s.gxpdf preamble argv0 canOpen a

/-- The state after some calls. -/
def State.run (interactive : Bool) (preamble argv0 : List Char) (s : State) (cs : List Call) : State :=
  cs.foldl (State.call interactive preamble argv0) s

end GA.GPrint
