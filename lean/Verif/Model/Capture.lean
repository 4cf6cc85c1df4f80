import Mathlib.Data.List.Basic

/-!
# Capturing printed output

Model of the redirection of `sys.stdout` by `galgebra/printer.py`: `Format`, `LatexFormat`, `tex` and the
patched `print`.
-/

namespace GA.Capture

/-- A stream `sys.stdout` can be: the terminal, or the `k`-th `io.StringIO()` that was created. -/
inductive Stream
  | terminal
  | buffer (k : ℕ)
  deriving DecidableEq, Repr

/-- The state: the text on the terminal, the contents of the string buffers, `sys.stdout`, and the class
variables `stdout` (`none`: not set yet), `latex_flg`, `latex_str`, `ipy` of `GaLatexPrinter`
(galgebra/printer.py:444-446) and the global `Format_cnt` (galgebra/printer.py:119). -/
structure State where
  term : List Char
  bufs : List (List Char)
  stdout : Stream
  saved : Option Stream
  flg : Bool
  str : List Char
  ipy : Bool
  cnt : ℕ
  deriving DecidableEq, Repr

/-- The state when the module is imported (galgebra/printer.py:119, 444-446), with text that was printed
before. -/
def State.init (term : List Char) : State := ⟨term, [], .terminal, none, false, [], false, 0⟩

/-- What a call gives: nothing, a document text (of `tex`), or an `AttributeError`. -/
inductive Res
  | done
  | doc (text : List Char)
  | attributeError
  deriving DecidableEq, Repr

/-- Writing to `sys.stdout`. -/
def State.write (s : State) (t : List Char) : State :=
  match s.stdout with
  | .terminal => { s with term := s.term ++ t }
  | .buffer k => { s with bufs := s.bufs.modify k (· ++ t) }

/-- `sys.stdout.getvalue()`; `none` is the `AttributeError` of the terminal stream. -/
def State.getvalue (s : State) : Option (List Char) :=
  match s.stdout with
  | .terminal => none
  | .buffer k => some (s.bufs.getD k [])

/-- `GaLatexPrinter.redirect` (galgebra/printer.py:502-509). -/
def State.redirect (s : State) : State :=
  let s := { s with flg := true }
  if s.ipy then s
  else { s with saved := some s.stdout, stdout := .buffer s.bufs.length, bufs := s.bufs ++ [[]] }

/-- `GaLatexPrinter.restore` (galgebra/printer.py:511-518); `none` is an `AttributeError`. -/
def State.restore (s : State) : Option State :=
  if s.flg then
    if s.ipy then some { s with flg := false }
    else do
      let v ← s.getvalue
      let s := { s with str := s.str ++ v, flg := false }
      let o ← s.saved
      return { s with stdout := o }
  else some s

/-- `Format` (galgebra/printer.py:795-836).  Simplifications: the settings of the printers, and the part
for an interactive session, are left out. -/
def State.format (s : State) : State :=
  if s.cnt = 0 then ({ s with cnt := s.cnt + 1, flg := true } : State).redirect
  else s

/-- `LatexFormat` (galgebra/printer.py:1055-1062), without the settings of the printers. -/
def State.latexFormat (s : State) (ipy : Bool) : State := ({ s with ipy := ipy } : State).redirect

/-- The patched `print` (galgebra/printer.py:359-364, 392-405) of an object with a plain and a LaTeX
text; a line break follows it. -/
def State.print (s : State) (plain latex : List Char) : State :=
  s.write ((if s.flg then latex else plain) ++ ['\n'])

/-- The first three statements of `tex` (galgebra/printer.py:898-900): the captured text, which the rest
of the function turns into a document.  `none` is the `AttributeError`. -/
def State.tex (s : State) : Option (State × List Char) := do
  let v ← s.getvalue
  let text := s.str ++ v
  let s ← ({ s with str := [] } : State).restore
  return (s, text)

/-- The calls a program can make.  `xpdf(pdfprog=None)` is `tex()` and a file
(galgebra/printer.py:984-1018). -/
inductive Cmd
  | print (plain latex : List Char)
  | format
  | latexFormat (ipy : Bool)
  | tex
  deriving DecidableEq, Repr

/-- One call.  A call of `tex` that raises has changed nothing, because the exception is raised by its
first statement; see `State.tex` (the second `getvalue` in `restore` succeeds if the first one does). -/
def step (s : State) : Cmd → State × Res
  | .print p l => (s.print p l, .done)
  | .format => (s.format, .done)
  | .latexFormat i => (s.latexFormat i, .done)
  | .tex => match s.tex with
    | some (s, t) => (s, .doc t)
    | none => (s, .attributeError)

/-- A program: its calls in order, with their results. -/
def run (s : State) : List Cmd → State × List Res
  | [] => (s, [])
  | c :: cs =>
    let (s, r) := step s c
    let (s, rs) := run s cs
    (s, r :: rs)

end GA.Capture
