import Verif.Model.FmtList
import Verif.Spec.TexLex

/-!
# Specification: lists in LaTeX and titled objects as plain text
-/

namespace GA.FmtList

/-- The tokens of a control word or of single characters. -/
def word (s : String) : List (List Char) := [s.toList]
def chars (s : String) : List (List Char) := s.toList.map fun c => [c]

/-- The token of the left delimiter. -/
def Kind.left : Kind → List (List Char)
  | .list => chars "["
  | .tuple => chars "("
  | .dict => word "\\{"

/-- The token of the right delimiter. -/
def Kind.right : Kind → List (List Char)
  | .list => chars "]"
  | .tuple => chars ")"
  | .dict => word "\\}"

/-- A row: an array with as many columns as there are cells, between delimiters, with the cells separated by
`, &`. -/
def rowTokens (k : Kind) (cells : List (List (List Char))) : List (List Char) :=
  word "\\left" ++ k.left ++ word "\\begin" ++ chars "{array}{" ++ List.replicate cells.length ['c'] ++ chars "}" ++
    (chars ",&").intercalate cells ++
    word "\\\\" ++ word "\\end" ++ chars "{array}" ++ word "\\right" ++ k.right ++ chars "\n"

/-- A column: an array with one column and one line for every cell; the delimiters of the first and the last
line are closed on the same line. -/
def columnTokens (k : Kind) (first : List (List Char)) (middle : List (List (List Char)))
    (last : List (List Char)) : List (List Char) :=
  word "\\begin" ++ chars "{array}{c}" ++
    (word "\\left" ++ k.left ++ first ++ chars "," ++ word "\\right" ++ chars "." ++ word "\\\\") ++
    middle.flatMap (fun c => c ++ chars "," ++ word "\\\\") ++
    (word "\\left" ++ chars "." ++ last ++ word "\\right" ++ k.right ++ word "\\\\") ++
  word "\\end" ++ chars "{array}"

/-- A title and an object: a title alone, a title and a text of one line, or a title and a text of several
lines. -/
inductive Entry
  | alone (title : List Char)
  | one (title text : List Char)
  | many (title text : List Char)

/-- The arguments of `oprint` for it. -/
def Entry.args : Entry → List Arg
  | .alone t => [.str t, .none]
  | .one t s => [.str t, .obj s]
  | .many t s => [.str t, .obj s]

/-- Whether the text has one line or several. -/
def Entry.ok : Entry → Prop
  | .alone _ => True
  | .one _ s => '\n' ∉ s
  | .many _ s => '\n' ∈ s

/-- What is printed, if the equality signs are in column `n`. -/
def Entry.shown (n : ℕ) : Entry → List Char
  | .alone t => t ++ ['\n']
  | .one t s => t ++ List.replicate (n - t.length) ' ' ++ " = ".toList ++ s ++ ['\n']
  | .many t s => t ++ ":\n".toList ++ s ++ ['\n']

/-- The titles with texts of one line. -/
def Entry.oneLine : Entry → Option (List Char)
  | .one t _ => some t
  | _ => none

end GA.FmtList
