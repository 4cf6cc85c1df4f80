import Verif.Model.GPrint

/-!
# Specification: what `gprint` shows and what a document contains
-/

namespace GA.GPrint

/-- A percent sign in a string has to be written twice. -/
def escape (s : List Char) : List Char := s.flatMap fun c => if c = '%' then ['%', '%'] else [c]

/-- The argument that a user has to write. -/
def Item.escape : Item → Item
  | .text s => .text (GPrint.escape s)
  | x => x

/-- What should be shown for an argument: strings as they are; types in LaTeX as text; the LaTeX text or the
text of other objects between blanks. -/
def Item.meaning (flg : Bool) : Item → List Char
  | .text s => s
  | .type s => if flg then " \\text{".toList ++ s ++ "} ".toList else s
  | .obj l s => [' '] ++ (if flg then l else s) ++ [' ']

/-- The lines of a string: two backslashes begin a new line. -/
def breakLines : List Char → List (List Char)
  | [] => [[]]
  | [c] => [[c]]
  | c :: d :: s =>
    if c = '\\' ∧ d = '\\' then [] :: breakLines s
    else match breakLines (d :: s) with
      | [] => [[c]]
      | w :: ws => (c :: w) :: ws

/-- Lines after lines: the first of the second lines goes on after the last of the first lines. -/
def glue : List (List Char) → List (List Char) → List (List Char)
  | [], B => B
  | [a], [] => [a]
  | [a], b :: B => (a ++ b) :: B
  | a :: A, B => a :: glue A B

/-- The lines of the formula that `gprint` shows: strings after the first argument may begin new lines. -/
def formula (flg : Bool) : List Item → List (List Char)
  | [] => [[]]
  | x :: xs => xs.foldl (fun L y => glue L (match y with
    | .text s => breakLines s
    | y => [y.meaning flg])) [x.meaning flg]

/-- A displayed equation. -/
def equation (l : List Char) : List Char := "\\begin{equation*} ".toList ++ l ++ "\\end{equation*}".toList

/-- The equations of a formula, as they are written in a document. -/
def equations (L : List (List Char)) : List Char := ['\n'].intercalate (L.map equation) ++ " \n".toList

/-- A source text in a document. -/
def listing (src : List Char) : List Char :=
  "\\begin{lstlisting}[language=Python,showspaces=false,showstringspaces=false,backgroundcolor=\\color{gray},frame=single]".toList
    ++ src ++ "\\end{lstlisting}\\text{Code Output:}".toList

/-- What a user does between two documents. -/
inductive Act
  | format
  | print (xs : List Item)
  | source (src : List Char)

/-- The call for it. -/
def Act.toCall : Act → Call
  | .format => .gFormat
  | .print xs => .gprint (xs.map Item.escape)
  | .source src => .printFunction src

/-- What it adds to the document. -/
def Act.content : Act → List Char
  | .format => []
  | .print xs => equations (formula true xs)
  | .source src => listing src

/-- The texts of types have no percent signs. -/
def Item.ok : Item → Prop
  | .type s => '%' ∉ s
  | _ => True

/-- The same for all arguments. -/
def Act.ok : Act → Prop
  | .print xs => ∀ x ∈ xs, x.ok
  | _ => True

end GA.GPrint
