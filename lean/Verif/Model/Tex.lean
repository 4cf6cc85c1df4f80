import Verif.Model.Session

/-!
# Post-processing of captured output

Model of `_texify` and of the line loop of `tex` in `galgebra/printer.py`.  Strings are lists of
characters.
-/

namespace GA.Tex

/-- Word characters of regular expressions.  Simplification: ASCII only. -/
def isWord (c : Char) : Bool := c.isAlphanum || c == '_'

/-- A pattern that is a fixed string. -/
def lit (p : List Char) (_ : Bool) (s : List Char) : Option ℕ :=
  if p.isPrefixOf s then some p.length else none

/-- The pattern `\^(?!{)`: a caret that is not followed by a brace. -/
def caret (_ : Bool) (s : List Char) : Option ℕ :=
  match s with
  | c :: s => if c = '^' ∧ s.head? ≠ some '{' then some 1 else none
  | [] => none

/-- The pattern `\bw\b` for a word `w`: `pw` says if the character before is a word character. -/
def wholeWord (w : List Char) (pw : Bool) (s : List Char) : Option ℕ :=
  if pw = false ∧ w.isPrefixOf s ∧ ((s.drop w.length).head?.map isWord).getD false = false then
    some w.length else none

/-- `repl_pairs` (galgebra/printer.py:841-851), in order. -/
def replPairs : List ((Bool → List Char → Option ℕ) × List Char) :=
  [(lit ['|'], "\\cdot ".toList),
   (caret, "\\W ".toList),
   (lit ['*'], [' ']),
   (wholeWord "rgrad".toList, "\\bar{\\boldsymbol{\\nabla}} ".toList),
   (wholeWord "grad".toList, "\\boldsymbol{\\nabla} ".toList),
   (lit ['>', '>'], " \\times ".toList),
   (lit ['<', '<'], " \\bar{\\times} ".toList),
   (lit ['<'], "\\rfloor ".toList),
   (lit ['>'], "\\lfloor ".toList)]

/-- The first alternative that matches at a position: the length of the match and `repl_func`
(galgebra/printer.py:853-860). -/
def matchAt (pw : Bool) (s : List Char) : Option (ℕ × List Char) :=
  replPairs.findSome? fun p => (p.1 pw s).map fun k => (k, p.2)

/-- `re.sub(pattern, repl_func, s)` (galgebra/printer.py:860-861), from left to right; the first argument
is the number of characters of the last match still to be skipped, the second says if the character
before is a word character. -/
def sub : ℕ → Bool → List Char → List Char
  | _, _, [] => []
  | k + 1, _, c :: s => sub k (isWord c) s
  | 0, pw, c :: s =>
    match matchAt pw (c :: s) with
    | some (k, r) => r ++ sub (k - 1) (isWord c) s
    | none => c :: sub 0 (isWord c) s

/-- `_texify` (galgebra/printer.py:839-861). -/
def texify (s : List Char) : List Char := sub 0 false s

/-- `s.lstrip()`.  Simplification: white space is blank, tab, carriage return and line break. -/
def lstrip (s : List Char) : List Char := s.dropWhile Char.isWhitespace

/-- `s.strip()`. -/
def strip (s : List Char) : List Char := (lstrip (lstrip s).reverse).reverse

/-- `s.rsplit('=', 1)` of a string with an `=`: the parts before and after the last one; `none` if there
is no `=`. -/
def rsplitEq : List Char → Option (List Char × List Char)
  | [] => none
  | c :: s => match rsplitEq s with
    | some (l, r) => some (c :: l, r)
    | none => if c = '=' then some ([], s) else none

/-- `s.replace(p, '', 1)`: without the first occurrence of `p`; `none` if there is none. -/
def removeFirst (p : List Char) : List Char → Option (List Char)
  | [] => if p = [] then some [] else none
  | c :: s => if p.isPrefixOf (c :: s) then some ((c :: s).drop p.length)
    else (removeFirst p s).map (c :: ·)

/-- The environment wrapping (galgebra/printer.py:940-944). -/
def wrap (line : List Char) : List Char :=
  match removeFirst "\\begin{align*}".toList line with
  | some l => "\\begin{align*} ".toList ++ lstrip l
  | none => "\\begin{equation*} ".toList ++ strip line ++ " \\end{equation*}".toList

/-- The loop body of `tex` (galgebra/printer.py:917-946): the new `code_flg` and the new line. -/
def line (code : Bool) (l : List Char) : Bool × List Char :=
  if l = [] then (code, l)
  else if ['#', '#'].isPrefixOf l then (!code, l.drop 2)
  else if code then (code, l)
  else if ['#'].isPrefixOf l ∧ ¬ ['#', '%'].isPrefixOf l then (code, l.drop 1)
  else if ['%'].isPrefixOf l then (code, wrap (l.drop 1))
  else if ['#', '%'].isPrefixOf l then (code, wrap (l.drop 2))
  else match rsplitEq l with
    | some (lhs, rhs) => (code, wrap (texify lhs ++ '=' :: rhs))
    | none => (code, wrap l)

/-- The loop of `tex` over the lines (galgebra/printer.py:915-946). -/
def lines : Bool → List (List Char) → List (List Char)
  | _, [] => []
  | code, l :: ls => (line code l).2 :: lines (line code l).1 ls

/-- `s.replace('\n\n', '\n')`. -/
def squeeze : List Char → List Char
  | [] => []
  | [c] => [c]
  | a :: b :: s => if a = '\n' ∧ b = '\n' then '\n' :: squeeze s else a :: squeeze (b :: s)

/-- The body of the document that `tex` makes of the captured text (galgebra/printer.py:912-948). -/
def body (text : List Char) : List Char :=
  squeeze ((lines false (splitOn '\n' text)).map fun l => l ++ ['\n']).flatten

end GA.Tex
