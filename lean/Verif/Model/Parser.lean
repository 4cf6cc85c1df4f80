import Mathlib.Data.List.Basic

/-!
# Model of the expression parser of `GAeval` (galgebra/_utils/parser.py)

A line is a list of characters and of the tokens that `_parse_paren` makes.  Simplification: a token,
in the code a string `'#' + call + '_' + level + '_' + group + '#'`, is one symbol.  In the code a
piece of text between two tokens could spell a third one; this needs a closing parenthesis that is
followed by an operand without an operator in between.
-/

namespace GA.Parser

/-- One symbol of a line. -/
inductive Tk
  | ch (c : Char)
  | tok (call level group : ℕ)
deriving DecidableEq, Repr

abbrev Line := List Tk

/-- parser.py:8 `_operand_re`: the characters of an operand; tokens consist of such characters. -/
def isOperand : Tk → Bool
  | .ch c => c.isAlphanum || c = '_' || c = '#'
  | .tok _ _ _ => true

/-- parser.py:10-14: the groups of operators. -/
inductive Op
  | dots
  | wedge
  | times
deriving DecidableEq, Repr

/-- parser.py:10-14: the characters of a group. -/
def Op.isOp : Op → Tk → Bool
  | .dots, t => t = .ch '|' || t = .ch '<' || t = .ch '>'
  | .wedge, t => t = .ch '^'
  | .times, t => t = .ch '*'

/-- The part of a regular expression of parser.py:10-14 after the first operand: one pair of an operator
and an operand, or for `^` and `*` as many as there are.  Result: the match and the rest. -/
def matchTail (op : Op) : ℕ → Line → Line × Line
  | 0, l => ([], l)
  | _ + 1, [] => ([], [])
  | k + 1, o :: l =>
    if op.isOp o ∧ l.takeWhile isOperand ≠ [] then
      let r := if op = .dots then ([], l.dropWhile isOperand)
        else matchTail op k (l.dropWhile isOperand)
      (o :: (l.takeWhile isOperand ++ r.1), r.2)
    else ([], o :: l)

/-- parser.py:121-123 and `re.sub(re_exprs, _sub_paren, line)`: every match, from left to right, is put in
parentheses.  Operands are matched as a whole because no operator is an operand character. -/
def reSub (op : Op) : ℕ → Line → Line
  | 0, l => l
  | _ + 1, [] => []
  | k + 1, x :: l =>
    if isOperand x then
      let m := matchTail op l.length (l.dropWhile isOperand)
      if m.1 = [] then x :: l.takeWhile isOperand ++ reSub op k (l.dropWhile isOperand)
      else .ch '(' :: x :: (l.takeWhile isOperand ++ m.1 ++ [.ch ')']) ++ reSub op k m.2
    else x :: reSub op k l

/-- `re.sub` of a whole line. -/
def sub (op : Op) (l : Line) : Line := reSub op l.length l

/-- Python `s.replace(pat, rep)`. -/
def replaceFuel (pat rep : Line) : ℕ → Line → Line
  | 0, l => l
  | _ + 1, [] => []
  | k + 1, x :: l =>
    if pat.isPrefixOf (x :: l) then rep ++ replaceFuel pat rep k ((x :: l).drop pat.length)
    else x :: replaceFuel pat rep k l

def replace (l pat rep : Line) : Line := replaceFuel pat rep l.length l

/-- parser.py:34-57: an entry of `paren_lst`: the level, the index of `(` and the index of `)`. -/
structure Paren where
  level : ℕ
  start : ℕ
  stop : Option ℕ
deriving DecidableEq, Repr

/-- parser.py:45-52: the last entry of the level is closed. -/
def closeLast (level ich : ℕ) : List Paren → List Paren
  | [] => []
  | p :: ps =>
    if ps.any fun q => q.level = level then p :: closeLast level ich ps
    else if p.level = level then { p with stop := some ich } :: ps
    else p :: ps

/-- parser.py:34-57: the scan for parentheses.  `none` is a `ValueError`. -/
def scan : Line → ℕ → ℕ → List Paren → Option (List Paren)
  | [], _, level, ps => if level = 0 then some ps else none
  | x :: l, ich, level, ps =>
    if x = .ch '(' then scan l (ich + 1) (level + 1) (ps ++ [⟨level + 1, ich, none⟩])
    else if x = .ch ')' then
      if level < 1 then none else scan l (ich + 1) (level - 1) (closeLast level ich ps)
    else scan l (ich + 1) level ps

/-- parser.py:62-93: a group of the level list: its text, its token, the string that is worked on and
the number of the group one level down that contains it. -/
structure Group where
  text : Line
  token : Tk
  cur : Line
  parent : ℕ
deriving DecidableEq, Repr

/-- parser.py:62-63: the intervals of one level. -/
def ofLevel (ps : List Paren) (level : ℕ) : List (ℕ × ℕ) :=
  (ps.filter fun p => p.level = level).map fun p => (p.start, p.stop.getD 0)

/-- parser.py:17-21 `_contains_interval`. -/
def containsInterval (i1 i2 : ℕ × ℕ) : Bool := decide (i1.1 > i2.1) && decide (i1.2 < i2.2)

/-- parser.py:62-93: the groups of one level.  A group without a containing group does not occur
(parser.py:98 would fail); here its parent is the number of groups. -/
def mkLevel (call : ℕ) (line : Line) (ps : List Paren) (level : ℕ) : List Group :=
  (ofLevel ps level).mapIdx fun ig i =>
    let text := (line.drop i.1).take (i.2 + 1 - i.1)
    ⟨text, .tok call level ig, text, (ofLevel ps (level - 1)).findIdx (containsInterval i)⟩

/-- parser.py:94-102: every group of the level is replaced by its token in the group that contains it. -/
def foldInto (down level : List Group) : List Group :=
  level.foldl (fun down g =>
    down.modify g.parent fun d => { d with cur := replace d.cur g.text [g.token] }) down

/-- parser.py:94-102: the levels from the highest one down to level 2. -/
def foldLevels : List (List Group) → List (List Group)
  | [] => []
  | [l] => [l]
  | l :: l' :: ls => foldInto l l' :: foldLevels (l' :: ls)

/-- parser.py:28-107 `_parse_paren`, in call number `call`: level 0 and the other levels.  The texts of
the groups of a level do not change while the level above is folded into it, so the order of
parser.py:94-102 does not matter and `foldLevels` goes upwards. -/
def parseParen (call : ℕ) (line : Line) : Option (Line × List (List Group)) :=
  if Tk.ch '(' ∉ line ∨ Tk.ch ')' ∉ line then some (line, [])
  else (scan line 0 0 []).map fun ps =>
    let maxLevel := (ps.map Paren.level).foldl max 0
    let levels := foldLevels ((List.range maxLevel).map fun k => mkLevel call line ps (k + 1))
    ((levels.headD []).foldl (fun line g => replace line g.text [g.token]) line, levels)

/-- parser.py:114-116: outer double parentheses are removed. -/
def dropDouble (s : Line) : Line :=
  if s.take 2 = [.ch '(', .ch '('] ∧ s.drop (s.length - 2) = [.ch ')', .ch ')'] then
    (s.drop 1).dropLast
  else s

/-- parser.py:110-118 `_unparse_paren`. -/
def unparse (line : Line) (levels : List (List Group)) : Line :=
  levels.foldl (fun line level =>
    level.foldl (fun line g => replace line [g.token] (dropDouble g.cur)) line) line

/-- parser.py:126-146 `_add_paren` without the outer parentheses (lines 131-143).  The state is the
number of calls of `_parse_paren`. -/
def addInner (op : Op) (calls : ℕ) (line : Line) : Option (Line × ℕ) :=
  if Tk.ch '(' ∈ line ∨ Tk.ch ')' ∈ line then
    (parseParen (calls + 1) line).map fun r =>
      (unparse (sub op r.1) (r.2.map fun level => level.map fun g => { g with cur := sub op g.cur }),
        calls + 1)
  else some (sub op line, calls)

/-- parser.py:126-146 `_add_paren`.  `none` is an `IndexError` or a `ValueError`. -/
def addParen (op : Op) (calls : ℕ) (line : Line) : Option (Line × ℕ) :=
  if line = [] then none
  else if line.head? = some (.ch '(') ∧ line.getLast? = some (.ch ')') then
    (addInner op calls (line.drop 1).dropLast).map fun r => (.ch '(' :: (r.1 ++ [.ch ')']), r.2)
  else addInner op calls line

/-- parser.py:161-163: all operators on one string. -/
def addAll (ops : List Op) (calls : ℕ) (line : Line) : Option (Line × ℕ) :=
  ops.foldlM (fun s op => addParen op s.2 s.1) (line, calls)

/-- parser.py:157-166: the groups of one level. -/
def addLevel (ops : List Op) : ℕ → List Group → Option (List Group × ℕ)
  | calls, [] => some ([], calls)
  | calls, g :: gs =>
    (addAll ops calls g.cur).bind fun r =>
      (addLevel ops r.2 gs).map fun s => ({ g with cur := r.1 } :: s.1, s.2)

/-- parser.py:157-166: all levels. -/
def addLevels (ops : List Op) : ℕ → List (List Group) → Option (List (List Group) × ℕ)
  | calls, [] => some ([], calls)
  | calls, l :: ls =>
    (addLevel ops calls l).bind fun r => (addLevels ops r.2 ls).map fun s => (r.1 :: s.1, s.2)

/-- parser.py:154-168 `parse_line`, after the removal of blanks. -/
def parseLineTk (ops : List Op) (calls : ℕ) (line : Line) : Option Line :=
  (parseParen (calls + 1) line).bind fun r =>
    (addAll ops (calls + 1) r.1).bind fun l0 =>
      (addLevels ops l0.2 r.2).map fun ls => unparse l0.1 ls.1

/-- Python `str(k)`. -/
def natStr (k : ℕ) : List Char := Nat.toDigits 10 k

/-- The characters of a symbol. -/
def Tk.chars : Tk → List Char
  | .ch c => [c]
  | .tok c l g => '#' :: (natStr c ++ '_' :: (natStr l ++ '_' :: (natStr g ++ ['#'])))

/-- parser.py:154-168 `parse_line`; `calls` is the value of the counter `_parse_paren_calls`. -/
def parseLine (ops : List Op) (calls : ℕ) (s : List Char) : Option (List Char) :=
  (parseLineTk ops calls ((s.filter (· ≠ ' ')).map .ch)).map fun l => l.flatMap Tk.chars

end GA.Parser
