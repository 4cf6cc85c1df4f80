import Verif.Model.Parser

/-!
# Specification: expressions in strings

Expressions with names, parentheses and the operators `*`, `^`, `|`, `<`, `>`, `+` and `-`; what it means to
read a string with given precedences; and the parentheses that `GAeval` should insert.
-/

namespace GA

open GA.Parser (Op)

/-- The characters of an operator group. -/
def opChar : Op → Char → Bool
  | .dots, c => c = '|' || c = '<' || c = '>'
  | .wedge, c => c = '^'
  | .times, c => c = '*'

/-- The characters of names and numbers. -/
def nameChar (c : Char) : Bool := c.isAlphanum || c = '_'

/-! ### Reading a string -/

/-- What a string means: a name, an operator between two meanings, or the negative of a meaning. -/
inductive Tree
  | leaf (s : List Char)
  | neg (t : Tree)
  | node (l : Tree) (c : Char) (r : Tree)
deriving DecidableEq

/-- Rules for reading: the operators and how strong they bind, and the operators that cannot be used twice
in a row (`a<b<c` is not `(a<b)<c`).  All others group from the left.  A minus sign without a left operand binds
stronger than all of them. -/
structure Rules where
  prec : Char → Option ℕ
  single : Char → Bool

/-- What is to be read. -/
inductive Reading
  /-- A name or something in parentheses, or such with minus signs in front. -/
  | atom
  /-- An expression whose operators bind at least as strong as `p`. -/
  | expr (p : ℕ)
  /-- The rest of such an expression after `t`; `last` is the strength of the operator before, if it cannot
  be used twice in a row. -/
  | rest (p : ℕ) (last : Option ℕ) (t : Tree)

/-- Reading from the beginning of a string: the meaning and the rest of the string. -/
def readFrom (R : Rules) : ℕ → Reading → List Char → Option (Tree × List Char)
  | 0, _, _ => none
  | k + 1, .atom, s =>
    match s with
    | '(' :: s' =>
      match readFrom R k (.expr 0) s' with
      | some (t, ')' :: s'') => some (t, s'')
      | _ => none
    | '-' :: s' => (readFrom R k .atom s').map fun r => (.neg r.1, r.2)
    | s =>
      if s.takeWhile nameChar = [] then none
      else some (.leaf (s.takeWhile nameChar), s.dropWhile nameChar)
  | k + 1, .expr p, s => (readFrom R k .atom s).bind fun r => readFrom R k (.rest p none r.1) r.2
  | k + 1, .rest p last t, s =>
    match s with
    | [] => some (t, [])
    | c :: s' =>
      match R.prec c with
      | none => some (t, c :: s')
      | some q =>
        if q < p then some (t, c :: s')
        else if last = some q then none
        else (readFrom R k (.expr (q + 1)) s').bind fun r =>
          readFrom R k (.rest p (if R.single c = true then some q else none) (.node t c r.1)) r.2

/-- The meaning of a whole string. -/
def readString (R : Rules) (s : List Char) : Option Tree :=
  match readFrom R (4 * s.length + 4) (.expr 0) s with
  | some (t, []) => some t
  | _ => none

/-- Python: `*` binds strongest, then `+` and `-`, `^`, `|`, and the comparisons `<` and `>`; `a<b<c`, which
Python reads as `a<b and b<c`, has no meaning here. -/
def pyRules : Rules where
  prec c := if c = '*' then some 4 else if c = '+' ∨ c = '-' then some 3 else if c = '^' then some 2
    else if c = '|' then some 1 else if c = '<' ∨ c = '>' then some 0 else none
  single c := c = '<' || c = '>'

/-- The rules given to `def_prec`: the first operator group binds strongest, and `+` and `-` weakest; the
inner products cannot be used twice in a row. -/
def orderRules (ops : List Op) : Rules where
  prec c := if c = '+' ∨ c = '-' then some 0
    else if ∃ o ∈ ops, opChar o c = true then
      some (ops.length - ops.findIdx fun o => opChar o c)
    else none
  single c := opChar .dots c

/-! ### Expressions -/

/-- An expression; the operator of `op k` belongs to group number `k` of the order, or is a `+` or `-` if
`k` is the number of groups. -/
inductive PExpr
  | name (s : List Char)
  | paren (e : PExpr)
  | op (k : ℕ) (l : PExpr) (c : Char) (r : PExpr)
deriving DecidableEq

namespace PExpr

/-- The string. -/
def text : PExpr → List Char
  | name s => s
  | paren e => '(' :: (e.text ++ [')'])
  | op _ l c r => l.text ++ c :: r.text

/-- What is meant. -/
def tree : PExpr → Tree
  | name s => .leaf s
  | paren e => e.tree
  | op _ l c r => .node l.tree c r.tree

/-- 0 for names and parentheses, else one more than the group of the operator that is applied last. -/
def rank : PExpr → ℕ
  | op k _ _ _ => k + 1
  | _ => 0

/-- The operator `c` belongs to group `k`. -/
def IsOp (ops : List Op) (k : ℕ) (c : Char) : Prop :=
  (∃ o, ops[k]? = some o ∧ opChar o c = true) ∨ (k = ops.length ∧ (c = '+' ∨ c = '-'))

/-- The expression follows the order: operands belong to groups that bind stronger, or on the left to the
same group, but not if they are inner products. -/
def WF (ops : List Op) : PExpr → Prop
  | name s => s ≠ [] ∧ ∀ c ∈ s, nameChar c = true
  | paren e => e.WF ops
  | op k l c r => l.WF ops ∧ r.WF ops ∧ IsOp ops k c ∧ r.rank ≤ k ∧
      l.rank ≤ if ops[k]? = some .dots then k else k + 1

/-- An expression whose last operator is one of the `n` groups, and not `+` or `-`. -/
def isProduct (n : ℕ) (e : PExpr) : Bool := decide (0 < e.rank ∧ e.rank ≤ n)

/-- The expression with parentheses around every product that is an operand of an operator of another
group; products in parentheses get no second pair. -/
def body (n : ℕ) : PExpr → PExpr
  | name s => name s
  | paren e => paren (e.body n)
  | op k l c r => op k (if isProduct n l = true ∧ l.rank ≠ k + 1 then paren (l.body n) else l.body n) c
      (if isProduct n r = true then paren (r.body n) else r.body n)

/-- The expression with the parentheses that the order implies. -/
def grouped (n : ℕ) (e : PExpr) : PExpr := if isProduct n e = true then paren (e.body n) else e.body n

/-- The expression, if it is a product. -/
def self (n : ℕ) (e : PExpr) : List PExpr := if isProduct n e = true then [e] else []

/-- The products and the parts in parentheses inside an expression; a chain `a*b*c` counts as one
product. -/
def parts (n : ℕ) : PExpr → List PExpr
  | name _ => []
  | paren e => paren e :: (e.self n ++ e.parts n)
  | op k l _ r => (if l.rank = k + 1 then [] else l.self n) ++ l.parts n ++ (r.self n ++ r.parts n)

/-- No product and no part in parentheses occurs twice. -/
def NoRepeat (n : ℕ) (e : PExpr) : Prop := ((e.parts n).map text).Nodup

/-- The expression begins with a product of the first `i` groups. -/
def starts (i : ℕ) : PExpr → Bool
  | op k l _ _ => decide (k < i) || starts i l
  | _ => false

/-- The expression ends with a product of the first `i` groups. -/
def ends (i : ℕ) : PExpr → Bool
  | op k _ _ r => decide (k < i) || ends i r
  | _ => false

/-- No sum in parentheses both begins and ends with a product. -/
def SafeParens (n : ℕ) (e : PExpr) : Prop :=
  ∀ e', paren e' ∈ e.parts n → isProduct n e' = true ∨ ¬ (starts n e' = true ∧ ends n e' = true)

/-- The expression does not both begin and end with products of the first `i` groups, for no `i` smaller
than the number of groups; except if it is itself such a product. -/
def SafeTop (n : ℕ) (e : PExpr) : Prop :=
  ∀ i < n, isProduct i e = true ∨ ¬ (starts i e = true ∧ ends i e = true)

end PExpr

end GA
