import Verif.Spec.TexLex
import Mathlib.Data.Rat.Defs

/-!
# The parts of a formula as TeX reads it

Braces group, `^` and `_` set the next token or group above or below the token or group before, `\frac` and
`\sqrt` take the next two tokens or groups, or the next one, and `\left` and `\right` come in pairs, each with a
delimiter.  A second superscript on the same part is an error.  (TeX also takes some commands as arguments without
braces, as in `x^\frac{1}{2}`; here this is an error.)
-/

namespace GA.Tex

/-- The parts of a formula: tokens, `{…}`, `\left … \right c` (the first item is the opening delimiter), a part with
superscript and subscript, fractions and roots (with the text of the index). -/
inductive Node
  | tok (t : List Char)
  | group (l : List Node)
  | paren (l : List Node) (close : List Char)
  | script (b : Node) (up down : Option Node)
  | frac (a b : Node)
  | root (index : Option Node) (a : Node)

/-- What waits for an argument. -/
inductive Pend
  | up | down | frac | frac1 (a : Node) | sqrt | itexRoot | root1 (index : Node)

/-- What was opened: the formula, `{`, `\left`, the index of a root, and `\left … \right` that lacks its delimiter. -/
inductive Kind
  | top | brace | left | index | closing
deriving DecidableEq

/-- A part that is not closed: its items, the last one first, and what waits for an argument. -/
structure Frame where
  kind : Kind
  items : List Node
  pend : Option Pend

/-- Superscript `x` on the last item. -/
def setUp (x : Node) : List Node → Option (List Node)
  | .script _ (some _) _ :: _ => none
  | .script b none d :: l => some (.script b (some x) d :: l)
  | b :: l => some (.script b (some x) none :: l)
  | [] => some [.script (.group []) (some x) none]

/-- Subscript `x` on the last item. -/
def setDown (x : Node) : List Node → Option (List Node)
  | .script _ _ (some _) :: _ => none
  | .script b u none :: l => some (.script b u (some x) :: l)
  | b :: l => some (.script b none (some x) :: l)
  | [] => some [.script (.group []) none (some x)]

/-- The next token or group is read. -/
def Frame.add (x : Node) (f : Frame) : Option Frame :=
  match f.pend with
  | none => some { f with items := x :: f.items }
  | some .up => (setUp x f.items).map fun l => { f with items := l, pend := none }
  | some .down => (setDown x f.items).map fun l => { f with items := l, pend := none }
  | some .frac => some { f with pend := some (.frac1 x) }
  | some (.frac1 a) => some { f with items := .frac a x :: f.items, pend := none }
  | some .sqrt => some { f with items := .root none x :: f.items, pend := none }
  | some .itexRoot => some { f with pend := some (.root1 x) }
  | some (.root1 i) => some { f with items := .root (some i) x :: f.items, pend := none }

/-- A command that waits for an argument. -/
def Frame.wait (p : Pend) (f : Frame) : Option Frame :=
  if f.pend.isNone then some { f with pend := some p } else none

/-- The part `x` that was just closed goes to the part around it. -/
def close (x : Node) : List Frame → Option (List Frame)
  | [] => none
  | f :: r => (f.add x).map (· :: r)

/-- One token, when `f` is the innermost part that is open and `r` are the others. -/
def stepIn (f : Frame) (r : List Frame) (t : List Char) : Option (List Frame) :=
  if f.kind = .closing then close (.paren f.items.reverse t) r
  else if t = ['{'] then some (⟨.brace, [], none⟩ :: f :: r)
  else if t = ['}'] then
    if f.kind = .brace ∧ f.pend.isNone then close (.group f.items.reverse) r else none
  else if t = "\\left".toList then some (⟨.left, [], none⟩ :: f :: r)
  else if t = "\\right".toList then
    if f.kind = .left ∧ f.pend.isNone then some ({ f with kind := .closing } :: r) else none
  else if t = ['^'] then (f.wait .up).map (· :: r)
  else if t = ['_'] then (f.wait .down).map (· :: r)
  else if t = "\\frac".toList then (f.wait .frac).map (· :: r)
  else if t = "\\sqrt".toList then (f.wait .sqrt).map (· :: r)
  else if t = "\\root".toList then (f.wait .itexRoot).map (· :: r)
  else match f.pend with
    | some .sqrt =>
      if t = ['['] then some (⟨.index, [], none⟩ :: { f with pend := none } :: r) else (f.add (.tok t)).map (· :: r)
    | _ =>
      if t = [']'] ∧ f.kind = .index then
        match r with
        | [] => none
        | f' :: r' => if f.pend.isNone then (f'.wait (.root1 (.group f.items.reverse))).map (· :: r') else none
      else (f.add (.tok t)).map (· :: r)

/-- One token; the list has the open parts, the innermost first. -/
def step : List Frame → List Char → Option (List Frame)
  | [], _ => none
  | f :: r, t => stepIn f r t

/-- The tokens one after another. -/
def run (st : List Frame) : List (List Char) → Option (List Frame)
  | [] => some st
  | t :: l => (step st t).bind fun st => run st l

/-- The parts of a formula; `none` if TeX does not accept it. -/
def read (s : List Char) : Option (List Node) :=
  match run [⟨.top, [], none⟩] (lex s) with
  | some [f] => if f.pend.isNone then some f.items.reverse else none
  | _ => none

/-- Wherever the text `s` stands in a formula, except directly after a command that waits for an argument, it is read
as the parts `l`. -/
def ReadsAs (s : List Char) (l : List Node) : Prop :=
  Complete s ∧ ∀ kind items r, kind ≠ .closing → kind ≠ .index →
    run (⟨kind, items, none⟩ :: r) (lex s) = some (⟨kind, l.reverse ++ items, none⟩ :: r)

/-- Each character is a token. -/
def chars (s : List Char) : List Node := s.map fun c => .tok [c]

/-- A part that is no part with superscript or subscript. -/
def Node.plain : Node → Bool
  | .script .. => false
  | _ => true

/-- `N` is one part which shows all of `B`: in parentheses or braces, or `B` is this part. -/
inductive Holds (B : List Node) : Node → Prop
  | paren : Holds B (.paren (.tok ['('] :: B) [')'])
  | braces : Holds B (.group B)
  | group {N : Node} : Holds B N → Holds B (.group [N])
  | self {N : Node} : N.plain = true → B = [N] → Holds B N

/-- The formula shows the power with the exponent `r` of what `B` shows: a superscript on a part that holds all of `B`,
a root, or one over the power with the exponent `-r`; `E r` is how the number `r` is read. -/
inductive ShowsPower (E : ℚ → List Node) (B : List Node) : ℚ → List Node → Prop
  | one : ShowsPower E B 1 B
  | superscript {N : Node} (r : ℚ) : Holds B N → ShowsPower E B r [.script N (some (.group (E r))) none]
  | folded {N : Node} (n : ℤ) (d : ℕ) : Holds B N → ShowsPower E B (n / d) [.script N (some (.group (chars
      ((if n < 0 then ['-'] else []) ++ Nat.toDigits 10 n.natAbs ++ ['/'] ++ Nat.toDigits 10 d)))) none]
  | sqrt : ShowsPower E B (1 / 2) [.root none (.group B)]
  | root (q : ℕ) : ShowsPower E B (1 / q) [.root (some (.group (chars (Nat.toDigits 10 q)))) (.group B)]
  | reciprocal {r : ℚ} {l : List Node} : ShowsPower E B r l →
      ShowsPower E B (-r) [.frac (.group [.tok ['1']]) (.group l)]

/-- Texts with commas between them. -/
def commas : List (List Node) → List Node
  | [] => []
  | [x] => x
  | x :: l => x ++ .tok [','] :: commas l

end GA.Tex
