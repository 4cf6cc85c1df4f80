import Verif.Model.Session

/-!
# Names of symbols

What the string given to `symbols_list` (and the basis string of an algebra) means, following the
documentation of `symbols_list` (metric.py:185-260).  Independent of the code except for Python's
`str` of a number (`strNat`) and `sep.join` (`joinWith`).
-/

namespace GA.Symbols

/-- `w'` is the superscripted form of the name `w`: the first underscore is doubled; a name without
underscore stays as it is. -/
def Superscripted (w w' : List Char) : Prop :=
  (∃ u v, '_' ∉ u ∧ w = u ++ '_' :: v ∧ w' = u ++ '_' :: '_' :: v) ∨ ('_' ∉ w ∧ w' = w)

/-- The names `l'` asked for when the names `l` are written out: `l` itself for subscripts, the
superscripted forms otherwise. -/
def Marked (sub : Bool) (l l' : List (List Char)) : Prop :=
  if sub then l' = l else List.Forall₂ Superscripted l l'

/-- The mark between a prefix and an index. -/
def mark (sub : Bool) : List Char := if sub then ['_'] else ['_', '_']

/-- The characters with a meaning in the string. -/
def Plain (w : List Char) : Prop := '*' ∉ w ∧ '|' ∉ w ∧ ',' ∉ w ∧ ' ' ∉ w ∧ w ≠ []

/-- `Means sub s l`: in subscript (`sub`) or superscript mode the documented meaning of the string
`s` is the list of names `l`. -/
inductive Means (sub : Bool) : List Char → List (List Char) → Prop
  /-- the empty string: no names -/
  | empty : Means sub [] []
  /-- `name_1,name_2,...,name_n`; the names may contain spaces -/
  | commas {l l' : List (List Char)} : (∀ w ∈ l, ',' ∉ w ∧ '*' ∉ w ∧ w ≠ []) → 2 ≤ l.length →
      Marked sub l l' → Means sub (joinWith ',' l) l'
  /-- `name_1,...,name_n,` -/
  | trailing {l l' : List (List Char)} : (∀ w ∈ l, ',' ∉ w ∧ '*' ∉ w ∧ w ≠ []) → l ≠ [] →
      Marked sub l l' → Means sub (joinWith ',' l ++ [',']) l'
  /-- `name_1 name_2 ... name_n` -/
  | spaces {l l' : List (List Char)} : (∀ w ∈ l, Plain w) → l ≠ [] → Marked sub l l' →
      Means sub (joinWith ' ' l) l'
  /-- `prefix*index_1|index_2|...|index_n` -/
  | indexed {base : List Char} {l : List (List Char)} : Plain base → (∀ w ∈ l, Plain w) →
      2 ≤ l.length →
      Means sub (base ++ '*' :: joinWith '|' l) (l.map fun i => base ++ mark sub ++ i)
  /-- `prefix*n` -/
  | numbered {base : List Char} (n : ℕ) : Plain base →
      Means sub (base ++ '*' :: strNat n) ((List.range n).map fun i => base ++ mark sub ++ strNat i)

end GA.Symbols
