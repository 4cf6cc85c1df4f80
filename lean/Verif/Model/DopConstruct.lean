import Verif.Model.Dop

/-!
# Constructors of `Pdop` and `Sdop`, with references to dictionaries (galgebra/dop.py)

A dictionary is a mutable object that a program shares with the operators made from it.  The dictionaries of the program
are kept on a heap, and a reference to one is its index; operators are referred to by the index in the list of those made
so far.
-/

namespace GA.DopHeap
variable {V : Type*} [DecidableEq V] {R : Type*}

/-- Where the attribute `pdiffs` of an operator is stored: in a dictionary of the program, or in one of its own. -/
inductive Loc (V : Type*)
  | shared (ref : ℕ)
  | own (d : Dict V ℕ)

/-- dop.py:285-292: the attributes of a `Pdop`. -/
structure PObj (V : Type*) where
  pdiffs : Loc V
  order : ℕ

/-- dop.py:77-90: the attribute `terms` of an `Sdop`, with references to `Pdop`s; `none` stands for anything that is not a
pair of a coefficient and a `Pdop`. -/
abbrev SObj (R : Type*) := List (Option (R × ℕ))

/-- The dictionaries of the program and the operators made so far. -/
structure State (V R : Type*) where
  dicts : List (Dict V ℕ)
  pdops : List (PObj V)
  sdops : List (SObj R)

/-- The dictionary at a location. -/
def State.read (s : State V R) : Loc V → Dict V ℕ
  | .shared r => s.dicts.getD r []
  | .own d => d

/-- The argument of `Pdop(arg)`. -/
inductive PArg (V : Type*)
  | none
  | dict (ref : ℕ)
  | symbol (x : V)
  | other

/-- The elements of a list: coefficients, `Pdop`s, pairs of these. -/
inductive Elem (R : Type*)
  | coef (c : R)
  | pdop (p : ℕ)
  | pair (c : R) (p : ℕ)

/-- An argument of `Sdop(...)`. -/
inductive SArg (V R : Type*)
  | symbol (x : V)
  | list (l : List (Elem R))
  | tuple (l : List (Elem R))
  | other

/-- An element as a term. -/
def Elem.term : Elem R → Option (R × ℕ)
  | .pair c p => some (c, p)
  | _ => none

/-- The pair of two elements as a term. -/
def Elem.zip : Elem R → Elem R → Option (R × ℕ)
  | .coef c, .pdop p => some (c, p)
  | _, _ => none

/-- Exceptions. -/
inductive Err
  | typeError | valueError
deriving DecidableEq

/-- dop.py:315-334 `Pdop.__init__`.  The dictionary is stored, not copied. -/
def mkPdop (s : State V R) : PArg V → Except Err (PObj V)
  | .none => .ok ⟨.own [], 0⟩
  | .dict r => .ok ⟨.shared r, Pdop.order (s.read (.shared r))⟩
  | .symbol x => .ok ⟨.own [(x, 1)], 1⟩
  | .other => .error .typeError

/-- dop.py:336-343 `Pdop._eval_derivative_n_times`, on a copy of the dictionary. -/
def diffPdop (s : State V R) (p : PObj V) (x : V) (n : ℕ) : PObj V :=
  let d := Pdop.diff x n (s.read p.pdiffs)
  ⟨.own d, Pdop.order d⟩

/-- dop.py:345-352 `Pdop.__call__`. -/
def callPdop {β : Type*} (s : State V R) (d : V → ℕ → β → β) (p : PObj V) (f : β) : β :=
  Pdop.call d (s.read p.pdiffs) f

variable [CommRing R]

/-- dop.py:172-200 `Sdop.__init__`: the operators that are made for the terms, and the terms.  The elements of lists are
not checked. -/
def mkSdop (s : State V R) : List (SArg V R) → Except Err (List (PObj V) × SObj R)
  | [.symbol x] => .ok ([⟨.own [(x, 1)], 1⟩], [some (1, s.pdops.length)])
  | [.list l] => .ok ([], l.map Elem.term)
  | [.tuple l] => .ok ([], l.map Elem.term)
  | [.other] => .error .typeError
  | [.list cs, .list ps] => if cs.length = ps.length then .ok ([], cs.zipWith Elem.zip ps) else .error .valueError
  | _ => .error .typeError

/-- dop.py:202-208: one summand of `Sdop.__call__`; `none`: an exception. -/
def callTerm (s : State V R) (D : V → R → R) (f : R) (t : Option (R × ℕ)) : Option R :=
  t.bind fun c => (s.pdops[c.2]?).map fun p => c.1 * callPdop s (basicDiff D) p f

/-- dop.py:202-208 `Sdop.__call__` on an expression.  Simplification: every term that is not a pair of a coefficient and a
`Pdop` raises an exception. -/
def callSdop (s : State V R) (D : V → R → R) (t : SObj R) (f : R) : Option R :=
  (t.mapM (callTerm s D f)).map List.sum

/-- What a program does. -/
inductive Action (V R : Type*)
  | newDict (d : Dict V ℕ)
  | assign (ref : ℕ) (x : V) (n : ℕ)
  | pdop (arg : PArg V)
  | diff (p : ℕ) (x : V) (n : ℕ)
  | sdop (args : List (SArg V R))

/-- One action; an action that raises an exception changes nothing. -/
def State.act (s : State V R) : Action V R → State V R
  | .newDict d => { s with dicts := s.dicts ++ [d] }
  | .assign r x n => { s with dicts := s.dicts.modify r fun d => d.set x n }
  | .pdop arg => match mkPdop s arg with
    | .ok p => { s with pdops := s.pdops ++ [p] }
    | .error _ => s
  | .diff p x n => match s.pdops[p]? with
    | some p => { s with pdops := s.pdops ++ [diffPdop s p x n] }
    | none => s
  | .sdop args => match mkSdop s args with
    | .ok (ps, t) => { s with pdops := s.pdops ++ ps, sdops := s.sdops ++ [t] }
    | .error _ => s

/-- A history. -/
def State.run (s : State V R) (l : List (Action V R)) : State V R := l.foldl State.act s

end GA.DopHeap
