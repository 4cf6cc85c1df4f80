import Verif.Model.Pseudo

/-!
# Session state: dual mode, algebra names, `Cl(p, q, r)`

Strings are lists of characters.
-/

namespace GA

/-! ## Strings -/

/-- Python `s.split(c)` for a one-character separator. -/
def splitOn (c : Char) : List Char → List (List Char)
  | [] => [[]]
  | x :: s =>
    if x = c then [] :: splitOn c s
    else match splitOn c s with
      | [] => [[x]]
      | w :: ws => (x :: w) :: ws

/-- Python `c.join(l)` for a one-character separator. -/
def joinWith (c : Char) : List (List Char) → List Char
  | [] => []
  | [w] => w
  | w :: ws => w ++ c :: joinWith c ws

/-- Python `str(i)` of a natural number. -/
def strNat (i : ℕ) : List Char := Nat.toDigits 10 i

/-- Python `int(s)`, for strings of decimal digits only (simplification: signs, white space and
underscores, which `int` also accepts, do not occur in the strings of this model). -/
def parseNat (s : List Char) : Option ℕ :=
  if s ≠ [] ∧ s.all Char.isDigit then some (Nat.ofDigitChars 10 s 0) else none

/-- Python `s.replace('_', '__', 1)`. -/
def replaceFirstUnderscore : List Char → List Char
  | [] => []
  | x :: s => if x = '_' then '_' :: '_' :: s else x :: replaceFirstUnderscore s

/-- metric.py:178-297 `symbols_list(s, sub=sub)`: the names of the symbols; `none` is a `ValueError`.
Not modelled: the `indices` argument (metric.py:295-296) and an `s` that is already a list. -/
def symbolsList (s : List Char) (sub : Bool) : Option (List (List Char)) :=
  let pos := if sub then ['_'] else ['_', '_']
  if '*' ∈ s then
    match splitOn '*' s with
    | [base, index] =>
      if '|' ∈ s then some ((splitOn '|' index).map fun i => base ++ pos ++ i)
      else (parseNat index).map fun m => (List.range m).map fun i => base ++ pos ++ strNat i
    | _ => none
  else
    let lst :=
      if s = [] then []
      else if ',' ∈ s then
        let l := splitOn ',' s
        if l.getLast? = some [] then l.dropLast else l
      else splitOn ' ' s
    some (if sub then lst else lst.map replaceFirstUnderscore)

/-! ## `Cl(p, q, r)` -/

/-- interop/_cl.py:63 and interop/kingdon.py:72: the diagonal of the metric. -/
def clMetric (p q r : ℕ) : List ℤ :=
  List.replicate p 1 ++ List.replicate q (-1) ++ List.replicate r 0

/-- interop/_cl.py:66-69: basis string of `galgebra.interop.Cl`. -/
def clBasis (m : ℕ) (root : List Char) : List Char :=
  if m ≤ 9 then root ++ '*' :: joinWith '|' ((List.range m).map fun i => strNat (i + 1))
  else joinWith ' ' ((List.range m).map fun i => root ++ '_' :: strNat (i + 1))

/-- interop/kingdon.py:75-78: basis string of `galgebra.interop.kingdon.Cl`. -/
def kingdonBasis (m : ℕ) (root : List Char) : List Char :=
  if m ≤ 10 then root ++ '*' :: joinWith '|' ((List.range m).map fun i => strNat i)
  else joinWith ' ' ((List.range m).map fun i => root ++ '_' :: strNat i)

/-- What a user sees of a new algebra: the names of the basis vectors (their number is the dimension
`n`, metric.py:742) and the metric tensor. -/
structure NewAlgebra where
  names : List (List Char)
  diagonal : List ℤ
  deriving DecidableEq

/-- metric.py:723-742, 792-800: `Ga(basis, g=diagonal)` for a basis string without `coords`: `none`
is a `ValueError`.  The metric is the diagonal matrix with the given entries. -/
def buildDiagonal (basis : List Char) (diagonal : List ℤ) : Option NewAlgebra :=
  if ' ' ∈ basis ∨ ',' ∈ basis ∨ '*' ∈ basis ∨ basis = [] then
    (symbolsList basis true).map fun names => ⟨names, diagonal⟩
  else none

/-- interop/_cl.py:9-71 `Cl(p, q, r, root)` without further keyword arguments. -/
def cl (p q r : ℕ) (root : List Char) : Option NewAlgebra :=
  if p + q + r = 0 then none
  else buildDiagonal (clBasis (p + q + r) root) (clMetric p q r)

/-- interop/kingdon.py:12-80 `Cl(p, q, r, root)` without further keyword arguments. -/
def kingdonCl (p q r : ℕ) (root : List Char) : Option NewAlgebra :=
  if p + q + r = 0 then none
  else buildDiagonal (kingdonBasis (p + q + r) root) (clMetric p q r)

/-! ## Session -/

/-- How the construction of an algebra ends: before the name is assigned (for instance an unknown
keyword argument, a `TypeError` raised by the call itself), after it (every exception raised in the
body of `Metric.__init__` or later), or not at all. -/
inductive Build | early | late | ok
  deriving DecidableEq

/-- Calls that touch the global state. -/
inductive Event
  /-- `Ga.dual_mode(mode)` -/
  | dualMode (mode : String)
  /-- `Ga(...)`, `Ga.build(...)`, `Ga.sm(...)`: everything that runs `Metric.__init__` -/
  | ga (b : Build)
  /-- `galgebra.interop.Cl(p, q, r, ...)` -/
  | cl (p q r : ℕ) (b : Build)
  /-- `galgebra.interop.kingdon.Cl(p, q, r, ...)` -/
  | kingdon (p q r : ℕ) (b : Build)
  deriving DecidableEq

/-- Global state: `Ga.dual_mode_value` (ga.py:568), `Metric.count` (metric.py:369), and the names of
the algebras returned so far. -/
structure Session where
  mode : String
  count : ℕ
  names : List (List Char)
  deriving DecidableEq

/-- State after import. -/
def Session.init : Session := ⟨"I+", 1, []⟩

/-- metric.py:710 name of an algebra. -/
def gaName (count : ℕ) : List Char := 'G' :: 'A' :: strNat count

/-- metric.py:710-711: naming, and the ways the construction can end.  The flag says whether the
call returned. -/
def Session.build (s : Session) : Build → Session × Bool
  | .early => (s, false)
  | .late => ({ s with count := s.count + 1 }, false)
  | .ok => ({ s with count := s.count + 1, names := s.names ++ [gaName s.count] }, true)

/-- ga.py:577-600 `Ga.dual_mode`. -/
def Session.dualMode (s : Session) (mode : String) : Session × Bool :=
  if mode ∈ dualModeLst then ({ s with mode := mode }, true) else (s, false)

/-- One call: new state, and whether it returned (`true`) or raised (`false`). -/
def Session.step (s : Session) : Event → Session × Bool
  | .dualMode m => s.dualMode m
  | .ga b => s.build b
  | .cl p q r b => if p + q + r = 0 then (s, false) else (s.dualMode "I+").1.build b
  | .kingdon p q r b => if p + q + r = 0 then (s, false) else (s.dualMode "Iinv+").1.build b

/-- State after a sequence of calls. -/
def Session.run (s : Session) (evs : List Event) : Session := evs.foldl (fun s e => (s.step e).1) s

/-- A multivector together with the name of its algebra. -/
structure TaggedMv (R : Type*) (n : ℕ) where
  ga : List Char
  mv : Mv R n

/-- ga.py:652-653 `Ga.__eq__`: comparison of names. -/
def gaEq (a b : List Char) : Bool := decide (a = b)

/-- mv.py:524-527, 557-558, 792-793, 815-816, 865-866, 885-886: the guard of `+`, `-`, `*`, `^`, `|`,
`<` and `>` (and of `==`, which subtracts, mv.py:482); `none` is the `ValueError`. -/
def guarded {R : Type*} {n : ℕ} {β : Type*} (op : Mv R n → Mv R n → β) (A B : TaggedMv R n) : Option β :=
  if gaEq A.ga B.ga then some (op A.mv B.mv) else none

end GA
