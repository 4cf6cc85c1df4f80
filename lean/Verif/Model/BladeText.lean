import Verif.Model.Session
import Verif.Model.Ga

/-!
# Names of basis blades

Model of the text forms of basis blades and bases (`galgebra/atoms.py`) and of `Ga.bases_dict`.
Strings are lists of characters; `names i` is the name of basis vector `i`.
-/

namespace GA
variable {n : ℕ}

/-- `_GradedSymbol.__new__` and `_JoinedPrinterMixin._sympystr` (galgebra/atoms.py:50-72): no symbol
gives the number `1`, one symbol is printed as itself, several are joined by the operator.
Simplification: the printer is SymPy's plain `StrPrinter`, which prints a symbol as its name. -/
def joinedText (op : Char) (names : Fin n → List Char) : List (Fin n) → List Char
  | [] => ['1']
  | [i] => names i
  | I => joinWith op (I.map names)

/-- Text of `BasisBladeSymbol` (galgebra/atoms.py:96-100). -/
def bladeText (names : Fin n → List Char) (I : List (Fin n)) : List Char := joinedText '^' names I

/-- Text of `BasisBaseSymbol` (galgebra/atoms.py:89-93). -/
def baseText (names : Fin n → List Char) (I : List (Fin n)) : List Char := joinedText '*' names I

/-- The loop of `BasisBladeNoWedgeSymbol._split_name` (galgebra/atoms.py:106-113): the parts before and
after the underscore of a name; `none` is the `ValueError`. -/
def splitName (s : List Char) : Option (List Char × List Char) :=
  match splitOn '_' s with
  | [r, t] => some (r, t)
  | _ => none

/-- `_all_same` (galgebra/atoms.py:22-23): all entries equal the first one. -/
def allSame : List (List Char) → Bool
  | [] => true
  | x :: l => l.all fun y => y == x

/-- `BasisBladeNoWedgeSymbol._split_name` and `__common_printer` (galgebra/atoms.py:103-123): the common
root, an underscore and the joined subscripts.  `none` is the `ValueError` of a name without exactly one
underscore, or of different roots.  As for the other symbols (galgebra/atoms.py:50-60) no symbol is the
number `1`, and one symbol is printed as itself. -/
def noWedgeText (names : Fin n → List Char) : List (Fin n) → Option (List Char)
  | [] => some ['1']
  | [i] => some (names i)
  | I => do
    let l ← I.mapM fun i => splitName (names i)
    if allSame (l.map Prod.fst) then
      return ((l.map Prod.fst).headD []) ++ '_' :: (l.map Prod.snd).flatten
    else none

/-- The text of a basis blade as `Ga._build_basis_blade_symbol` makes it (galgebra/ga.py:1030-1035):
with or without wedges. -/
def symText (wedge : Bool) (names : Fin n → List Char) (I : List (Fin n)) : Option (List Char) :=
  if wedge then some (bladeText names I) else noWedgeText names I

/-- `Ga.bases_dict` (galgebra/ga.py:923-942): the dictionary of the basis blades except the scalar, each
under the prefix and the digits of its text; a blade with the same key as an earlier one replaces it.
`none` is the exception of a blade that has no text.  Simplification: `str.isdigit` is true for the ten
ASCII digits only.  -/
def basesDict (wedge : Bool) (names : Fin n → List Char) (pfx : List Char := ['e']) :
    Option (Dict (List Char) (List (Fin n))) := do
  let bl := (flat (indexes n)).tail
  let varNames ← bl.mapM fun I => do
    let s ← symText wedge names I
    return pfx ++ s.filter Char.isDigit
  return Dict.ofItems (varNames.zip bl)

end GA
