import Verif.Model.Mlt
import Verif.Model.Session

/-!
# Model of `Mlt.comps` (galgebra/lt.py)

Strings are lists of characters; `str` is Python's `str` of the value of a call.
-/

namespace GA
open MvPolynomial
variable {n : ℕ} {K : Type*} [Field K] [DecidableEq K] [Invertible (2 : K)]

/-- Python's `str` of a tuple of natural numbers: `()`, `(i,)` or `(i, j, ...)`. -/
def strTuple : List ℕ → List Char
  | [] => "()".toList
  | [i] => '(' :: (strNat i ++ ",)".toList)
  | i :: l => '(' :: (strNat i ++ (l.flatMap fun j => ", ".toList ++ strNat j) ++ [')'])

/-- lt.py:989-1000 `Mlt.comps`: the number of empty lines printed during the loop, and the text that is returned; `none`:
the `IndexError` of `i_index[-1]` for a function without arguments.  `rb` and `slots` are as for `Mlt.call`; the basis
vectors `Ga.mv()` have constant components. -/
noncomputable def Mlt.comps (g : Matrix (Fin n) (Fin n) K) (rb : List (Mv K n)) (slots : ℕ)
    (str : SlotPoly K n → List Char) (T : Mlt K n) : Option (ℕ × List Char) :=
  let basis : List (Mv (SlotPoly K n) n) := (List.finRange n).map fun i => Mv.vector fun k => C (if k = i then 1 else 0)
  let rank := T.nargs
  let ndim := basis.length
  let iIndexes := itProduct (List.replicate rank (List.range ndim))
  let indexes := itProduct (List.replicate rank basis)
  -- for i, (e, i_index) in enumerate(zip(indexes, i_indexes))
  (indexes.zip iIndexes).zipIdx.foldlM (fun (s : ℕ × List Char) p =>
    match p.1.2.getLast? with
    | none => none
    | some j =>
      let blank := if j % ndim = 0 then s.1 + 1 else s.1
      some (blank, s.2 ++ (strNat p.2 ++ [':'] ++ strTuple p.1.2 ++ [':'] ++ str (T.call g rb slots p.1.1) ++ ['\n'])))
    (0, [])

end GA
