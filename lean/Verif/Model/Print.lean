import Verif.Model.Mv

/-!
# Model of the text form of a multivector (mv.py `_sympystr`)

`show c b` is the text SymPy's printer gives for the product `c * b` of a coefficient and a blade symbol
(for `b = 1` the text of `c`).  Strings are lists of characters.  Simplification: `Simp.apply`
(mv.py:615), which rewrites the coefficients without changing their values, is the identity.
-/

namespace GA
variable {n : ℕ} {R : Type*} [CommRing R] [DecidableEq R]

/-- mv.py:633-646: the body of the loop over `self.obj.args` that collects the coefficients; the state is
`grade0` and the dictionary `terms`. -/
def collectStep (keys : List (Sym n)) (grades : Dict (Sym n) ℕ)
    (acc : R × Dict ℤ (R × Sym n × ℤ)) (t : R × Sym n) : R × Dict ℤ (R × Sym n × ℤ) :=
  if t.2 = .blade [] then (acc.1 + t.1, acc.2)
  else if t.2 ∈ keys then
    let index : ℤ := keys.idxOf t.2
    match acc.2.get? index with
    | some (c, base, gr) => (acc.1, acc.2.set index (c + t.1, base, gr))
    | none => (acc.1, acc.2.set index (t.1, t.2, ((grades.get? t.2).getD 0 : ℕ)))
  else acc

/-- mv.py:630-650, and 718-738 in `_latex`: `sorted_terms`.  `g0` is the grade that the scalar part gets: -1
in `_sympystr` and 0 in `_latex`. -/
def sortedTerms (g0 : ℤ) (keys : List (Sym n)) (grades : Dict (Sym n) ℕ) (args : Expr R n) :
    List (ℤ × (R × Sym n × ℤ)) :=
  let (grade0, terms) := args.foldl (collectStep keys grades) (0, [])
  let terms := if grade0 ≠ 0 then Dict.set terms (-1) (grade0, .blade [], g0) else terms
  terms.insertionSort fun a b => a.1 ≤ b.1

/-- mv.py:621-626, and 708-713 in `_latex`: the keys are the basis blades or the bases. -/
def mvTerms (g : Matrix (Fin n) (Fin n) R) (g0 : ℤ) (args : Expr R n) : List (ℤ × (R × Sym n × ℤ)) :=
  if (Mv.ofExpr args).isBladeRep || isOrtho g then
    sortedTerms g0 (flat (blades n)) (bladesToGrades n) args
  else sortedTerms g0 (flat (bases n)) (basesToGrades n) args

/-- mv.py:658-670: the body of the loop over `sorted_terms[1:]`; the state is the string and
`old_grade`.  `none`: the `IndexError` of `term[0]`. -/
def printStep (fmt : ℕ) (shows : R → Sym n → List Char) (acc : List Char × ℤ)
    (e : ℤ × (R × Sym n × ℤ)) : Option (List Char × ℤ) :=
  let (s, oldGrade) := acc
  let (_, c, base, grade) := e
  let term := shows c base
  let (s, oldGrade) := if fmt = 2 ∧ oldGrade ≠ grade then (s ++ ['\n'], grade) else (s, oldGrade)
  match term with
  | [] => none
  | x :: rest =>
    let term := if x = '-' then [' ', '-', ' '] ++ rest else [' ', '+', ' '] ++ term
    some (if fmt = 3 then s ++ term ++ ['\n'] else s ++ term, oldGrade)

/-- mv.py:652-673: the string for `sorted_terms`.  `none`: an `IndexError`. -/
def printTerms (fmt : ℕ) (shows : R → Sym n → List Char) :
    List (ℤ × (R × Sym n × ℤ)) → Option (List Char)
  | [] => none
  | e :: es =>
    let s := shows e.2.1 e.2.2.1
    let s := if fmt = 3 then ' ' :: s ++ ['\n'] else s
    let s := if fmt = 2 then ' ' :: s else s
    (es.foldlM (printStep fmt shows) (s, e.2.2.2)).bind fun r =>
      match r.1.getLast? with
      | none => none
      | some '\n' => some r.1.dropLast
      | some _ => some r.1

/-- mv.py:611-675 `_sympystr`, with the setting `galgebra_mv_fmt`.  `args` are the terms of the expanded
expression, as SymPy lists them: several terms may have the same symbol.  `none`: an exception. -/
def mvStr (g : Matrix (Fin n) (Fin n) R) (fmt : ℕ) (shows : R → Sym n → List Char)
    (args : Expr R n) : Option (List Char) :=
  if args.all fun t => decide (t.2 = .blade []) then
    some (shows (args.map Prod.fst).sum (.blade []))
  else
    match args with
    | [(c, b)] => some (shows c b)
    | _ => printTerms fmt shows (mvTerms g (-1) args)

end GA
