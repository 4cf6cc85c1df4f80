import Verif.Model.Names

/-!
# Model of the constructors of multivectors: `Mv.__init__` (mv.py) and `Ga.mv` (ga.py)
-/

namespace GA
variable {n : ℕ} {R : Type}

/-- The exceptions of the constructors. -/
inductive CtorErr
  | indexError
  | typeError
  | valueError
  | attributeError
deriving DecidableEq, Repr

/-- The symbols and functions a constructor makes, by name: `Symbol(name)` or `Function(name)(*args)`. -/
inductive Atom
  | symbol (name : List Char)
  | function (name : List Char) (args : List (List Char))
deriving DecidableEq, Repr

/-- A positional argument: a string, an integer, a list or tuple of coefficients, a SymPy expression or a
multivector. -/
inductive PyArg (R : Type*) (n : ℕ)
  | str (s : List Char)
  | int (k : ℤ)
  | coeffs (cs : List R)
  | expr (E : Expr R n)
  | mv (A : Mv R n)

/-- The value of a keyword argument: a boolean or a tuple of the names of variables. -/
inductive PyKw
  | bool (b : Bool)
  | vars (l : List (List Char))
deriving DecidableEq, Repr

/-- Keyword arguments other than `ga`, `recp` and `coords`, which `Mv.__init__` names. -/
abbrev Kwargs := List (List Char × PyKw)

/-- What the constructors use of the algebra: the super scripts of the basis vectors
(`Ga.basis_super_scripts`), the coordinates, and the value of every symbol and function. -/
structure CtorEnv (R : Type*) where
  scripts : List (List Char)
  coords : Option (List (List Char))
  atom : Atom → R

/-- Python `l[k]`; `none` is an `IndexError`.  Negative indices count from the end. -/
def pyIndex {α : Type*} (l : List α) (k : ℤ) : Option α :=
  if 0 ≤ k then l[k.toNat]? else if (-k).toNat ≤ l.length then l[l.length - (-k).toNat]? else none

/-- `_utils/kwarg_parser.py:26-34` `pop('f', False)` followed by `reject_remaining`
(kwarg_parser.py:36-43): `f` if it is the only keyword. -/
def popF (kw : Kwargs) : Except CtorErr PyKw :=
  let rest := kw.filter fun p => p.1 ≠ ['f']
  let f := (kw.find? fun p => p.1 = ['f']).elim (.bool false) Prod.snd
  if rest = [] then .ok f else .error .typeError

/-- mv.py:192-203: the coefficient with the given name; functions of all coordinates need coordinates. -/
def mkAtom (coords : Option (List (List Char))) (f : PyKw) (name : List Char) : Except CtorErr Atom :=
  match f with
  | .bool false => .ok (.symbol name)
  | .bool true => match coords with
    | none => .error .typeError
    | some c => .ok (.function name c)
  | .vars l => .ok (.function name l)

/-- The value of an `Option` of which `none` is the exception `e`. -/
def orErr {α : Type*} (e : CtorErr) : Option α → Except CtorErr α
  | none => .error e
  | some a => .ok a

variable (env : CtorEnv R)

/-- mv.py:180-213 `_make_grade(ga, x, k)`. -/
def ctorGrade (kw : Kwargs) (x : PyArg R n) (k : ℤ) : Except CtorErr (Expr R n) :=
  match x with
  | .str name => do
    let f ← popF kw
    let idx : List (List (Fin n)) ← orErr .indexError (pyIndex (indexes n) k)
    let bl : List (Sym n) ← orErr .indexError (pyIndex (blades n) k)
    let scripts : List (List Char) ← orErr .indexError (idx.mapM (bladeSuperScript env.scripts))
    (scripts.zip bl).mapM fun p => do
      let a ← mkAtom env.coords f (addSuperscript name p.1)
      .ok (env.atom a, p.2)
  | .coeffs cs =>
    if kw ≠ [] then .error .typeError
    else do
      let bl : List (Sym n) ← orErr .indexError (pyIndex (blades n) k)
      if cs.length ≤ bl.length then .ok (cs.zip (bl.take cs.length)) else .error .valueError
  | _ => .error .typeError

/-- mv.py:239-270: `reduce(add, (_make_grade(ga, name, grade) for grade in grades))`, for a string only. -/
def ctorGrades (kw : Kwargs) (x : PyArg R n) (grades : List ℕ) : Except CtorErr (Expr R n) :=
  match x with
  | .str name => (grades.mapM fun (r : ℕ) => ctorGrade env kw (.str name : PyArg R n) (r : ℤ)).map List.flatten
  | _ => .error .typeError

variable [CommRing R]

/-- mv.py:214-222 `_make_scalar`: a value is taken as it is, and the keywords are not looked at.  The
`characterise_Mv` that follows expands the value: this raises `AttributeError` for a list and
`SympifyError`, a `ValueError`, for a multivector. -/
def ctorScalar (kw : Kwargs) (x : PyArg R n) : Except CtorErr (Expr R n) :=
  match x with
  | .str name => ctorGrade env kw (.str name : PyArg R n) 0
  | .int k => .ok (scalarE (k : R))
  | .expr E => .ok E
  | .coeffs _ => .error .attributeError
  | .mv _ => .error .valueError

/-- The functions `Mv._make_…`. -/
inductive Maker
  | grade
  | scalar
  | vector
  | bivector
  | pseudo
  | mv
  | even
  | odd
deriving DecidableEq, Repr

/-- mv.py:384 and 180-274: `getattr(Mv, '_make_' + mode, None)`; `grade2` and `spinor` are aliases
(mv.py:272-273). -/
def makerOf (mode : List Char) : Option Maker :=
  if mode = ['g', 'r', 'a', 'd', 'e'] then some .grade
  else if mode = ['s', 'c', 'a', 'l', 'a', 'r'] then some .scalar
  else if mode = ['v', 'e', 'c', 't', 'o', 'r'] then some .vector
  else if mode = ['b', 'i', 'v', 'e', 'c', 't', 'o', 'r'] then some .bivector
  else if mode = ['p', 's', 'e', 'u', 'd', 'o'] then some .pseudo
  else if mode = ['m', 'v'] then some .mv
  else if mode = ['e', 'v', 'e', 'n'] then some .even
  else if mode = ['o', 'd', 'd'] then some .odd
  else if mode = ['g', 'r', 'a', 'd', 'e', '2'] then some .bivector
  else if mode = ['s', 'p', 'i', 'n', 'o', 'r'] then some .even
  else none

/-- mv.py:215-274, 387: `make_func(ga, x, *rest, **kwargs)`; a wrong number of arguments is a `TypeError`.
Simplification: an expression as grade is a `TypeError` here, while Python accepts a SymPy integer. -/
def make (kw : Kwargs) (x : PyArg R n) : Maker → List (PyArg R n) → Except CtorErr (Expr R n)
  | .grade, [.int k] => ctorGrade env kw x k
  | .scalar, [] => ctorScalar env kw x
  | .vector, [] => ctorGrade env kw x 1
  | .bivector, [] => ctorGrade env kw x 2
  | .pseudo, [] => ctorGrade env kw x n
  | .mv, [] => ctorGrades env kw x (Kind.mv.gradeList n)
  | .even, [] => ctorGrades env kw x (Kind.even.gradeList n)
  | .odd, [] => ctorGrades env kw x (Kind.odd.gradeList n)
  | _, _ => .error .typeError

/-- mv.py:381-387: the category is a string. -/
def ctorMode (kw : Kwargs) (mode : List Char) (x : PyArg R n) (rest : List (PyArg R n)) :
    Except CtorErr (Expr R n) :=
  match makerOf mode with
  | none => .error .valueError
  | some m => make env kw x m rest

variable [DecidableEq R]

/-- mv.py:276-401 `Mv.__init__(*args, ga=ga, **kwargs)`. -/
def Mv.init (args : List (PyArg R n)) (kw : Kwargs) : Except CtorErr (Mv R n) :=
  match args with
  | [] => if kw = [] then .ok Mv.zero else .error .typeError
  | [.str _] => .error .indexError
  | [.mv A] => if kw = [] then .ok (Mv.ofExpr A.obj) else .error .typeError
  | [.expr E] => if kw = [] then .ok (Mv.ofExpr E) else .error .typeError
  | [.int k] => if kw = [] then .ok (Mv.ofExpr (scalarE (k : R))) else .error .typeError
  | [.coeffs _] => .error .attributeError
  | x :: .str mode :: rest => (ctorMode env kw mode x rest).map Mv.ofExpr
  | x :: .int k :: rest =>
    if !rest.isEmpty then .error .typeError
    else if k = 0 then (ctorScalar env kw x).map Mv.ofExpr
    else (ctorGrade env kw x k).map Mv.ofExpr
  | _ => .error .typeError

/-- ga.py:867-904 `Ga.mv(*args, **kwargs)`: one multivector or a tuple.  `ga` among the keywords is a
`TypeError`.  Simplification: a first argument after several names that is a multivector is a
`TypeError` here. -/
def gaMv (args : List (PyArg R n)) (kw : Kwargs) : Except CtorErr (Mv R n ⊕ List (Mv R n)) :=
  match args with
  | [] => .ok (.inr ((List.finRange n).map fun i => Mv.ofExpr (bladeE [i])))
  | x :: rest =>
    if kw.any fun p => p.1 = ['g', 'a'] then .error .typeError
    else
      match x with
      | .str root =>
        if ' ' ∈ root then
          match rest with
          | [] => .error .indexError
          | .str kinds :: rest' =>
            if ' ' ∉ kinds then
              ((splitOn ' ' root).mapM fun r =>
                Mv.init env (.str r :: .str kinds :: rest') kw).map .inr
            else if (splitOn ' ' root).length ≠ (splitOn ' ' kinds).length then .error .valueError
            else
              (((splitOn ' ' root).zip (splitOn ' ' kinds)).mapM fun p =>
                Mv.init env (.str p.1 :: .str p.2 :: rest') kw).map .inr
          | _ => .error .typeError
        else (Mv.init env args kw).map .inl
      | _ => (Mv.init env args kw).map .inl

end GA
