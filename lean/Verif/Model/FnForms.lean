import Verif.Model.Operands
import Verif.Model.Blade
import Verif.Model.Inverse
import Verif.Model.Functions
import Verif.Model.Signature

/-!
# Model of the module level functions of galgebra/mv.py, and of formulas built from them

The functions take multivectors; numbers and SymPy expressions are refused, with exceptions of different
types, except by `exp`.  Numbers arise in formulas because `scalar`, `sp`, `qform` and the norms return SymPy
expressions.
-/

namespace GA
variable {n : ℕ} {K : Type*}

/-- The exceptions of a formula.  `method`: an exception that a method of `Mv` raises because of the values
of its operands, or a division by zero.  `foreign`: an operator of Python or SymPy between two numbers that
gives neither a number nor a multivector. -/
inductive FnError
  | valueError
  | typeError
  | importError
  | attributeError
  | method
  | foreign
deriving DecidableEq, Repr

/-- The functions of one multivector that return a multivector. -/
inductive MvFn
  | dual | undual | even | odd | gInvol | inv | shirokovInverse | hitzerInverse | rev | ccon
deriving DecidableEq, Repr

/-- The functions of one multivector that return a SymPy expression; the hint is a string. -/
inductive NumFn
  | scalar | qform | norm2 (hint : String) | norm (hint : String) | mag2 | mag
deriving DecidableEq, Repr

/-- What the functions depend on: the metric tensor, `Ga.i`, `Ga.i_inv`, `dual_mode_value`, the elementary
functions of SymPy, `sympy.exp`, and the norms and magnitudes, which are methods of `Mv`. -/
structure FnEnv (K : Type*) [Field K] (n : ℕ) where
  g : Matrix (Fin n) (Fin n) K
  i : Mv K n
  iInv : Mv K n
  mode : String
  elementary : Elementary K
  expNum : K → K
  norm2 : String → Mv K n → Option K
  norm : String → Mv K n → Option K
  mag2 : Mv K n → Option K
  mag : Mv K n → Option K

section field
variable [Field K] [DecidableEq K] [Invertible (2 : K)]

/-- `isinstance(A, Mv)`; otherwise the exception `e`. -/
def Operand.isMv (e : FnError) : Operand K n → Except FnError (Mv K n)
  | .mv A => .ok A
  | .scalar _ => .error e

/-- A method of `Mv` that may raise. -/
def ofMethod {α : Type*} : Option α → Except FnError α
  | some a => .ok a
  | none => .error .method

/-- The methods `Mv.dual`, `Mv.undual` and so on. -/
def MvFn.method (E : FnEnv K n) : MvFn → Mv K n → Option (Mv K n)
  | .dual, A => some (A.dual E.g E.i E.iInv E.mode)
  | .undual, A => some (A.undual E.g E.i E.iInv E.mode)
  | .even, A => some A.even
  | .odd, A => some A.odd
  | .gInvol, A => some (A.gInvol E.g)
  | .inv, A => A.inv E.g
  | .shirokovInverse, A => (A.shirokovInverse E.g).toOption
  | .hitzerInverse, A => (A.hitzerInverse E.g).toOption
  | .rev, A => some (A.rev E.g)
  | .ccon, A => some (A.ccon E.g)

/-- mv.py:2078-2083 `dual`, 2087-2096 `undual`, 2100-2104 `even`, 2107-2111 `odd`, 2115-2124 `g_invol`,
2148-2152 `inv`, 2155-2159 `shirokov_inverse`, 2162-2166 `hitzer_inverse`, 2292-2297 `rev`, 2301-2310
`ccon`. -/
def MvFn.call (E : FnEnv K n) (f : MvFn) (x : Operand K n) : Except FnError (Operand K n) :=
  match x.isMv .valueError with
  | .error e => .error e
  | .ok A => (ofMethod (f.method E A)).map .mv

/-- The methods `Mv.scalar`, `Mv.qform` and so on. -/
def NumFn.method (E : FnEnv K n) : NumFn → Mv K n → Option K
  | .scalar, A => some A.scalar
  | .qform, A => some (A.qform E.g)
  | .norm2 hint, A => E.norm2 hint A
  | .norm hint, A => E.norm hint A
  | .mag2, A => E.mag2 A
  | .mag, A => E.mag A

/-- The type of the exception for a number: `scalar` raises a `ValueError`, the others a `TypeError`. -/
def NumFn.refusal : NumFn → FnError
  | .scalar => .valueError
  | _ => .typeError

/-- mv.py:2314-2318 `scalar`, 2170-2180 `qform`, 2185-2202 `norm2`, 2207-2220 `norm`, 2225-2238 `mag2`,
2243-2253 `mag`. -/
def NumFn.call (E : FnEnv K n) (f : NumFn) (x : Operand K n) : Except FnError (Operand K n) :=
  match x.isMv f.refusal with
  | .error e => .error e
  | .ok A => (ofMethod (f.method E A)).map .scalar

/-- mv.py:2128-2137 `exp`. -/
def expCall (E : FnEnv K n) (hint : String) : Operand K n → Except FnError (Operand K n)
  | .mv A => (ofMethod (A.exp E.g E.elementary (hint = "+") (hint = "-"))).map .mv
  | .scalar c => .ok (.scalar (E.expNum c))

/-- mv.py:2140-2145 `grade`, with mv.py:1530-1531 `Mv.grade`. -/
def gradeCall (r : ℕ) (x : Operand K n) : Except FnError (Operand K n) :=
  match x.isMv .valueError with
  | .error e => .error e
  | .ok A => .ok (.mv (A.getGrade r))

/-- mv.py:2322-2333 `sp` and the test of its second argument in mv.py:1171-1172.  `none`: the `switch` is
neither `''` nor `'rev'`. -/
def spCall (E : FnEnv K n) (switch : Option Bool) (x y : Operand K n) : Except FnError (Operand K n) :=
  match x.isMv .valueError with
  | .error e => .error e
  | .ok A => match y.isMv .valueError with
    | .error e => .error e
    | .ok B => match switch with
      | none => .error .valueError
      | some false => .ok (.scalar (A.sp E.g B))
      | some true => .ok (.scalar (A.spRev E.g B))

/-- mv.py:2257-2262 `proj(B, A)`.  A number has no method `is_blade`. -/
def projCall (E : FnEnv K n) (b a : Operand K n) : Except FnError (Operand K n) :=
  match a.isMv .valueError with
  | .error e => .error e
  | .ok A => match b.isMv .attributeError with
    | .error e => .error e
    | .ok B => (ofMethod (A.projectInBlade E.g B)).map .mv

/-- mv.py:2276-2289 `refl(B, A)`. -/
def reflCall (E : FnEnv K n) (b a : Operand K n) : Except FnError (Operand K n) :=
  match a.isMv .valueError with
  | .error e => .error e
  | .ok A => match b.isMv .attributeError with
    | .error e => .error e
    | .ok B => (ofMethod (A.reflectInBlade E.g B)).map .mv

/-- mv.py:2265-2273 `rot(itheta, A, hint)`.  A number has no method `exp`. -/
def rotCall (E : FnEnv K n) (hint : String) (t a : Operand K n) : Except FnError (Operand K n) :=
  match a.isMv .valueError with
  | .error e => .error e
  | .ok A => match t.isMv .attributeError with
    | .error e => .error e
    | .ok T => (ofMethod (A.rotate E.g E.elementary (hint = "+") (hint = "-") T)).map .mv

/-- mv.py:2067-2075 `cross(v1, v2)`.  A number has no method `is_vector`; the second argument is looked at
only if the first one is a vector.  The `ValueError` for multivectors that are not vectors of a three
dimensional algebra is `method`. -/
def crossCall (E : FnEnv K n) (x y : Operand K n) : Except FnError (Operand K n) :=
  match x.isMv .attributeError with
  | .error e => .error e
  | .ok A =>
    if A.isVector E.g then match y.isMv .attributeError with
      | .error e => .error e
      | .ok B => (ofMethod (cross E.g E.i A B)).map .mv
    else .error .method

/-- An operator; with two numbers `+`, `-` and `*` are the operations of the field. -/
def opCall (E : FnEnv K n) (op : BinOp) (x y : Operand K n) : Except FnError (Operand K n) :=
  match x, y with
  | .scalar a, .scalar b => match op with
    | .add => .ok (.scalar (a + b))
    | .sub => .ok (.scalar (a - b))
    | .mul => .ok (.scalar (a * b))
    | _ => .error .foreign
  | x, y => (ofMethod (op.apply E.g x y)).map .mv

/-- `x / y`. -/
def divCall (E : FnEnv K n) (x y : Operand K n) : Except FnError (Operand K n) :=
  match x, y with
  | .scalar a, .scalar b => if b = 0 then .error .method else .ok (.scalar (a / b))
  | x, y => (ofMethod (divide E.g x y)).map .mv

/-- ga.py:602-616 `Ga.com(A, B)`: `S.Half * (A * B - B * A)`. -/
def comCall (E : FnEnv K n) (x y : Operand K n) : Except FnError (Operand K n) :=
  match opCall E .mul x y, opCall E .mul y x with
  | .ok p, .ok q => match opCall E .sub p q with
    | .ok d => opCall E .mul (.scalar ⅟2) d
    | .error e => .error e
  | .error e, _ => .error e
  | _, .error e => .error e

/-- A formula: what a user types with the functions and operators. -/
inductive Formula (K : Type*)
  | var (k : ℕ)
  | num (c : K)
  | op (o : BinOp) (p q : Formula K)
  | div (p q : Formula K)
  | mvFn (f : MvFn) (p : Formula K)
  | numFn (f : NumFn) (p : Formula K)
  | exp (hint : String) (p : Formula K)
  | grade (p : Formula K) (r : ℕ)
  | sp (switch : Option Bool) (p q : Formula K)
  | proj (b a : Formula K)
  | refl (b a : Formula K)
  | rot (hint : String) (t a : Formula K)
  | cross (p q : Formula K)
  | com (p q : Formula K)       -- Ga.com(p, q)
  | mvCom (p q : Formula K)     -- mv.com(p, q)

/-- Arguments are evaluated from left to right, then the function is called. -/
def call2 {α : Type*} (f : α → α → Except FnError α) (x y : Except FnError α) : Except FnError α :=
  match x with
  | .error e => .error e
  | .ok a => match y with
    | .error e => .error e
    | .ok b => f a b

/-- Python's value of a formula; `a` are the variables. -/
def Formula.run (E : FnEnv K n) (a : ℕ → Operand K n) : Formula K → Except FnError (Operand K n)
  | .var k => .ok (a k)
  | .num c => .ok (.scalar c)
  | .op o p q => call2 (opCall E o) (p.run E a) (q.run E a)
  | .div p q => call2 (divCall E) (p.run E a) (q.run E a)
  | .mvFn f p => (p.run E a).bind (f.call E)
  | .numFn f p => (p.run E a).bind (f.call E)
  | .exp hint p => (p.run E a).bind (expCall E hint)
  | .grade p r => (p.run E a).bind (gradeCall r)
  | .sp s p q => call2 (spCall E s) (p.run E a) (q.run E a)
  | .proj b p => call2 (projCall E) (b.run E a) (p.run E a)
  | .refl b p => call2 (reflCall E) (b.run E a) (p.run E a)
  | .rot hint t p => call2 (rotCall E hint) (t.run E a) (p.run E a)
  | .cross p q => call2 (crossCall E) (p.run E a) (q.run E a)
  | .com p q => call2 (comCall E) (p.run E a) (q.run E a)
  -- mv.py:2045-2047 `com`: always an `ImportError`
  | .mvCom p q => call2 (fun _ _ => .error .importError) (p.run E a) (q.run E a)

end field

/-- The environment of an algebra over an ordered field: the norms and magnitudes are the methods of `Mv`. -/
def FnEnv.ordered [Field K] [LinearOrder K] [Invertible (2 : K)] (g : Matrix (Fin n) (Fin n) K)
    (i iInv : Mv K n) (mode : String) (F : Elementary K) (expNum : K → K) (T : SignTests K) (R : RootFuns K)
    (isNonneg : K → Bool) (posDef : Bool) : FnEnv K n :=
  ⟨g, i, iInv, mode, F, expNum, fun hint A => A.norm2 g T posDef hint,
    fun hint A => A.norm g T R isNonneg posDef hint, fun A => A.mag2 g T posDef,
    fun A => A.mag g T R posDef⟩

end GA
