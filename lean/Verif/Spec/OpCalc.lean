import Verif.Model.DopSimplify
import Mathlib.RingTheory.Derivation.Basic

/-!
# Calculations with scalar differential operators whose coefficients are expressions

`R` is the ring of expressions, `φ` gives the value of an expression in a ring `S`, for instance of functions.
-/

namespace GA
variable {V : Type*} [DecidableEq V] {R S : Type*} [CommRing R] [DecidableEq R] [CommRing S]

/-- A function on expressions that keeps the value, such as SymPy's `simplify`. -/
def KeepsValue (φ : R →+* S) (f : R → R) : Prop := ∀ c, φ (f c) = φ c

/-- What a program can do with scalar operators. -/
inductive OpCalc (φ : R →+* S) (V : Type*)
  /-- an operator that is given -/
  | given (i : ℕ)
  /-- `Sdop(x)` -/
  | symbol (x : V)
  | add (p q : OpCalc φ V)
  | sub (p q : OpCalc φ V)
  | neg (p : OpCalc φ V)
  /-- `p + c` -/
  | addScalar (p : OpCalc φ V) (c : R)
  /-- `c + p` -/
  | scalarAdd (c : R) (p : OpCalc φ V)
  /-- `c - p` -/
  | scalarSub (c : R) (p : OpCalc φ V)
  /-- `c * p` -/
  | smul (c : R) (p : OpCalc φ V)
  /-- `p * q` of two operators -/
  | mul (p q : OpCalc φ V)
  /-- `diff(p, x)`, the derivative of the operator by `x`, `k` times -/
  | diff (x : V) (k : ℕ) (p : OpCalc φ V)
  | consolidate (p : OpCalc φ V)
  | simplify (modes : List {f : R → R // KeepsValue φ f}) (p : OpCalc φ V)
  | tSimplify (modes : List {f : R → R // KeepsValue φ f}) (p : OpCalc φ V)

variable {φ : R →+* S}

/-- The operator that the library computes. -/
def OpCalc.run (D : V → R → R) (a : ℕ → Sdop R V) : OpCalc φ V → Sdop R V
  | .given i => a i
  | .symbol x => [(1, Pdop.single x)]
  | .add p q => (p.run D a).add (q.run D a)
  | .sub p q => (p.run D a).sub (q.run D a)
  | .neg p => (p.run D a).neg
  | .addScalar p c => (p.run D a).addScalar c
  | .scalarAdd c p => Sdop.scalarAdd c (p.run D a)
  | .scalarSub c p => Sdop.scalarSub c (p.run D a)
  | .smul c p => Sdop.smul c (p.run D a)
  | .mul p q => (p.run D a).mul D (q.run D a)
  | .diff x k p => (p.run D a).diff D x k
  | .consolidate p => (p.run D a).consolidate
  | .simplify modes p => (p.run D a).simplify (modes.map Subtype.val)
  | .tSimplify modes p => (p.run D a).tSimplify (modes.map Subtype.val)

/-- The mathematical meaning: an operator on `S`, where `D' x` is the derivative by `x`.  Products are compositions,
scalars act by multiplication, consolidation and simplification do nothing. -/
def OpCalc.value (D' : V → S → S) (a : ℕ → S → S) : OpCalc φ V → S → S
  | .given i, h => a i h
  | .symbol x, h => D' x h
  | .add p q, h => p.value D' a h + q.value D' a h
  | .sub p q, h => p.value D' a h - q.value D' a h
  | .neg p, h => - p.value D' a h
  | .addScalar p c, h => p.value D' a h + φ c * h
  | .scalarAdd c p, h => φ c * h + p.value D' a h
  | .scalarSub c p, h => φ c * h - p.value D' a h
  | .smul c p, h => φ c * p.value D' a h
  | .mul p q, h => p.value D' a (q.value D' a h)
  | .diff x k p, h => (D' x)^[k] (p.value D' a h)
  | .consolidate p, h => p.value D' a h
  | .simplify _ p, h => p.value D' a h
  | .tSimplify _ p, h => p.value D' a h

/-- What the terms of an operator say, as an operator on `S`: the sum over the terms of the value of the coefficient times
the partial derivative. -/
def Sdop.meaning (φ : R →+* S) (D' : V → S → S) (s : Sdop R V) (h : S) : S :=
  (s.map fun t => φ t.1 * (t.2.foldl (fun h xn => (D' xn.1)^[xn.2] h) h)).sum

end GA
