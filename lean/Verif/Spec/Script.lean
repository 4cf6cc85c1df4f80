import Verif.Spec.Program
import Verif.Spec.Frame
import Verif.Model.Operands
import Verif.Model.Blade
import Verif.Model.Inverse
import Verif.Model.Pseudo

/-!
# Specification: scripts

A script is a Python program that calculates with multivectors of one algebra: assignments, `if` and
`while`.  Besides the calculations of `Spec/Program` it can use the operations that may raise: division,
inverses, projection, reflection and duals.  Everything a script does is an operation of the library; this
file only says in which order.
-/

namespace GA
variable {n m : ℕ} {K : Type*} [Field K] [DecidableEq K] [Invertible (2 : K)]

/-- The right hand side of an assignment. -/
inductive Rhs (K : Type*)
  | value (p : Calc K)           -- p
  | div (p q : Calc K)          -- p / q
  | inv (p : Calc K)            -- p.inv()
  | zpow (p : Calc K) (k : ℤ)   -- p ** k
  | hitzer (p : Calc K)         -- p.hitzer_inverse()
  | shirokov (p : Calc K)       -- p.shirokov_inverse()
  | proj (p q : Calc K)         -- p.project_in_blade(q)
  | refl (p q : Calc K)         -- p.reflect_in_blade(q)
  | dual (p : Calc K)           -- p.dual()
  | undual (p : Calc K)         -- p.undual()

/-- A condition. -/
inductive Test (K : Type*)
  | eq (p q : Calc K)           -- p == q
  | isZero (p : Calc K)         -- p.is_zero()
  | isScalar (p : Calc K)       -- p.is_scalar()
  | isVector (p : Calc K)       -- p.is_vector()
  | isVersor (p : Calc K)       -- p.is_versor()
  | isBlade (p : Calc K)        -- p.is_blade()
  | not (t : Test K)
  | and (t u : Test K)

/-- A script; the variables are numbered. -/
inductive Script (K : Type*)
  | pass
  | assign (x : ℕ) (r : Rhs K)
  | seq (P Q : Script K)
  | cond (t : Test K) (P Q : Script K)   -- if t: P else: Q
  | loop (t : Test K) (P : Script K)     -- while t: P

/-- A script that does not use duals. -/
def Script.dualFree {K : Type*} : Script K → Bool
  | .pass => true
  | .assign _ (.dual _) => false
  | .assign _ (.undual _) => false
  | .assign _ _ => true
  | .seq P Q => P.dualFree && Q.dualFree
  | .cond _ P Q => P.dualFree && Q.dualFree
  | .loop _ P => P.dualFree

/-- What becomes of a script: it ends with values of the variables, an exception is raised (or a division
by zero happens, for which SymPy has `zoo`), or it is still running after the given number of passes
through loops. -/
inductive Outcome (α : Type*)
  | done (a : α)
  | raised
  | running

/-- What follows after a part of a script that has ended. -/
def Outcome.andThen {α β : Type*} : Outcome α → (α → Outcome β) → Outcome β
  | .done a, k => k a
  | .raised, _ => .raised
  | .running, _ => .running

/-- The algebra in which a script runs: the metric tensor, the square root and the branch that give the
normalised pseudoscalar (`normI`), and `dual_mode_value`. -/
structure Setting (K : Type*) (n : ℕ) where
  g : Matrix (Fin n) (Fin n) K
  sqrt : K → K
  plus : Bool
  mode : String

/-- The value of a right hand side; `none`: an exception or a division by zero. -/
def Rhs.run (S : Setting K n) (a : ℕ → Mv K n) : Rhs K → Option (Mv K n)
  | .value p => some (p.run S.g a)
  | .div p q => divide S.g (.mv (p.run S.g a)) (.mv (q.run S.g a))
  | .inv p => (p.run S.g a).inv S.g
  | .zpow p k => (p.run S.g a).zpow S.g k
  | .hitzer p => ((p.run S.g a).hitzerInverse S.g).toOption
  | .shirokov p => ((p.run S.g a).shirokovInverse S.g).toOption
  | .proj p q => (p.run S.g a).projectInBlade S.g (q.run S.g a)
  | .refl p q => (p.run S.g a).reflectInBlade S.g (q.run S.g a)
  | .dual p => (normI S.g S.sqrt S.plus).map fun I => (p.run S.g a).dual S.g I.1 I.2 S.mode
  | .undual p => (normI S.g S.sqrt S.plus).map fun I => (p.run S.g a).undual S.g I.1 I.2 S.mode

/-- The value of a condition. -/
def Test.run (S : Setting K n) (a : ℕ → Mv K n) : Test K → Bool
  | .eq p q => (p.run S.g a).eq S.g (q.run S.g a)
  | .isZero p => (p.run S.g a).isZero
  | .isScalar p => (p.run S.g a).isScalar S.g
  | .isVector p => (p.run S.g a).isVector S.g
  | .isVersor p => (p.run S.g a).isVersor S.g
  | .isBlade p => (p.run S.g a).isBlade S.g
  | .not t => !t.run S a
  | .and t u => t.run S a && u.run S a

/-- At most `k` passes through a loop with the condition `t` and the body `body`. -/
def loopRun {α : Type*} (t : α → Bool) (body : α → Outcome α) : ℕ → α → Outcome α
  | 0, a => if t a then .running else .done a
  | k + 1, a => if t a then (body a).andThen (loopRun t body k) else .done a

/-- The outcome of a script that starts with the variables `a`, when every loop is stopped after `k`
passes. -/
def Script.run (S : Setting K n) (k : ℕ) : Script K → (ℕ → Mv K n) → Outcome (ℕ → Mv K n)
  | .pass, a => .done a
  | .assign x r, a =>
    match r.run S a with
    | none => .raised
    | some v => .done (Function.update a x v)
  | .seq P Q, a => (P.run S k a).andThen (Q.run S k)
  | .cond t P Q, a => if t.run S a then P.run S k a else Q.run S k a
  | .loop t P, a => loopRun (t.run S) (P.run S k) k a

/-- Two outcomes are the same up to a relation between the variables. -/
def Outcome.Same {α β : Type*} (r : α → β → Prop) : Outcome α → Outcome β → Prop
  | .done a, .done b => r a b
  | .raised, .raised => True
  | .running, .running => True
  | _, _ => False

end GA
