import Verif.Model.Coef
import Verif.Spec.Clifford
import Mathlib.LinearAlgebra.CliffordAlgebra.Conjugation

/-!
# Specification: calculations with multivectors

A calculation is an expression a user can write with the operators and methods of multivectors, with
names for given multivectors and with scalar constants.
-/

namespace GA

/-- Calculations with coefficients from `R`. -/
inductive Calc (R : Type*) : Type _
  | var (i : ℕ)            -- a given multivector
  | const (c : R)          -- a scalar constant
  | add (p q : Calc R)     -- p + q
  | sub (p q : Calc R)     -- p - q
  | neg (p : Calc R)       -- -p
  | mul (p q : Calc R)     -- p * q
  | wedge (p q : Calc R)   -- p ^ q
  | dot (p q : Calc R)     -- p | q
  | left (p q : Calc R)    -- p < q
  | right (p q : Calc R)   -- p > q
  | anti (p q : Calc R)    -- p << q
  | comm (p q : Calc R)    -- p >> q
  | pow (p : Calc R) (k : ℕ)    -- p ** k
  | grade (p : Calc R) (r : ℕ)  -- p.get_grade(r)
  | even (p : Calc R)      -- p.even()
  | odd (p : Calc R)       -- p.odd()
  | rev (p : Calc R)       -- p.rev()
  | gInvol (p : Calc R)    -- p.g_invol()
  | ccon (p : Calc R)      -- p.ccon()
  | scaled (p q : Calc R)  -- p.scalar() * q
  | sp (p q : Calc R)      -- p.sp(q), used as a multivector
  | qform (p : Calc R)     -- p.qform(), used as a multivector

/-- The calculation with every constant replaced. -/
def Calc.map {R S : Type*} (φ : R → S) : Calc R → Calc S
  | .var i => .var i
  | .const c => .const (φ c)
  | .add p q => .add (p.map φ) (q.map φ)
  | .sub p q => .sub (p.map φ) (q.map φ)
  | .neg p => .neg (p.map φ)
  | .mul p q => .mul (p.map φ) (q.map φ)
  | .wedge p q => .wedge (p.map φ) (q.map φ)
  | .dot p q => .dot (p.map φ) (q.map φ)
  | .left p q => .left (p.map φ) (q.map φ)
  | .right p q => .right (p.map φ) (q.map φ)
  | .anti p q => .anti (p.map φ) (q.map φ)
  | .comm p q => .comm (p.map φ) (q.map φ)
  | .pow p k => .pow (p.map φ) k
  | .grade p r => .grade (p.map φ) r
  | .even p => .even (p.map φ)
  | .odd p => .odd (p.map φ)
  | .rev p => .rev (p.map φ)
  | .gInvol p => .gInvol (p.map φ)
  | .ccon p => .ccon (p.map φ)
  | .scaled p q => .scaled (p.map φ) (q.map φ)
  | .sp p q => .sp (p.map φ) (q.map φ)
  | .qform p => .qform (p.map φ)

variable {n : ℕ} {R : Type*} [CommRing R] [DecidableEq R] [Invertible (2 : R)]

/-- The result of a calculation in the algebra of the metric `g`; `a i` is the given multivector with
number `i`.  Every step is the library's operation (`Model/Mv`). -/
def Calc.run (g : Matrix (Fin n) (Fin n) R) (a : ℕ → Mv R n) : Calc R → Mv R n
  | .var i => a i
  | .const c => Mv.scalarMv c
  | .add p q => (p.run g a).add g (q.run g a)
  | .sub p q => (p.run g a).sub g (q.run g a)
  | .neg p => (p.run g a).neg
  | .mul p q => (p.run g a).mul g (q.run g a)
  | .wedge p q => (p.run g a).wedge g (q.run g a)
  | .dot p q => (p.run g a).dot g (q.run g a)
  | .left p q => (p.run g a).left g (q.run g a)
  | .right p q => (p.run g a).right g (q.run g a)
  | .anti p q => (p.run g a).antiComm g (q.run g a)
  | .comm p q => (p.run g a).comm g (q.run g a)
  | .pow p k => (p.run g a).pow g k
  | .grade p r => (p.run g a).getGrade r
  | .even p => (p.run g a).even
  | .odd p => (p.run g a).odd
  | .rev p => (p.run g a).rev g
  | .gInvol p => (p.run g a).gInvol g
  | .ccon p => (p.run g a).ccon g
  | .scaled p q => (q.run g a).smul (p.run g a).scalar
  | .sp p q => Mv.scalarMv ((p.run g a).sp g (q.run g a))
  | .qform p => Mv.scalarMv ((p.run g a).qform g)

/-- The mathematical value of a calculation: the element of the Clifford algebra of `g` it stands for when
`x i` is the given element with number `i`. -/
noncomputable def Calc.value (g : Matrix (Fin n) (Fin n) R) (x : ℕ → Spec.Cl g) : Calc R → Spec.Cl g
  | .var i => x i
  | .const c => algebraMap R _ c
  | .add p q => p.value g x + q.value g x
  | .sub p q => p.value g x - q.value g x
  | .neg p => -p.value g x
  | .mul p q => p.value g x * q.value g x
  | .wedge p q => Spec.wedge g (p.value g x) (q.value g x)
  | .dot p q => Spec.hestenesDot g (p.value g x) (q.value g x)
  | .left p q => Spec.leftContraction g (p.value g x) (q.value g x)
  | .right p q => Spec.rightContraction g (p.value g x) (q.value g x)
  | .anti p q => (⅟2 : R) • (p.value g x * q.value g x + q.value g x * p.value g x)
  | .comm p q => (⅟2 : R) • (p.value g x * q.value g x - q.value g x * p.value g x)
  | .pow p k => p.value g x ^ k
  | .grade p r => Spec.grade g r (p.value g x)
  | .even p => (⅟2 : R) • (p.value g x + CliffordAlgebra.involute (p.value g x))
  | .odd p => (⅟2 : R) • (p.value g x - CliffordAlgebra.involute (p.value g x))
  | .rev p => CliffordAlgebra.reverse (p.value g x)
  | .gInvol p => CliffordAlgebra.involute (p.value g x)
  | .ccon p => CliffordAlgebra.reverse (CliffordAlgebra.involute (p.value g x))
  | .scaled p q => Spec.grade g 0 (p.value g x) * q.value g x
  | .sp p q => Spec.grade g 0 (p.value g x * q.value g x)
  | .qform p => Spec.grade g 0 (CliffordAlgebra.reverse (p.value g x) * p.value g x)

end GA
