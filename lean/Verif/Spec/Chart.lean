import Verif.Spec.Frame
import Verif.Spec.Program
import Verif.Spec.Grad
import Verif.Spec.Deriv
import Verif.Model.Grad
import Verif.Model.Coef

/-!
# Specification: the same fields in other coordinates

A user who calculates with fields makes an algebra with coordinates (`Ga(..., coords=..., g=...)`), takes
its operators `grad` and `rgrad`, and writes a program with assignments.  The same program can be run in
another coordinate system of the same space.  This file says what such a program does (every step is an
operation of the library) and when two algebras belong to two coordinate systems of one space.
-/

namespace GA
variable {n : ℕ} {K L : Type*} [Field K] [DecidableEq K] [Invertible (2 : K)]
  [Field L] [DecidableEq L] [Invertible (2 : L)]

/-- An algebra with coordinates. -/
structure Chart (K : Type*) [Field K] (n : ℕ) where
  /-- the derivatives of functions by the coordinates -/
  D : Fin n → Derivation ℤ K K
  /-- the metric tensor given by the user -/
  g0 : Matrix (Fin n) (Fin n) K
  /-- the norms of the basis vectors, with `norm=True` -/
  N : Option (Fin n → K)
  /-- the derivatives of the basis vectors, `Ga.de` -/
  conn : Option (Fin n → Fin n → Expr K n)
  /-- the vectors of the gradient -/
  grads : List (Mv K n)

/-- The library makes this algebra: the metric tensor is symmetric, with `norm=True` it is diagonal and
the norms are square roots, and the connection and the gradient are the ones the library computes. -/
structure Chart.Made (S : Chart K n) : Prop where
  symm : S.g0.IsSymm
  norms : ∀ N', S.N = some N' → ∀ i, N' i ^ 2 = S.g0 i i ∨ N' i ^ 2 = - S.g0 i i
  ortho : S.N.isSome → isOrtho S.g0 = true
  conn : connOf (fun i => S.D i) S.g0 S.N = some S.conn
  grads : gradVecs S.g0 S.N = some S.grads

/-- The attribute `Ga.g`. -/
def Chart.g (S : Chart K n) : Matrix (Fin n) (Fin n) K := currentMetric S.N S.g0

/-- What derivatives of fields depend on. -/
def Chart.fields (S : Chart K n) : Fields (Fin n) K n :=
  Fields.ofMetric (fun i => S.D i) S.g0 S.N S.conn

/-- The right hand side of an assignment in a program with fields. -/
inductive FieldRhs (K : Type*)
  | value (p : Calc K)                        -- p
  | grad (op : ProdOp) (p : Calc K)           -- grad op p
  | rgrad (op : ProdOp) (p : Calc K)          -- p op rgrad
  | along (op op' : ProdOp) (p q : Calc K)    -- (p op grad) op' q

/-- The right hand side with every constant replaced. -/
def FieldRhs.map {K L : Type*} (φ : K → L) : FieldRhs K → FieldRhs L
  | .value p => .value (p.map φ)
  | .grad op p => .grad op (p.map φ)
  | .rgrad op p => .rgrad op (p.map φ)
  | .along op op' p q => .along op op' (p.map φ) (q.map φ)

/-- The multivector a product with an operator is, if it is one. -/
def asMv : Mv K n ⊕ Dop (Fin n) K n → Option (Mv K n)
  | .inl A => some A
  | .inr _ => none

/-- The operator a product with an operator is, if it is one. -/
def asDop : Mv K n ⊕ Dop (Fin n) K n → Option (Dop (Fin n) K n)
  | .inl _ => none
  | .inr d => some d

/-- The value of a right hand side; `a` are the values of the variables. -/
def FieldRhs.run (S : Chart K n) (a : ℕ → Mv K n) : FieldRhs K → Option (Mv K n)
  | .value p => some (p.run S.g a)
  | .grad op p => asMv ((gradDop S.grads false).mulMv S.fields op (p.run S.g a))
  | .rgrad op p => asMv (Dop.mvMul S.fields op (p.run S.g a) (gradDop S.grads true))
  | .along op op' p q => (asDop (Dop.mvMul S.fields op (p.run S.g a) (gradDop S.grads false))).bind
      fun d => asMv (d.mulMv S.fields op' (q.run S.g a))

/-- A program: assignments to numbered variables, one after the other; `none` if a step has no value. -/
def runFields (S : Chart K n) : List (ℕ × FieldRhs K) → (ℕ → Mv K n) → Option (ℕ → Mv K n)
  | [], a => some a
  | (i, r) :: P, a => (r.run S a).bind fun A => runFields S P (Function.update a i A)

/-- `S` and `T` are coordinate systems of the same space.  `X i` is coordinate `i` of `S` as a function of
the coordinates of `T`, and `φ f` is the function `f` with these inserted for the coordinates: the chain
rule holds, mixed derivatives of `X` commute, and the metric tensor of `T` are the inner products of the
tangent vectors `∑ a, dX[a]/dy[j] * e_a`. -/
structure SameSpace (φ : K →+* L) (X : Fin n → L) (S : Chart K n) (T : Chart L n) : Prop where
  chain : ∀ j f, T.D j (φ f) = ∑ i, T.D j (X i) * φ (S.D i f)
  comm : ∀ j k i, T.D j (T.D k (X i)) = T.D k (T.D j (X i))
  metric : ∀ j k, T.g0 j k = ∑ a, ∑ b, φ (S.g0 a b) * T.D j (X a) * T.D k (X b)

/-- Basis vector `j` of `T` written with the basis vectors of `S`: the tangent vector, divided by its
norm if `T` is normalised; basis vector `a` of `S` is the tangent vector divided by `scaleOf S.N a`. -/
def basisIn (φ : K →+* L) (X : Fin n → L) (S : Chart K n) (T : Chart L n) (j : Fin n) : Mv L n :=
  Mv.vector fun a => φ (scaleOf S.N a) * T.D j (X a) / scaleOf T.N j

/-- The multivectors `A` of `T` and `B` of `S` are the same field: `A` with every basis vector replaced,
and `B` with the coordinates replaced, are equal. -/
def SameField (φ : K →+* L) (X : Fin n → L) (S : Chart K n) (T : Chart L n) (A : Mv L n)
    (B : Mv K n) : Prop :=
  (A.rewriteIn (S.g.map φ) (basisIn φ X S T)).eq (S.g.map φ) (B.subs φ) = true

end GA
