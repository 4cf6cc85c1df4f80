import Verif.Spec.Chart

/-!
# Specification: fields on a submanifold and fields of the space around it

The algebra `T` has the `m` coordinates of a submanifold, `X a` is coordinate `a` of the space around it as
a function of these (`Ga.sm`).  A field of the submanifold is written in the algebra of the space by
replacing every basis vector by the tangent vector it stands for (`Mv.rewriteIn`, `Verif.Spec.Frame`).
-/

namespace GA
variable {n m : ℕ} {K L : Type*} [Field K] [DecidableEq K] [Invertible (2 : K)]
  [Field L] [DecidableEq L] [Invertible (2 : L)]

/-- A submanifold of a flat space: the metric tensor `G` of the space is constant, the functions `X` have
commuting mixed derivatives, and the metric tensor of `T` are the inner products of the tangent vectors. -/
structure InFlatSpace (G : Matrix (Fin n) (Fin n) L) (X : Fin n → L) (T : Chart L m) : Prop where
  symm : G.IsSymm
  const : ∀ j a b, T.D j (G a b) = 0
  comm : ∀ j k a, T.D j (T.D k (X a)) = T.D k (T.D j (X a))
  metric : ∀ j k, T.g0 j k = ∑ a, ∑ b, G a b * T.D j (X a) * T.D k (X b)

/-- Basis vector `j` of `T` as a vector of the flat space: the tangent vector, divided by its norm if `T` is
normalised. -/
def tangent (X : Fin n → L) (T : Chart L m) (j : Fin m) : Mv L n :=
  Mv.vector fun a => T.D j (X a) / scaleOf T.N j

/-- A submanifold of any space: `S` has the coordinates of the space, `φ f` is the function `f` at the points
of the submanifold.  The chain rule holds, mixed derivatives of `X` commute, and the metric tensor of `T` are
the inner products of the tangent vectors. -/
structure InSpace (φ : K →+* L) (X : Fin n → L) (S : Chart K n) (T : Chart L m) : Prop where
  chain : ∀ j f, T.D j (φ f) = ∑ i, T.D j (X i) * φ (S.D i f)
  comm : ∀ j k i, T.D j (T.D k (X i)) = T.D k (T.D j (X i))
  metric : ∀ j k, T.g0 j k = ∑ a, ∑ b, φ (S.g0 a b) * T.D j (X a) * T.D k (X b)

/-- Basis vector `j` of `T` written with the basis vectors of `S`. -/
def tangentIn (φ : K →+* L) (X : Fin n → L) (S : Chart K n) (T : Chart L m) (j : Fin m) : Mv L n :=
  Mv.vector fun a => φ (scaleOf S.N a) * T.D j (X a) / scaleOf T.N j

/-- The blade of the tangent space: `e_1 ^ ... ^ e_m`. -/
def tangentBlade (g : Matrix (Fin n) (Fin n) L) (F : Fin m → Mv L n) : Mv L n :=
  frameBlade g F (List.finRange m)

/-- The derivative of a field `B` of the space in the direction of tangent vector `j`, at the points of the
submanifold: `∑ a, dX[a]/du[j] * dB/dx[a]`; `dB a` is the derivative of `B` by coordinate `a`. -/
def alongTangent (φ : K →+* L) (X : Fin n → L) (S : Chart K n) (T : Chart L m) (dB : Fin n → Mv K n)
    (j : Fin m) : Mv L n :=
  (List.finRange n).foldl (fun Z a => Z.add (S.g.map φ) (((dB a).subs φ).smul (T.D j (X a)))) Mv.zero

end GA
