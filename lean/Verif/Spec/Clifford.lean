import Mathlib.LinearAlgebra.CliffordAlgebra.Contraction
import Mathlib.LinearAlgebra.CliffordAlgebra.Grading
import Mathlib.LinearAlgebra.ExteriorAlgebra.Basis
import Mathlib.LinearAlgebra.Matrix.BilinearForm

/-!
# Specification: the Clifford algebra of a metric tensor

This file does not mention the model.  Everything is defined from Mathlib's `CliffordAlgebra`,
`ExteriorAlgebra` and the canonical linear equivalence `CliffordAlgebra.equivExterior` between
them (2 is invertible in the coefficients).
-/

open scoped BigOperators

namespace Spec

variable {R : Type*} [CommRing R] {n : ℕ}

/-- The quadratic form `v ↦ ∑ i j, g i j * v i * v j` of a metric tensor `g`. -/
noncomputable def Q (g : Matrix (Fin n) (Fin n) R) : QuadraticForm R (Fin n → R) :=
  LinearMap.BilinMap.toQuadraticMap (Matrix.toBilin' g)

theorem Q_apply (g : Matrix (Fin n) (Fin n) R) (v : Fin n → R) :
    Q g v = ∑ i, ∑ j, g i j * v i * v j := by
  simp only [Q, LinearMap.BilinMap.toQuadraticMap_apply, Matrix.toBilin'_apply]
  exact Finset.sum_congr rfl fun i _ => Finset.sum_congr rfl fun j _ => by ring

/-- The Clifford (geometric) algebra of the metric tensor `g`. -/
abbrev Cl (g : Matrix (Fin n) (Fin n) R) := CliffordAlgebra (Q g)

/-- The vector `∑ v i e_i` in the Clifford algebra. -/
noncomputable def vec (g : Matrix (Fin n) (Fin n) R) (v : Fin n → R) : Cl g :=
  CliffordAlgebra.ι (Q g) v

/-- The basis vector `e_i` in the Clifford algebra. -/
noncomputable def e (g : Matrix (Fin n) (Fin n) R) (i : Fin n) : Cl g :=
  vec g (Pi.single i 1)

/-- The geometric product `e_i1 e_i2 ... e_ir` of basis vectors. -/
noncomputable def base (g : Matrix (Fin n) (Fin n) R) (l : List (Fin n)) : Cl g :=
  (l.map (e g)).prod

/-- The exterior product `e_i1 ∧ e_i2 ∧ ... ∧ e_ir` in the exterior algebra. -/
noncomputable def extBlade (R : Type*) [CommRing R] {n : ℕ} (l : List (Fin n)) :
    ExteriorAlgebra R (Fin n → R) :=
  (l.map fun i => ExteriorAlgebra.ι R (Pi.single i 1 : Fin n → R)).prod

section half
variable [Invertible (2 : R)]

/-- The canonical linear identification of the Clifford algebra with the exterior algebra. -/
noncomputable def toExt (g : Matrix (Fin n) (Fin n) R) :
    Cl g ≃ₗ[R] ExteriorAlgebra R (Fin n → R) :=
  CliffordAlgebra.equivExterior (Q g)

/-- The basis blade `e_i1 ∧ e_i2 ∧ ... ∧ e_ir` as an element of the Clifford algebra. -/
noncomputable def blade (g : Matrix (Fin n) (Fin n) R) (l : List (Fin n)) : Cl g :=
  (toExt g).symm (extBlade R l)

/-- The exterior (wedge) product of two elements of the Clifford algebra. -/
noncomputable def wedge (g : Matrix (Fin n) (Fin n) R) (x y : Cl g) : Cl g :=
  (toExt g).symm (toExt g x * toExt g y)

/-- The grade-`r` part `⟨x⟩_r` of an element of the Clifford algebra. -/
noncomputable def grade (g : Matrix (Fin n) (Fin n) R) (r : ℕ) : Cl g →ₗ[R] Cl g :=
  (toExt g).symm.toLinearMap ∘ₗ
    GradedAlgebra.proj (fun i : ℕ => ⋀[R]^i (Fin n → R)) r ∘ₗ (toExt g).toLinearMap

/-- `x` is homogeneous of grade `r`: its parts of all other grades are zero. -/
def Homogeneous (g : Matrix (Fin n) (Fin n) R) (r : ℕ) (x : Cl g) : Prop :=
  ∀ k, k ≠ r → grade g k x = 0

/-- A bilinear product which takes grade `f r s` of the geometric product of the grade-`r` part of
`x` and the grade-`s` part of `y`; no contribution when `f r s = none`. -/
noncomputable def gradedProduct (g : Matrix (Fin n) (Fin n) R) (f : ℕ → ℕ → Option ℕ)
    (x y : Cl g) : Cl g :=
  ∑ r ∈ Finset.range (n + 1), ∑ s ∈ Finset.range (n + 1),
    match f r s with
    | none => 0
    | some t => grade g t (grade g r x * grade g s y)

/-- Hestenes' inner product: `⟨A_r B_s⟩_|r-s|`, and `0` if `r = 0` or `s = 0`. -/
noncomputable def hestenesDot (g : Matrix (Fin n) (Fin n) R) : Cl g → Cl g → Cl g :=
  gradedProduct g fun r s => if r = 0 ∨ s = 0 then none else some (max r s - min r s)

/-- Left contraction: `⟨A_r B_s⟩_(s-r)`, and `0` if `r > s`. -/
noncomputable def leftContraction (g : Matrix (Fin n) (Fin n) R) : Cl g → Cl g → Cl g :=
  gradedProduct g fun r s => if r ≤ s then some (s - r) else none

/-- Right contraction: `⟨A_r B_s⟩_(r-s)`, and `0` if `r < s`. -/
noncomputable def rightContraction (g : Matrix (Fin n) (Fin n) R) : Cl g → Cl g → Cl g :=
  gradedProduct g fun r s => if s ≤ r then some (r - s) else none

/-- Scalar product: `⟨A B⟩_0`. -/
noncomputable def scalarProduct (g : Matrix (Fin n) (Fin n) R) (x y : Cl g) : Cl g :=
  grade g 0 (x * y)

end half

end Spec
