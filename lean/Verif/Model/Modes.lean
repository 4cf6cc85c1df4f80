import Verif.Model.Ga
import Mathlib.Data.List.Infix

/-!
# Model of the products by name and mode (galgebra/ga.py): `Mul`, `dot`, and the deprecated products of basis blades
-/

namespace GA
variable {n : ℕ} {R : Type*} [CommRing R] [DecidableEq R] [Invertible (2 : R)]

/-- ga.py:1584-1596 `Ga.Mul` with any string as `mode`; `none` is a `ValueError`. -/
def mulMode (g : Matrix (Fin n) (Fin n) R) (mode : List Char) (A B : Expr R n) : Option (Expr R n) :=
  if mode = ['*'] then some (mul g A B)
  else if mode = ['^'] then some (wedge A B)
  else if mode = ['|'] then some (hestenesDot g A B)
  else if mode = ['<'] then some (leftContract g A B)
  else if mode = ['>'] then some (rightContract g A B)
  else none

/-- ga.py:1628-1638 `Ga.dot`; `dotMode` is the attribute of the algebra.  The test `self.dot_mode in '^*'` asks for
a part of the string `'^*'`. -/
def dotWith (g : Matrix (Fin n) (Fin n) R) (dotMode : List Char) (A B : Expr R n) : Option (Expr R n) :=
  if dotMode <:+: ['^', '*'] then none else mulMode g dotMode A B

/-- ga.py:676: the attribute of a new algebra. -/
def newDotMode : List Char := ['|']

/-- ga.py:1430-1438 `_dot_product_method`: the grade that the product selects; `none` is a `ValueError`. -/
def dotProductMethod (mode : List Char) : Option (ℕ → ℕ → Option ℕ) :=
  if mode = ['|'] then some hestenesGrade
  else if mode = ['<'] then some leftGrade
  else if mode = ['>'] then some rightGrade
  else none

/-- ga.py:1440-1446 `dot_product_basis_blades` (deprecated). -/
def dotProductBasisBlades (g : Matrix (Fin n) (Fin n) R) (b₁ b₂ : Sym n) (mode : List Char) : Option (Expr R n) :=
  (dotProductMethod mode).map fun rg => dotBladesOrtho g rg b₁ b₂

/-- ga.py:1448-1454 `non_orthogonal_dot_product_basis_blades` (deprecated).  In an orthogonal algebra of at least two
dimensions `blade_expansion_dict` (ga.py:1497-1521) needs `basic_mul`, which raises (ga.py:1578-1582); before
that, the grades are looked at (ga.py:297-299). -/
def nonOrthoDotProductBasisBlades (g : Matrix (Fin n) (Fin n) R) (b₁ b₂ : Sym n) (mode : List Char) :
    Option (Expr R n) :=
  (dotProductMethod mode).bind fun rg =>
    match (bladesToGrades n).get? b₁, (bladesToGrades n).get? b₂ with
    | some grade1, some grade2 =>
      if (rg grade1 grade2).isSome = true ∧ isOrtho g = true ∧ 2 ≤ n then none else some (dotBladesNonOrtho g rg b₁ b₂)
    | _, _ => none

/-- ga.py:1266-1271 `geometric_product_basis_blades` (deprecated). -/
def geometricProductBasisBlades (g : Matrix (Fin n) (Fin n) R) (b₁ b₂ : Sym n) : Expr R n := gpBlades g b₁ b₂

/-- ga.py:1421-1426 `wedge_product_basis_blades` (deprecated). -/
def wedgeProductBasisBlades (b₁ b₂ : Sym n) : Expr R n := wedgeBlades b₁ b₂

end GA
