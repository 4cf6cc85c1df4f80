import Verif.Spec.Mv
import Mathlib.LinearAlgebra.Matrix.Notation
import Mathlib.Tactic.NormNum

/-!
# Concrete algebras and multivectors used in the examples
-/

namespace GA.Ex

instance : Invertible (2 : ℚ) := ⟨1 / 2, by norm_num, by norm_num⟩

/-- An orthogonal metric with squares `1, -1, 2`. -/
def gO : Matrix (Fin 3) (Fin 3) ℚ := !![1, 0, 0; 0, -1, 0; 0, 0, 2]

/-- A non-orthogonal metric; the third basis vector is null. -/
def gN : Matrix (Fin 3) (Fin 3) ℚ := !![1, 1/2, 0; 1/2, -1, 3; 0, 3, 0]

theorem gO_symm : gO.IsSymm := by
  ext i j; fin_cases i <;> fin_cases j <;> rfl
theorem gO_diag : ∀ i j : Fin 3, i ≠ j → gO i j = 0 := by
  intro i j; fin_cases i <;> fin_cases j <;> simp [gO]
theorem gN_symm : gN.IsSymm := by
  ext i j; fin_cases i <;> fin_cases j <;> rfl

/-- `1 + 2 e_0 + 3 e_0^e_1` -/
def A : Mv ℚ 3 := Mv.ofExpr [(1, .blade []), (2, .blade [0]), (3, .blade [0, 1])]
/-- `e_1 - e_0^e_2 + 5 e_0^e_1^e_2` -/
def B : Mv ℚ 3 := Mv.ofExpr [(1, .blade [1]), (-1, .blade [0, 2]), (5, .blade [0, 1, 2])]
/-- `4 e_2 + e_1^e_2` -/
def C : Mv ℚ 3 := Mv.ofExpr [(4, .blade [2]), (1, .blade [1, 2])]
/-- `e_0 e_1 + 2 e_0 e_1 e_2`, in base representation -/
def P : Mv ℚ 3 := Mv.ofExpr [(1, .base [0, 1]), (2, .base [0, 1, 2])]

end GA.Ex
