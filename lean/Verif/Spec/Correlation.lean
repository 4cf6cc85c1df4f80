import Mathlib.Analysis.InnerProductSpace.PiL2

/-! # Specification: Pearson's correlation coefficient -/

namespace Spec
variable {m : ℕ}

/-- The average. -/
noncomputable def mean (u : Fin m → ℝ) : ℝ := (∑ i, u i) / m

/-- The covariance, times `m`. -/
noncomputable def cov (u v : Fin m → ℝ) : ℝ := ∑ i, (u i - mean u) * (v i - mean v)

/-- Pearson's correlation coefficient of two samples. -/
noncomputable def pearson (u v : Fin m → ℝ) : ℝ := cov u v / (√(cov u u) * √(cov v v))

/-- All entries are equal. -/
def Constant (u : Fin m → ℝ) : Prop := ∀ i j, u i = u j

end Spec
