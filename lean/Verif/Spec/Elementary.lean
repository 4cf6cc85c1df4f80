import Verif.Model.Blade
import Mathlib.Analysis.SpecialFunctions.Pow.Complex
import Mathlib.Analysis.SpecialFunctions.Trigonometric.Basic

/-!
# Laws of the elementary functions

The identities of `cos`, `sin`, `cosh`, `sinh` and `sqrt` that the exponential relies on.  The
complex functions satisfy them (`Elementary.complex_laws`).
-/

namespace GA

/-- The addition theorems, the parity, the relation `cosh(i y) = cos y`, `sinh(i y) = i sin y`, and
`sqrt(x)^2 = x`.  Nothing is assumed about the tests `isNumber` and `isPos`. -/
structure Elementary.Laws {K : Type*} [Field K] (F : Elementary K) : Prop where
  cos_add : ∀ x y, F.cos (x + y) = F.cos x * F.cos y - F.sin x * F.sin y
  sin_add : ∀ x y, F.sin (x + y) = F.sin x * F.cos y + F.cos x * F.sin y
  cos_zero : F.cos 0 = 1
  sin_zero : F.sin 0 = 0
  cos_neg : ∀ x, F.cos (-x) = F.cos x
  sin_neg : ∀ x, F.sin (-x) = -F.sin x
  cosh_eq : ∀ x y, x * x = -(y * y) → F.cosh x = F.cos y
  sinh_eq : ∀ x y, x * x = -(y * y) → F.sinh x * y = F.sin y * x
  sqrt_sq : ∀ x, F.sqrt x * F.sqrt x = x

open Classical in
/-- The elementary functions of complex numbers, with the principal square root. -/
noncomputable def Elementary.complex : Elementary ℂ where
  cos := Complex.cos
  sin := Complex.sin
  cosh := Complex.cosh
  sinh := Complex.sinh
  sqrt := fun x => x ^ (2⁻¹ : ℂ)
  isNumber := fun _ => true
  isPos := fun x => decide (0 < x.re ∧ x.im = 0)

theorem Elementary.complex_laws : Elementary.complex.Laws where
  cos_add := Complex.cos_add
  sin_add := Complex.sin_add
  cos_zero := Complex.cos_zero
  sin_zero := Complex.sin_zero
  cos_neg := Complex.cos_neg
  sin_neg := Complex.sin_neg
  cosh_eq := fun x y h => by
    have : (x - y * Complex.I) * (x + y * Complex.I) = 0 := by
      have := Complex.I_mul_I; linear_combination h - y * y * this
    show Complex.cosh x = Complex.cos y
    rcases mul_eq_zero.mp this with h | h
    · rw [sub_eq_zero.mp h, Complex.cosh_mul_I]
    · rw [eq_neg_of_add_eq_zero_left h, Complex.cosh_neg, Complex.cosh_mul_I]
  sinh_eq := fun x y h => by
    have : (x - y * Complex.I) * (x + y * Complex.I) = 0 := by
      have := Complex.I_mul_I; linear_combination h - y * y * this
    show Complex.sinh x * y = Complex.sin y * x
    rcases mul_eq_zero.mp this with h | h
    · rw [sub_eq_zero.mp h, Complex.sinh_mul_I]; ring
    · rw [eq_neg_of_add_eq_zero_left h, Complex.sinh_neg, Complex.sinh_mul_I]; ring
  sqrt_sq := fun x => by
    show x ^ (2⁻¹ : ℂ) * x ^ (2⁻¹ : ℂ) = x
    rw [← sq]
    exact_mod_cast Complex.cpow_nat_inv_pow x (n := 2) two_ne_zero

end GA
