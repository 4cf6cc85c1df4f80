import Mathlib.Algebra.MvPolynomial.PDeriv
import Mathlib.RingTheory.Localization.FractionRing
import Mathlib.Algebra.TrivSqZeroExt.Basic
import Mathlib.RingTheory.MvPolynomial.Basic
import Mathlib.RingTheory.Derivation.Basic
import Mathlib.Algebra.CharP.Algebra
import Mathlib.Tactic.LinearCombination

/-!
# Rational functions of `n` coordinates and their partial derivatives

A concrete field of coefficients with derivations, for the examples.
-/

namespace GA.Ex

/-- Rational functions of `n` coordinates. -/
def Fun (n : ℕ) := FractionRing (MvPolynomial (Fin n) ℚ)

variable {n : ℕ}

noncomputable instance : Field (Fun n) :=
  inferInstanceAs (Field (FractionRing (MvPolynomial (Fin n) ℚ)))
noncomputable instance : Algebra (MvPolynomial (Fin n) ℚ) (Fun n) :=
  inferInstanceAs (Algebra _ (FractionRing (MvPolynomial (Fin n) ℚ)))
instance : IsFractionRing (MvPolynomial (Fin n) ℚ) (Fun n) :=
  inferInstanceAs (IsFractionRing _ (FractionRing (MvPolynomial (Fin n) ℚ)))

/-- Embedding of polynomials. -/
noncomputable abbrev poly (p : MvPolynomial (Fin n) ℚ) : Fun n := algebraMap _ (Fun n) p

/-- Coordinate `i`. -/
noncomputable def coord (i : Fin n) : Fun n := poly (MvPolynomial.X i)

/-- `p ↦ p + ε ∂p`. -/
noncomputable def dualAux (i : Fin n) : MvPolynomial (Fin n) ℚ →+* TrivSqZeroExt (Fun n) (Fun n) where
  toFun p := TrivSqZeroExt.inl (poly p) + TrivSqZeroExt.inr (poly (MvPolynomial.pderiv i p))
  map_one' := by ext <;> simp
  map_mul' p q := by
    ext
    · simp
    · simp [Derivation.leibniz, poly, mul_comm]
  map_zero' := by ext <;> simp
  map_add' p q := by ext <;> simp

/-- `f ↦ f + ε ∂f`. -/
noncomputable def dual (i : Fin n) : Fun n →+* TrivSqZeroExt (Fun n) (Fun n) :=
  IsLocalization.lift (M := nonZeroDivisors (MvPolynomial (Fin n) ℚ)) (g := dualAux i) (by
    intro y
    rw [TrivSqZeroExt.isUnit_iff_isUnit_fst]
    simp only [dualAux, RingHom.coe_mk, MonoidHom.coe_mk, OneHom.coe_mk, TrivSqZeroExt.fst_add,
      TrivSqZeroExt.fst_inl, TrivSqZeroExt.fst_inr, add_zero]
    exact IsLocalization.map_units (Fun n) y)

theorem dual_poly (i : Fin n) (p : MvPolynomial (Fin n) ℚ) : dual i (poly p) = dualAux i p :=
  IsLocalization.lift_eq _ _

theorem dual_fst (i : Fin n) (f : Fun n) : (dual i f).fst = f := by
  have h : (TrivSqZeroExt.fstHom (Fun n) (Fun n) (Fun n)).toRingHom.comp (dual i) = RingHom.id _ := by
    apply IsLocalization.ringHom_ext (nonZeroDivisors (MvPolynomial (Fin n) ℚ))
    refine RingHom.ext fun p => ?_
    change (dual i (poly p)).fst = _
    rw [dual_poly]
    simp [dualAux, poly]
  exact DFunLike.congr_fun h f

/-- The partial derivative by coordinate `i`. -/
noncomputable def partialD (i : Fin n) : Derivation ℤ (Fun n) (Fun n) :=
  Derivation.mk' (AddMonoidHom.toIntLinearMap
    { toFun := fun f => (dual i f).snd
      map_zero' := by simp
      map_add' := fun f h => by simp }) (fun f h => by
    simp [TrivSqZeroExt.snd_mul, dual_fst, mul_comm])

theorem partialD_poly (i : Fin n) (p : MvPolynomial (Fin n) ℚ) :
    partialD i (poly p) = poly (MvPolynomial.pderiv i p) := by
  change (dual i (poly p)).snd = _
  rw [dual_poly]
  simp [dualAux]

theorem partialD_coord (i j : Fin n) : partialD i (coord j) = if i = j then 1 else 0 := by
  rw [coord, partialD_poly, MvPolynomial.pderiv_X]
  by_cases h : i = j
  · subst h; simp
  · rw [if_neg h, Pi.single_eq_of_ne (Ne.symm h)]; simp

theorem coord_ne_zero (i : Fin n) : coord i ≠ 0 := by
  rw [coord, poly, Ne, FaithfulSMul.algebraMap_eq_zero_iff]
  exact MvPolynomial.X_ne_zero i

theorem pderiv_comm (x y : Fin n) (p : MvPolynomial (Fin n) ℚ) :
    MvPolynomial.pderiv x (MvPolynomial.pderiv y p) =
      MvPolynomial.pderiv y (MvPolynomial.pderiv x p) := by
  induction p using MvPolynomial.induction_on with
  | C a => simp
  | add p q hp hq => simp only [map_add, hp, hq]
  | mul_X p i hp =>
    have hc : ∀ x y : Fin n, MvPolynomial.pderiv x (MvPolynomial.pderiv y
        (MvPolynomial.X i : MvPolynomial (Fin n) ℚ)) = 0 := by
      intro x y
      rw [MvPolynomial.pderiv_X]
      by_cases h : i = y
      · subst h; simp
      · rw [Pi.single_eq_of_ne h]; simp
    simp only [Derivation.leibniz, map_add, smul_eq_mul, hc, hp]
    ring

theorem partialD_comm (x y : Fin n) (f : Fun n) :
    partialD x (partialD y f) = partialD y (partialD x f) := by
  have key : ∀ p : MvPolynomial (Fin n) ℚ,
      partialD x (partialD y (poly p)) = partialD y (partialD x (poly p)) := by
    intro p
    rw [partialD_poly, partialD_poly, partialD_poly, partialD_poly, pderiv_comm]
  obtain ⟨p, q, hq, rfl⟩ := IsFractionRing.div_surjective (A := MvPolynomial (Fin n) ℚ) f
  have hq0 : poly q ≠ 0 := by
    intro h
    rw [poly, FaithfulSMul.algebraMap_eq_zero_iff] at h
    exact nonZeroDivisors.ne_zero hq h
  set f := poly p / poly q with hf
  have e : f * poly q = poly p := div_mul_cancel₀ _ hq0
  have h := key p
  rw [← e] at h
  simp only [Derivation.leibniz, map_add, smul_eq_mul, key q] at h
  have : poly q * (partialD x (partialD y f)) = poly q * (partialD y (partialD x f)) := by
    linear_combination h
  exact mul_left_cancel₀ hq0 this

noncomputable instance : DecidableEq (Fun n) := Classical.decEq _

instance : CharZero (Fun n) :=
  charZero_of_injective_ringHom (IsFractionRing.injective (MvPolynomial (Fin n) ℚ) (Fun n))

noncomputable instance : Invertible (2 : Fun n) := invertibleOfNonzero (by norm_num)

end GA.Ex
