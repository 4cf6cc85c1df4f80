import Verif.Proofs.Outer

/-! Isometries extend to automorphisms of the geometric algebra. -/

namespace Spec
open GA CliffordAlgebra
variable {n : ℕ} {R : Type*} [CommRing R] [Invertible (2 : R)]
  {g : Matrix (Fin n) (Fin n) R}

/-- An algebra endomorphism that commutes with the grade involution and maps vectors by a matrix is
the outermorphism of the matrix. -/
theorem algHom_eq_outer (f : Cl g →ₐ[R] Cl g) (M : Matrix (Fin n) (Fin n) R)
    (hf : ∀ v, f (vec g v) = vec g (M.mulVec v)) (x : Cl g) : f x = outer g M x := by
  have hinv : ∀ x, f (involute x) = involute (f x) := by
    intro x
    have : f.comp involute = (involute (Q := Q g)).comp f := by
      apply CliffordAlgebra.hom_ext
      ext i
      simp only [LinearMap.coe_comp, Function.comp_apply, AlgHom.toLinearMap_apply,
        AlgHom.comp_apply, involute_ι, map_neg]
      have h := hf (LinearMap.single R (fun _ => R) i 1)
      rw [vec] at h
      rw [h, vec, involute_ι]
    exact DFunLike.congr_fun this x
  have hw : ∀ v x, f (wedge g (vec g v) x) = wedge g (vec g (M.mulVec v)) (f x) := by
    intro v x
    have h : (2 : R) • f (wedge g (vec g v) x) = (2 : R) • wedge g (vec g (M.mulVec v)) (f x) := by
      rw [← map_smul, two_smul_wedge_vec, two_smul_wedge_vec, map_add, map_mul, map_mul, hf, hinv]
    simpa [smul_smul] using congrArg (fun z => (⅟2 : R) • z) h
  induction x using blade_induction g with
  | h0 => rw [map_zero, map_zero]
  | hadd x y hx hy => rw [map_add, map_add, hx, hy]
  | hsm c l hl =>
    rw [map_smul, map_smul, blade_eq_wedgeL]
    congr 1
    generalize l.map _ = L
    induction L with
    | nil => rw [wedgeL_nil, map_one, outer_one]
    | cons v L ih => rw [wedgeL_cons, hw, ih, outer_wedge, outer_vec]

/-- The outermorphism of an isometry is multiplicative. -/
theorem outer_isometry {M : Matrix (Fin n) (Fin n) R} (hM : ∀ v, Q g (M.mulVec v) = Q g v)
    (x y : Cl g) : outer g M (x * y) = outer g M x * outer g M y := by
  have := algHom_eq_outer (CliffordAlgebra.map
    ({ toLinearMap := Matrix.mulVecLin M, map_app' := hM } : Q g →qᵢ Q g)) M
    (fun v => CliffordAlgebra.map_apply_ι _ _)
  rw [← this, ← this, ← this, map_mul]

theorem outer_gradedProduct {M : Matrix (Fin n) (Fin n) R} (hM : ∀ v, Q g (M.mulVec v) = Q g v)
    (f : ℕ → ℕ → Option ℕ) (x y : Cl g) : outer g M (gradedProduct g f x y) =
      gradedProduct g f (outer g M x) (outer g M y) := by
  rw [gradedProduct, gradedProduct, map_sum]
  refine Finset.sum_congr rfl fun r _ => ?_
  rw [map_sum]
  refine Finset.sum_congr rfl fun s _ => ?_
  cases f r s with
  | none => exact map_zero _
  | some t => simp only [homogeneous_outer, outer_isometry hM]

/-- Conjugation by an invertible element. -/
noncomputable def conj {x y : Cl g} (h1 : x * y = 1) (h2 : y * x = 1) : Cl g →ₐ[R] Cl g :=
  AlgHom.ofLinearMap ((LinearMap.mulRight R y).comp (LinearMap.mulLeft R x))
    (by simp [h1]) (by
      intro a b
      simp only [LinearMap.coe_comp, Function.comp_apply, LinearMap.mulRight_apply,
        LinearMap.mulLeft_apply]
      calc x * (a * b) * y = x * a * 1 * b * y := by simp only [mul_assoc, one_mul]
        _ = x * a * (y * x) * b * y := by rw [h2]
        _ = _ := by simp only [mul_assoc])

end Spec
