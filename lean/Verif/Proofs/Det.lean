import Verif.Proofs.OrthoBasis
import Mathlib.LinearAlgebra.Determinant

/-! The exterior product of `n` vectors is their determinant times the pseudoscalar. -/

namespace Spec
open GA CliffordAlgebra
variable {n : ℕ} {R : Type*} [CommRing R] [Invertible (2 : R)]
  {g : Matrix (Fin n) (Fin n) R}

omit [Invertible (2 : R)] in
theorem ext_ofFn_det (w : Fin n → Fin n → R) :
    ExteriorAlgebra.ιMulti R n w =
      (Matrix.of w).det • ExteriorAlgebra.ιMulti R n (fun i : Fin n => (Pi.single i 1 : Fin n → R)) := by
  have h : (ExteriorAlgebra.ιMulti R n : (Fin n → R) [⋀^Fin n]→ₗ[R] _) =
      (LinearMap.toSpanSingleton R _ (ExteriorAlgebra.ιMulti R n
        (fun i : Fin n => (Pi.single i 1 : Fin n → R)))).compAlternatingMap
        Matrix.detRowAlternating := by
    refine Module.Basis.ext_alternating (Pi.basisFun R (Fin n)) fun v hv => ?_
    have hb : Function.Bijective v := Finite.injective_iff_bijective.mp hv
    obtain ⟨σ, rfl⟩ : ∃ σ : Equiv.Perm (Fin n), v = σ := ⟨Equiv.ofBijective v hb, rfl⟩
    have h2 : (fun i => (Pi.basisFun R (Fin n)) (σ i)) =
        (fun i : Fin n => (Pi.single i 1 : Fin n → R)) ∘ σ := by
      ext i j; simp
    rw [h2, AlternatingMap.map_perm, LinearMap.compAlternatingMap_apply, AlternatingMap.map_perm]
    have h3 : Matrix.detRowAlternating (fun i : Fin n => (Pi.single i (1 : R) : Fin n → R)) = 1 := by
      rw [← Matrix.det_one (n := Fin n) (R := R)]
      show Matrix.det _ = _
      congr 1
      ext i j
      simp [Matrix.one_apply, Pi.single_apply, eq_comm]
    rw [h3]
    simp [LinearMap.toSpanSingleton_apply, Units.smul_def, Algebra.smul_def]
  exact DFunLike.congr_fun h w

theorem wedgeL_ofFn_det (w : Fin n → Fin n → R) :
    wedgeL g (List.ofFn w) = (Matrix.of w).det • pseudo g := by
  apply (toExt g).injective
  rw [map_smul, pseudo_eq_ofFn]
  have hl : ∀ L : List (Fin n → R), toExt g (wedgeL g L) = (L.map (ExteriorAlgebra.ι R)).prod :=
    fun L => toExt_wedgeL L
  rw [hl, hl, List.map_ofFn, List.map_ofFn]
  have := ext_ofFn_det w
  rw [ExteriorAlgebra.ιMulti_apply, ExteriorAlgebra.ιMulti_apply] at this
  exact this

end Spec
