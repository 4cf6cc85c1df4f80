import Verif.Spec.Outer
import Verif.Proofs.Det

/-! Outermorphisms. -/

namespace Spec
open GA CliffordAlgebra
variable {n : ℕ} {R : Type*} [CommRing R] [Invertible (2 : R)]
  {g : Matrix (Fin n) (Fin n) R}

theorem toExt_outer (M : Matrix (Fin n) (Fin n) R) (x : Cl g) :
    toExt g (outer g M x) = ExteriorAlgebra.map (Matrix.mulVecLin M) (toExt g x) := by
  simp [outer]

theorem outer_vec (M : Matrix (Fin n) (Fin n) R) (v : Fin n → R) :
    outer g M (vec g v) = vec g (M.mulVec v) := by
  apply (toExt g).injective
  rw [toExt_outer, toExt_vec, toExt_vec, ExteriorAlgebra.map_apply_ι, Matrix.mulVecLin_apply]

theorem outer_one (M : Matrix (Fin n) (Fin n) R) : outer g M 1 = 1 := by
  apply (toExt g).injective
  rw [toExt_outer, toExt_one, map_one]

theorem outer_algebraMap (M : Matrix (Fin n) (Fin n) R) (c : R) :
    outer g M (algebraMap R _ c) = algebraMap R _ c := by
  rw [Algebra.algebraMap_eq_smul_one, map_smul, outer_one]

theorem outer_wedge (M : Matrix (Fin n) (Fin n) R) (x y : Cl g) :
    outer g M (wedge g x y) = wedge g (outer g M x) (outer g M y) := by
  apply (toExt g).injective
  simp only [wedge, toExt_outer, LinearEquiv.apply_symm_apply, map_mul]

theorem outer_mul (M N : Matrix (Fin n) (Fin n) R) (x : Cl g) :
    outer g (M * N) x = outer g M (outer g N x) := by
  apply (toExt g).injective
  rw [toExt_outer, toExt_outer, toExt_outer, Matrix.mulVecLin_mul, ← ExteriorAlgebra.map_comp_map]
  rfl

theorem outer_id (x : Cl g) : outer g (1 : Matrix (Fin n) (Fin n) R) x = x := by
  apply (toExt g).injective
  rw [toExt_outer, Matrix.mulVecLin_one, ExteriorAlgebra.map_id]
  rfl

theorem outer_wedgeL (M : Matrix (Fin n) (Fin n) R) (L : List (Fin n → R)) :
    outer g M (wedgeL g L) = wedgeL g (L.map M.mulVec) := by
  induction L with
  | nil => exact outer_one M
  | cons v L ih => rw [wedgeL_cons, outer_wedge, outer_vec, ih, List.map_cons, wedgeL_cons]

theorem outer_blade (M : Matrix (Fin n) (Fin n) R) (l : List (Fin n)) :
    outer g M (blade g l) = wedgeL g (l.map fun i => M.col i) := by
  rw [blade_eq_wedgeL, outer_wedgeL, List.map_map]
  congr 1
  refine List.map_congr_left fun i _ => ?_
  simp

theorem outer_pseudo (M : Matrix (Fin n) (Fin n) R) :
    outer g M (pseudo g) = M.det • pseudo g := by
  rw [pseudo_eq_ofFn, outer_wedgeL, List.map_ofFn]
  have := wedgeL_ofFn_det (g := g) (fun i : Fin n => M.mulVec (Pi.single i 1))
  rw [show (M.mulVec ∘ fun i : Fin n => (Pi.single i 1 : Fin n → R)) =
    fun i : Fin n => M.mulVec (Pi.single i 1) from rfl, this, ← pseudo_eq_ofFn]
  congr 1
  rw [← Matrix.det_transpose]
  congr 1
  ext i j
  simp

theorem homogeneous_outer (M : Matrix (Fin n) (Fin n) R) (r : ℕ) (x : Cl g) :
    outer g M (grade g r x) = grade g r (outer g M x) := by
  induction x using blade_induction g with
  | hsm c l _ =>
    rw [map_smul, map_smul, map_smul, map_smul]
    congr 1
    have h : Homogeneous g l.length (outer g M (blade g l)) := by
      rw [outer_blade]
      have := homogeneous_wedgeL (g := g) (l.map fun i => M.col i)
      rwa [List.length_map] at this
    have h2 : Homogeneous g l.length (blade g l) := by
      rw [blade_eq_wedgeL]
      have := homogeneous_wedgeL (g := g) (l.map fun i => (Pi.single i 1 : Fin n → R))
      rwa [List.length_map] at this
    by_cases hr : r = l.length
    · subst hr
      rw [h.grade_eq, h2.grade_eq]
    · rw [h r hr, h2 r hr, map_zero]
  | h0 => simp
  | hadd x y hx hy => simp only [map_add, hx, hy]

end Spec
