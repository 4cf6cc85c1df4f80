import Verif.Proofs.Expr
import Verif.Proofs.GpOrtho

/-! The geometric product (orthogonal case) and the wedge product compute the Clifford and the
exterior product. -/

set_option linter.unusedSectionVars false

namespace GA
variable {n : ℕ} {R : Type*} [CommRing R] [DecidableEq R] [Invertible (2 : R)]
  (g : Matrix (Fin n) (Fin n) R)

/-! ### Geometric product, orthogonal -/

theorem gpBladesOrtho_spec (hg : ∀ i j, i ≠ j → g i j = 0) {s t : Sym n} (hs : IsBl s)
    (ht : IsBl t) :
    AllSyms IsBl (gpBladesOrtho g s t) ∧ den g (gpBladesOrtho g s t) = symDen g s * symDen g t := by
  obtain ⟨I, hI', rfl, hI⟩ := isBl_get hs
  obtain ⟨J, hJ', rfl, hJ⟩ := isBl_get ht
  obtain ⟨c, K, h1, hK, h2, -⟩ := gpOrtho_spec g (Spec.e g)
    (fun i j h => Spec.e_anticomm_of_ortho g hg h) (fun i => Spec.e_sq g i) I J hI hJ
  have hb : ∀ l : List (Fin n), l.Pairwise (· < ·) → Spec.blade g l = (l.map (Spec.e g)).prod :=
    fun l hl => Spec.blade_eq_base_of_ortho g hg l (nodup_of_lt hl)
  have : gpBladesOrtho g (.blade I) (.blade J) = [(c, .blade K)] := by
    rw [gpBladesOrtho, hI', hJ']
    simp only [h1]
    split_ifs with hk
    · rw [lookupBlade_of hK]
    · have : K = [] := by simpa using hk
      rw [this]
  rw [this]
  refine ⟨by simpa using ⟨K, rfl, hK⟩, ?_⟩
  simp only [den, List.map_cons, List.map_nil, List.sum_cons, List.sum_nil, add_zero, symDen]
  rw [hb _ hI, hb _ hJ, hb _ hK, h2]

/-! ### Wedge -/

/-- The exterior product as a bilinear map. -/
noncomputable def wedgeL : Spec.Cl g →ₗ[R] Spec.Cl g →ₗ[R] Spec.Cl g :=
  LinearMap.mk₂ R (Spec.wedge g) (fun x y z => by simp [Spec.wedge, add_mul])
    (fun c x y => by simp [Spec.wedge]) (fun x y z => by simp [Spec.wedge, mul_add])
    (fun c x y => by simp [Spec.wedge])

theorem wedgeL_apply (x y : Spec.Cl g) : wedgeL g x y = Spec.wedge g x y := rfl

/-- Exterior products of the same vectors in another order. -/
theorem extBlade_perm (l m : List (Fin n)) (hm : m.Pairwise (· < ·)) (hp : m.Perm l) :
    Spec.extBlade R l = (-1 : R) ^ inv l • Spec.extBlade R m := by
  have h := prod_eq_sorted (fun i => ExteriorAlgebra.ι R (Pi.single i 1 : Fin n → R))
    (fun i j _ => Spec.ext_anticomm _ _) l m (hm.imp le_of_lt) hp
  rw [Spec.extBlade, h, Spec.extBlade, Algebra.smul_def]
  congr 1
  push_cast
  simp

theorem extBlade_not_nodup (l : List (Fin n)) (h : ¬ l.Nodup) : Spec.extBlade R l = 0 := by
  induction l with
  | nil => simp at h
  | cons i l ih =>
    rw [List.nodup_cons, not_and_or, not_not] at h
    rw [Spec.extBlade_cons]
    rcases h with h | h
    · clear ih
      induction l with
      | nil => simp at h
      | cons j l ih =>
        rw [Spec.extBlade_cons, ← mul_assoc]
        rcases List.mem_cons.mp h with rfl | h
        · rw [ExteriorAlgebra.ι_sq_zero, zero_mul]
        · rw [Spec.ext_anticomm, neg_mul, mul_assoc, ih h, mul_zero, neg_zero]
    · rw [ih h, mul_zero]

theorem wedgeBlades_spec {s t : Sym n} (hs : IsBl s) (ht : IsBl t) :
    AllSyms IsBl (wedgeBlades (R := R) s t) ∧
      den g (wedgeBlades s t) = wedgeL g (symDen g s) (symDen g t) := by
  obtain ⟨I, hI', rfl, hI⟩ := isBl_get hs
  obtain ⟨J, hJ', rfl, hJ⟩ := isBl_get ht
  rw [wedgeL_apply, symDen, symDen, Spec.wedge_blade]
  rw [wedgeBlades, hI', hJ']
  simp only
  have hz : ∀ {l : List (Fin n)}, ¬ l.Nodup → Spec.blade g l = 0 := fun h => by
    rw [Spec.blade, extBlade_not_nodup _ h, map_zero]
  rcases bladeReduce_spec (I ++ J) with ⟨h1, h2⟩ | ⟨m, h1, h2, h3, h4⟩
  · rw [h1, hz h2]
    split <;> simp
  · rw [h1]
    have hlen : ¬ (I.length + J.length > n) := by
      have := h2.length_le_card
      simpa using this
    simp only [wedgeGrade, if_neg hlen]
    rw [if_pos (pow_ne_zero _ (by norm_num))]
    rw [lookupBlade_of h3]
    refine ⟨by simpa using ⟨m, rfl, h3⟩, ?_⟩
    simp only [den, List.map_cons, List.map_nil, List.sum_cons, List.sum_nil, add_zero, symDen]
    rw [Spec.blade, Spec.blade, extBlade_perm _ _ h3 h4, map_smul]
    push_cast
    rfl

theorem wedge_valid {A B : Expr R n} (hA : Valid A) (hB : Valid B) : Valid (wedge A B) :=
  allSyms_uas (valid_iff.mp hA) (valid_iff.mp hB) isBl_one isBl_one fun _ _ hs ht => (wedgeBlades_spec 0 hs ht).1

theorem den_wedge {A B : Expr R n} (hA : Valid A) (hB : Valid B) :
    den g (wedge A B) = Spec.wedge g (den g A) (den g B) :=
  lin_uas (symDen g) (symDen g) (symDen g) (wedgeL g) (valid_iff.mp hA) (valid_iff.mp hB)
    isBl_one isBl_one fun _ _ hs ht => (wedgeBlades_spec g hs ht).2

end GA
