import Verif.Proofs.Project
import Mathlib.LinearAlgebra.QuadraticForm.Basic

/-! Blades of an arbitrary basis; the scalar product in an orthogonal basis. -/

set_option linter.unusedSectionVars false

namespace Spec
open GA CliffordAlgebra
variable {n : ℕ} {R : Type*} [CommRing R] [Invertible (2 : R)]
  {g : Matrix (Fin n) (Fin n) R}

theorem toExt_wedgeL (L : List (Fin n → R)) :
    toExt g (wedgeL g L) = (L.map (ExteriorAlgebra.ι R)).prod := by
  induction L with
  | nil => simp
  | cons v L ih => rw [wedgeL_cons, wedge, LinearEquiv.apply_symm_apply, toExt_vec, ih]; simp

/-- The exterior product of the vectors `b i`, `i ∈ s`, in increasing order. -/
noncomputable def bBlade (g : Matrix (Fin n) (Fin n) R) (b : Module.Basis (Fin n) R (Fin n → R))
    (s : Finset (Fin n)) : Cl g := wedgeL g ((s.sort (· ≤ ·)).map b)

variable (b : Module.Basis (Fin n) R (Fin n → R))

theorem toExt_bBlade (s : Finset (Fin n)) : toExt g (bBlade g b s) = b.ExteriorAlgebra s := by
  rw [bBlade, toExt_wedgeL, ExteriorAlgebra.basis_apply_ofCard b (n := s.card) rfl]
  simp only [ExteriorAlgebra.ιMulti_family, ExteriorAlgebra.ιMulti_apply]
  congr 1
  apply List.ext_getElem
  · simp
  · intro i h1 h2
    simp [Set.powersetCard.ofFinEmbEquiv_symm_apply, Finset.orderEmbOfFin_apply]

/-- Every element is a combination of the blades of a basis. -/
theorem eq_sum_bBlade (x : Cl g) :
    x = ∑ s, (b.ExteriorAlgebra.repr (toExt g x) s) • bBlade g b s := by
  apply (toExt g).injective
  rw [map_sum]
  simp only [map_smul, toExt_bBlade]
  exact (b.ExteriorAlgebra.sum_repr _).symm

theorem homogeneous_bBlade (s : Finset (Fin n)) : Homogeneous g s.card (bBlade g b s) := by
  have := homogeneous_wedgeL (g := g) ((s.sort (· ≤ ·)).map b)
  rwa [List.length_map, Finset.length_sort] at this

theorem bBlade_ofFn {s : Finset (Fin n)} {k : ℕ} (h : s.card = k) :
    bBlade g b s = wedgeL g (List.ofFn fun i : Fin k => b (s.orderEmbOfFin h i)) := by
  subst h
  rw [bBlade]
  congr 1
  apply List.ext_getElem
  · simp
  · intro i h1 h2
    simp [Finset.orderEmbOfFin_apply]

variable {b}

/-- The scalar product of the blades of an orthogonal basis. -/
theorem bBlade_pair (ho : ∀ i j, i ≠ j → ip g (b i) (b j) = 0) (s t : Finset (Fin n)) :
    grade g 0 (reverse (bBlade g b s) * bBlade g b t) =
      if s = t then algebraMap R _ (∏ i ∈ s, ip g (b i) (b i)) else 0 := by
  have hs := homogeneous_bBlade (g := g) b s
  have ht := homogeneous_bBlade (g := g) b t
  by_cases hc : s.card = t.card
  · rw [(homogeneous_reverse hs).2, smul_mul_assoc, map_smul]
    have hlen : Homogeneous g (List.ofFn fun i : Fin t.card => b (s.orderEmbOfFin hc i)).length
        (bBlade g b t) := by rw [List.length_ofFn]; exact ht
    rw [bBlade_ofFn b hc, grade_zero_wedgeL_mul _ hlen, bBlade_ofFn b (s := t) rfl, conL_wedgeL,
      Algebra.smul_def, ← map_mul, hc, ← mul_assoc]
    have hsq : ((-1 : R) ^ (t.card * (t.card - 1) / 2)) * (-1) ^ (t.card * (t.card - 1) / 2) = 1 := by
      rw [← mul_pow, neg_one_mul, neg_neg, one_pow]
    rw [hsq, one_mul]
    split_ifs with hst
    · subst hst
      congr 1
      have hd : (Matrix.of fun i j : Fin s.card => ip g (b (s.orderEmbOfFin hc i))
          (b (s.orderEmbOfFin rfl j))) =
          Matrix.diagonal fun i => ip g (b (s.orderEmbOfFin rfl i)) (b (s.orderEmbOfFin rfl i)) := by
        ext i j
        rw [Matrix.of_apply, Matrix.diagonal_apply]
        split_ifs with hij
        · rw [hij]
        · exact ho _ _ fun h => hij ((s.orderEmbOfFin rfl).injective h)
      rw [hd, Matrix.det_diagonal]
      rw [← Finset.prod_coe_sort s]
      exact Fintype.prod_equiv (s.orderIsoOfFin rfl).toEquiv _ _ fun i => rfl
    · have hex : ∃ i ∈ s, i ∉ t := by
        by_contra h
        push Not at h
        exact hst (Finset.eq_of_subset_of_card_le h hc.ge)
      obtain ⟨i, his, hit⟩ := hex
      obtain ⟨a, ha⟩ : ∃ a : Fin t.card, s.orderEmbOfFin hc a = i := by
        have : i ∈ Set.range (s.orderEmbOfFin hc) := by
          rw [Finset.range_orderEmbOfFin]; exact his
        exact this
      rw [Matrix.det_eq_zero_of_row_eq_zero a, map_zero]
      intro j
      rw [Matrix.of_apply, ha]
      refine ho _ _ fun h => hit ?_
      rw [h]; exact Finset.orderEmbOfFin_mem t rfl j
  · rw [if_neg (fun h => hc (by rw [h])), (homogeneous_reverse hs).2, smul_mul_assoc, map_smul,
      grade_zero_mul_of_ne hs ht hc, smul_zero]

/-- The quadratic form in an orthogonal basis. -/
theorem qform_sum (ho : ∀ i j, i ≠ j → ip g (b i) (b j) = 0) (x : Cl g) :
    grade g 0 (reverse x * x) = algebraMap R _ (∑ s, (b.ExteriorAlgebra.repr (toExt g x) s) ^ 2 *
      ∏ i ∈ s, ip g (b i) (b i)) := by
  set c := fun s => b.ExteriorAlgebra.repr (toExt g x) s with hc
  have hx := eq_sum_bBlade b x
  rw [hx]
  simp only [map_sum, map_smul, Finset.sum_mul, Finset.mul_sum]
  refine Finset.sum_congr rfl fun s _ => ?_
  rw [Finset.sum_eq_single s]
  · rw [smul_mul_smul_comm, map_smul, bBlade_pair ho, if_pos rfl, Algebra.smul_def, ← map_mul]
    congr 1
    simp only [toExt_bBlade, Module.Basis.repr_self, Finsupp.coe_finsetSum, Finset.sum_apply,
      Finsupp.smul_apply, Finsupp.single_apply]
    simp [sq]
  · intro t _ hne
    rw [smul_mul_smul_comm, map_smul, bBlade_pair ho, if_neg hne, smul_zero]
  · intro h; exact absurd (Finset.mem_univ s) h

/-- Orthogonal bases exist. -/
theorem exists_ortho {K : Type*} [Field K] [Invertible (2 : K)] (g : Matrix (Fin n) (Fin n) K) :
    ∃ b : Module.Basis (Fin n) K (Fin n → K), ∀ i j, i ≠ j → ip g (b i) (b j) = 0 := by
  have hsymm : (QuadraticMap.associated (R := K) (Q g)).IsSymm :=
    QuadraticForm.associated_isSymm K (Q g)
  obtain ⟨v, hv⟩ := LinearMap.BilinForm.exists_orthogonal_basis hsymm
  have hn : Module.finrank K (Fin n → K) = n := by simp
  refine ⟨v.reindex (finCongr hn), fun i j hij => ?_⟩
  simp only [Module.Basis.reindex_apply]
  exact hv (fun h => hij ((finCongr hn).symm.injective h))

end Spec
