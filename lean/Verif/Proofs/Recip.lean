import Verif.Proofs.Pseudo

/-! The reciprocal basis vectors. -/

set_option linter.unusedSectionVars false

namespace Spec
open GA CliffordAlgebra
variable {n : ℕ} {R : Type*} [CommRing R] [Invertible (2 : R)]
  {g : Matrix (Fin n) (Fin n) R}

theorem ip_single (hs : g.IsSymm) (i : Fin n) (v : Fin n → R) :
    ip g (Pi.single i 1) v = ∑ j, g i j * v j := by
  classical
  rw [ip, associated_vec hs, Finset.sum_eq_single i]
  · simp
  · intro k _ hk
    exact Finset.sum_eq_zero fun j _ => by rw [Pi.single_eq_of_ne hk]; ring
  · simp

theorem ip_dotProduct (hs : g.IsSymm) (u v : Fin n → R) :
    ip g u v = ∑ i, u i * ip g (Pi.single i 1) v := by
  rw [ip, associated_vec hs]
  refine Finset.sum_congr rfl fun i _ => ?_
  rw [ip_single hs, Finset.mul_sum]
  exact Finset.sum_congr rfl fun j _ => by ring

end Spec

namespace GA
variable {n : ℕ} {K : Type*} [Field K] [DecidableEq K] [Invertible (2 : K)]
  {g : Matrix (Fin n) (Fin n) K}

/-- The factor in `r_i | e_j = δ_ij * factor`. -/
def recipFactor (g : Matrix (Fin n) (Fin n) K) : K := if isOrtho g then 1 else eSq g

theorem mapM_option_getD {α β : Type*} {f : α → Option β} {l : List α} {r : List β} {d : β}
    (h : l.mapM f = some r) : r.length = l.length ∧
    ∀ (i : ℕ) (hi : i < l.length), f l[i] = some (r.getD i d) := by
  induction l generalizing r with
  | nil => simp only [List.mapM_nil] at h; cases h; simp
  | cons a l ih =>
    rw [List.mapM_cons] at h
    cases ha : f a with
    | none => rw [ha] at h; cases h
    | some b =>
      cases hl : l.mapM f with
      | none => rw [ha, hl] at h; cases h
      | some bs =>
        rw [ha, hl] at h
        cases h
        obtain ⟨h1, h2⟩ := ih hl
        refine ⟨by simp [h1], fun i hi => ?_⟩
        cases i with
        | zero => simpa using ha
        | succ i => simpa using h2 i (by simpa using hi)

theorem rBasis_spec (hs : g.IsSymm) {l : List (Expr K n)} (h : rBasis g = some l) :
    l.length = n ∧ ∀ j : Fin n, Valid (l.getD j errorE) ∧ ∃ u : Fin n → K,
      den g (l.getD j errorE) = Spec.vec g u ∧
      ∀ i, Spec.ip g (Pi.single i 1) u = if i = j then recipFactor g else 0 := by
  rw [rBasis] at h
  split_ifs at h with ho
  · obtain ⟨h1, h2⟩ := mapM_option_getD (d := errorE) h
    refine ⟨by simpa using h1, fun j => ?_⟩
    have := h2 j (by simp)
    simp only [List.getElem_finRange, Fin.cast_mk, Fin.eta] at this
    split_ifs at this with h0
    have e := Option.some.inj this
    rw [← e]
    refine ⟨?_, (g j j)⁻¹ • Pi.single j 1, ?_, ?_⟩
    · have := valid_smulE (g j j)⁻¹ (valid_bladeE (R := K) (l := [j]) (by simp))
      rwa [smulE, bladeE, List.map_singleton, mul_one] at this
    · have := den_bladeE (R := K) g [j]
      rw [Spec.vec_smul]
      simp only [den, List.map_cons, List.map_nil, List.sum_cons, List.sum_nil, add_zero, symDen]
      rw [Spec.blade_singleton, Spec.e]
    · intro i
      rw [Spec.ip_single hs, Finset.sum_eq_single j]
      · rw [recipFactor, if_pos ho]
        split_ifs with hij
        · subst hij; simp [h0]
        · simp [isOrtho_symm hs ho i j hij]
      · intro k _ hk; simp [Pi.single_eq_of_ne hk]
      · simp
  · have e := Option.some.inj h
    subst e
    have ho' : isOrtho g = false := by simpa using ho
    refine ⟨?_, fun j => ?_⟩
    · rcases Nat.eq_zero_or_pos n with rfl | hn
      · exact absurd ((isOrtho_iff g).mpr (fun i => i.elim0)) ho
      · exact (rBasisNonOrtho_eq hn).1
    · obtain ⟨h1, h2⟩ := rBasisNonOrtho_spec hs ho' j
      refine ⟨h1, ?_⟩
      obtain ⟨u, hu⟩ := Spec.homogeneous_one (recip_basis_homogeneous (g := g) j)
      refine ⟨u, by rw [h2, hu], fun i => ?_⟩
      have := con_recip_basis hs i j
      rw [hu, Spec.con_vec] at this
      rw [recipFactor, if_neg ho]
      exact algebraMap_inj g this

end GA
