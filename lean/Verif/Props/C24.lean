import Verif.Model.Inverse
import Verif.Proofs.Hitzer
import Verif.Proofs.Invert
import Verif.Proofs.Examples
import Verif.Spec.Witness

/-!
# C24: the closed-form inverse in at most five dimensions
-/

set_option linter.unusedSectionVars false
set_option maxRecDepth 10000

namespace GA
variable {n : ℕ} {K : Type*} [Field K] [DecidableEq K] [Invertible (2 : K)]
  {g : Matrix (Fin n) (Fin n) K}

theorem hitzerNumerator_rep (hs : g.IsSymm) (hn : n ≤ 5) {A : Mv K n} {x : Spec.Cl g}
    (h : Rep g A x) : ∃ N, A.hitzerNumerator g = .ok N ∧ Rep g N (Spec.hitzerNum g x) := by
  have hc := h.ccon hs
  have hm := h.mul hs hc
  unfold Mv.hitzerNumerator Spec.hitzerNum
  split_ifs with h0 h1 h2 h3 h4 h5
  · refine ⟨_, rfl, ((h.smul 0).addScalar 1).congr ?_⟩
    rw [map_one, add_comm]
  · exact ⟨_, rfl, h.gInvol hs⟩
  · exact ⟨_, rfl, hc⟩
  · exact ⟨_, rfl, hc.mul hs (hm.rev hs)⟩
  · exact ⟨_, rfl, hc.mul hs ((hm.sub hs ((hm.getGrade 3).smul 2)).sub hs ((hm.getGrade 4).smul 2))⟩
  · have hco := hc.mul hs (hm.rev hs)
    have hmc := h.mul hs hco
    exact ⟨_, rfl, hco.mul hs
      ((hmc.sub hs ((hmc.getGrade 1).smul 2)).sub hs ((hmc.getGrade 4).smul 2))⟩
  · omega

/-- C24: in at most five dimensions, whatever `hitzer_inverse` returns is a two-sided inverse; and it
returns exactly when the multivector has an inverse.  The metric may be any symmetric matrix. -/
theorem C24_hitzer (hs : g.IsSymm) (hn : n ≤ 5) {A : Mv K n} (hA : A.WF g)
    (hb : A.isBladeRep = true) :
    (∀ B, A.hitzerInverse g = .ok B →
      B.WF g ∧ A.val g * B.val g = 1 ∧ B.val g * A.val g = 1) ∧
    (IsUnit (A.val g) → ∃ B, A.hitzerInverse g = .ok B) ∧
    (¬ IsUnit (A.val g) → A.hitzerInverse g = .error .noInverse) := by
  have h := Rep.of_wf hA hb
  obtain ⟨N, hN, hNr⟩ := hitzerNumerator_rep hs hn h
  obtain ⟨c, hc⟩ := Spec.homogeneous_zero_iff.mp (Spec.mul_hitzerNum hn (A.val g))
  have hd : (A.mul g N).scalar = c := (h.mul hs hNr).scalar_of (by
    rw [hc]; exact (Spec.homogeneous_algebraMap c).grade_eq)
  have key : ∀ B, A.hitzerInverse g = .ok B →
      B.WF g ∧ A.val g * B.val g = 1 ∧ B.val g * A.val g = 1 := by
    intro B hB
    rw [Mv.hitzerInverse, hN] at hB
    simp only [hd] at hB
    by_cases hc0 : c = 0
    · rw [if_pos hc0] at hB; simp at hB
    · rw [if_neg hc0] at hB
      injection hB with hB
      subst hB
      have hr := hNr.smul c⁻¹
      have h1 : A.val g * (N.smul c⁻¹).val g = 1 := by
        rw [hr.val, mul_smul_comm, hc, Algebra.smul_def, ← map_mul, inv_mul_cancel₀ hc0, map_one]
      exact ⟨hr.wf, h1, Spec.mul_eq_one_symm h1⟩
  refine ⟨key, fun hu => ?_, fun hu => ?_⟩
  · rw [Mv.hitzerInverse, hN]
    have hc0 : c ≠ 0 := by
      rintro rfl
      rw [map_zero] at hc
      exact Spec.hitzerNum_ne_zero hu (hu.mul_right_eq_zero.mp hc)
    simp only [hd, if_neg hc0]
    exact ⟨_, rfl⟩
  · rw [Mv.hitzerInverse, hN]
    by_cases hc0 : c = 0
    · simp only [hd, if_pos hc0]
    · exfalso
      apply hu
      have hB : A.hitzerInverse g = .ok (N.smul c⁻¹) := by
        rw [Mv.hitzerInverse, hN]; simp only [hd, if_neg hc0]
      obtain ⟨-, h1, h2⟩ := key _ hB
      exact isUnit_iff_exists.mpr ⟨_, h1, h2⟩

/-- C24: in the program's own arithmetic, `A * A.hitzer_inverse() == 1 == A.hitzer_inverse() * A`. -/
theorem C24_hitzer_eq (hs : g.IsSymm) (hn : n ≤ 5) {A B : Mv K n} (hA : A.WF g)
    (hb : A.isBladeRep = true) (hB : A.hitzerInverse g = .ok B) :
    (A.mul g B).eq g (Mv.scalarMv 1) = true ∧ (B.mul g A).eq g (Mv.scalarMv 1) = true := by
  obtain ⟨hw, h1, h2⟩ := (C24_hitzer hs hn hA hb).1 B hB
  have h1r := scalarMv_spec (g := g) (1 : K)
  constructor
  · rw [eq_spec hs (mul_spec' hs hA hw).1 h1r.1, (mul_spec' hs hA hw).2, h1, h1r.2.2, map_one]
  · rw [eq_spec hs (mul_spec' hs hw hA).1 h1r.1, (mul_spec' hs hw hA).2, h2, h1r.2.2, map_one]

/-- C24: in six or more dimensions the call is refused. -/
theorem C24_not_implemented (hn : 5 < n) (A : Mv K n) :
    A.hitzerInverse g = .error .notImplemented := by
  rw [Mv.hitzerInverse, Mv.hitzerNumerator, if_neg (by omega), if_neg (by omega), if_neg (by omega),
    if_neg (by omega), if_neg (by omega), if_neg (by omega)]

namespace Ex

/-- A non-degenerate, non-orthogonal case. -/
example : (A.mul gN ((A.hitzerInverse gN).toOption.getD Mv.zero)).eq gN (Mv.scalarMv 1) = true ∧
    ∃ B, A.hitzerInverse gN = .ok B := by
  have h : ∃ B, A.hitzerInverse gN = .ok B := by
    have : (A.hitzerInverse gN).isOk = true := by decide +kernel
    cases hB : A.hitzerInverse gN with
    | ok B => exact ⟨B, rfl⟩
    | error e => rw [hB] at this; simp [Except.isOk, Except.toBool] at this
  obtain ⟨B, hB⟩ := h
  refine ⟨?_, B, hB⟩
  rw [hB]
  exact (C24_hitzer_eq gN_symm (by decide) (A_wf _) A_blade hB).1

/-- `1 + e_0` has no inverse where `e_0` squares to 1, and the call says so. -/
example : (Mv.ofExpr [(1, .blade []), (1, .blade [0])] : Mv ℚ 3).hitzerInverse gO =
    .error .noInverse := by decide +kernel

/-- Minkowski space, and a degenerate metric in five dimensions. -/
def gM : Matrix (Fin 4) (Fin 4) ℚ := Matrix.diagonal ![1, -1, -1, -1]
def gD : Matrix (Fin 5) (Fin 5) ℚ := Matrix.diagonal ![1, -1, 0, 2, 1]

def A4 : Mv ℚ 4 := Mv.ofExpr
  [(2, .blade []), (1, .blade [0, 1]), (1, .blade [0, 1, 2]), (3, .blade [0, 1, 2, 3])]
def A5 : Mv ℚ 5 := Mv.ofExpr [(2, .blade []), (1, .blade [0, 3]), (3, .blade [0, 1, 3, 4])]

example : (A4.hitzerInverse gM).isOk = true := by decide +kernel
set_option maxRecDepth 100000 in
example : (A5.hitzerInverse gD).isOk = true := by decide +kernel

end Ex

end GA
