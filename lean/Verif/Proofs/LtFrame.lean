import Verif.Spec.LtFrame
import Verif.Proofs.Script
import Verif.Props.C38
import Verif.Props.C58
import Verif.Props.C42

/-! Linear transformations and a change of basis. -/

set_option linter.unusedSectionVars false

namespace GA
open _root_.Spec (Emb)
variable {n : ℕ} {K : Type*} [Field K] [DecidableEq K] [Invertible (2 : K)]
  {g : Matrix (Fin n) (Fin n) K} {f : Fin n → Fin n → K} {L L' N N' : Lt K n}

theorem emb_lin (g : Matrix (Fin n) (Fin n) K) (f : Fin n → Fin n → K) (v : Fin n → K) :
    (Spec.emb g f).lin v = (Matrix.of f).transpose.mulVec v := by
  change Spec.combLin f v = _
  funext k
  rw [Spec.combLin_apply, Matrix.mulVec, dotProduct]
  rfl

/-- The outermorphisms of corresponding matrices correspond. -/
theorem emb_outer {M M' : Matrix (Fin n) (Fin n) K}
    (H : (Matrix.of f).transpose * M = M' * (Matrix.of f).transpose)
    (x : Spec.Cl (Spec.gramOf g f)) :
    (Spec.emb g f).hom (Spec.outer _ M x) = Spec.outer g M' ((Spec.emb g f).hom x) := by
  induction x using Spec.blade_induction (Spec.gramOf g f) with
  | h0 => simp only [map_zero]
  | hadd x y hx hy => simp only [map_add, hx, hy]
  | hsm c l _ =>
    simp only [map_smul]
    congr 1
    rw [Spec.blade_eq_wedgeL, Spec.outer_wedgeL, (Spec.emb g f).wedgeL, (Spec.emb g f).wedgeL,
      Spec.outer_wedgeL]
    congr 1
    simp only [List.map_map]
    refine List.map_congr_left fun i _ => ?_
    simp only [Function.comp, emb_lin, Matrix.mulVec_mulVec, H]

theorem gram_det (f : Fin n → Fin n → K) :
    (Spec.gramOf g f).det = (Matrix.of f).det ^ 2 * g.det := by
  rw [Spec.gramOf_eq, Matrix.det_mul, Matrix.det_mul,
    Matrix.det_transpose, show (Matrix.of fun k i => f i k) = (Matrix.of f).transpose from rfl,
    Matrix.det_transpose]
  ring

theorem sameLt_iff (hs : g.IsSymm) (hL : L.WF) (hL' : L'.WF) :
    SameLt (Spec.gramOf g f) g (fun i => Mv.vector (f i)) L L' ↔
      (Matrix.of f).transpose * L.mat = L'.mat * (Matrix.of f).transpose := by
  have hs' := gramOf_symm hs f
  have key : ∀ v, ((L.call (Spec.gramOf g f) (Mv.vector v)).rewriteIn g fun i => Mv.vector (f i)).eq g
      (L'.call g ((Mv.vector v).rewriteIn g fun i => Mv.vector (f i))) = true ↔
      ((Matrix.of f).transpose * L.mat).mulVec v = (L'.mat * (Matrix.of f).transpose).mulVec v := by
    intro v
    rw [Rep.eq_iff hs (rewrite_rep hs f (Rep.call hs' hL (Rep.vector v)))
      (Rep.call hs hL' (rewrite_rep hs f (Rep.vector v))), Spec.outer_vec, (Spec.emb g f).vec,
      (Spec.emb g f).vec, Spec.outer_vec, emb_lin, emb_lin, Matrix.mulVec_mulVec, Matrix.mulVec_mulVec]
    exact ⟨vec_inj g, fun e => by rw [e]⟩
  constructor
  · intro H
    exact Matrix.mulVec_injective (funext fun v => (key v).mp (H v))
  · intro H v
    rw [key, H]

theorem sameOnBasis_iff (hs : g.IsSymm) (hL : L.WF) (hL' : L'.WF) :
    SameOnBasis (Spec.gramOf g f) g (fun i => Mv.vector (f i)) L L' ↔
      (Matrix.of f).transpose * L.mat = L'.mat * (Matrix.of f).transpose := by
  have hs' := gramOf_symm hs f
  have key : ∀ i, ((L.call (Spec.gramOf g f) (Mv.vector (Pi.single i 1))).rewriteIn g
      fun i => Mv.vector (f i)).eq g (L'.call g (Mv.vector (f i))) = true ↔
      ((Matrix.of f).transpose * L.mat).mulVec (Pi.single i 1) =
        (L'.mat * (Matrix.of f).transpose).mulVec (Pi.single i 1) := by
    intro i
    rw [Rep.eq_iff hs (rewrite_rep hs f (Rep.call hs' hL (Rep.vector _)))
      (Rep.call hs hL' (Rep.vector (f i))), Spec.outer_vec, (Spec.emb g f).vec,
      Spec.outer_vec, emb_lin, Matrix.mulVec_mulVec]
    have e : (L'.mat * (Matrix.of f).transpose).mulVec (Pi.single i 1) = L'.mat.mulVec (f i) := by
      rw [← Matrix.mulVec_mulVec, Matrix.mulVec_single_one]
      rfl
    rw [e]
    exact ⟨vec_inj g, fun e => by rw [e]⟩
  constructor
  · intro H
    ext j i
    have := congrFun ((key i).mp (H i)) j
    simpa using this
  · intro H i
    exact (key i).mpr (by rw [H])

/-- The determinant of a transformation in an algebra with a singular metric: an exception. -/
theorem pseudoE_inv_none (hs : g.IsSymm) (hd : g.det = 0) : (pseudoE : Mv K n).inv g = none := by
  cases h : (pseudoE : Mv K n).inv g with
  | none => rfl
  | some B =>
    exfalso
    obtain ⟨-, h1, -⟩ := Rep.inv hs (pseudoE_rep (g := g)) h
    have h2 : Spec.pseudo g * Spec.pseudo g = 0 := by
      rw [Spec.pseudo_sq hs, hd, mul_zero, map_zero]
    have h3 : Spec.pseudo g * (Spec.pseudo g * B.val g) = Spec.pseudo g := by rw [h1, mul_one]
    rw [← mul_assoc, h2, zero_mul] at h3
    rw [← h3, zero_mul] at h1
    exact one_ne_zero (α := Spec.Cl g) h1.symm

theorem gInv_none (hs : g.IsSymm) (hd : g.det = 0) : gInv g = none := by
  cases h : gInv g with
  | none => rfl
  | some m =>
    exfalso
    have := congrArg Matrix.det (C22_inverse_metric hs h).1
    rw [Matrix.det_mul, hd, mul_zero, Matrix.det_one] at this
    exact zero_ne_one this

end GA
