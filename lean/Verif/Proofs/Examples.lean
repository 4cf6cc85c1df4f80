import Verif.Proofs.MvSpec
import Verif.Spec.Witness

/-! The multivectors of `Verif/Spec/Witness.lean` are well-formed. -/

namespace GA.Ex

variable {n : ℕ} {R : Type*} [CommRing R] [DecidableEq R]

/-- Decides `Valid`. -/
def validB (E : Expr R n) : Bool := E.all fun t =>
  match t.2 with
  | .blade l => decide (l.Pairwise (· < ·))
  | _ => false

theorem valid_of {E : Expr R n} (h : validB E = true) : Valid E := by
  intro t ht
  have := (List.all_eq_true.mp h) t ht
  split at this
  · rename_i l hl
    exact ⟨l, hl, by simpa using this⟩
  · simp at this

/-- Decides whether only bases occur. -/
def basesB (E : Expr R n) : Bool := E.all fun t =>
  match t.2 with
  | .blade l => decide (l.Pairwise (· < ·) ∧ l.length ≤ 1)
  | .base l => decide (l.Pairwise (· < ·) ∧ 1 < l.length)
  | _ => false

theorem bases_of {E : Expr R n} (h : basesB E = true) : AllSyms IsBs E := by
  intro t ht
  have := (List.all_eq_true.mp h) t ht
  split at this
  · rename_i l hl
    simp only [decide_eq_true_eq] at this
    exact ⟨l, by rw [mkBase, if_pos this.2, hl], this.1⟩
  · rename_i l hl
    simp only [decide_eq_true_eq] at this
    exact ⟨l, by rw [mkBase, if_neg (by omega), hl], this.1⟩
  · simp at this

theorem wf_of [Invertible (2 : R)] (g : Matrix (Fin n) (Fin n) R) {E : Expr R n}
    (h : validB E = true) : (Mv.ofExpr E).WF g := (ofExpr_valid (valid_of h)).1

theorem A_wf (g : Matrix (Fin 3) (Fin 3) ℚ) : A.WF g := wf_of g (by decide)
theorem B_wf (g : Matrix (Fin 3) (Fin 3) ℚ) : B.WF g := wf_of g (by decide)
theorem C_wf (g : Matrix (Fin 3) (Fin 3) ℚ) : C.WF g := wf_of g (by decide)

theorem P_wf : P.WF gN := ofExpr_rep (b := false) ((bases_of (by decide)).mono fun s hs => by
  rw [RepSym, if_neg (by decide +kernel)]; exact hs)

theorem A_blade : A.isBladeRep = true := by decide +kernel
theorem B_blade : B.isBladeRep = true := by decide +kernel
theorem C_blade : C.isBladeRep = true := by decide +kernel
theorem P_base : P.isBladeRep = false := by decide +kernel

end GA.Ex
