import Verif.Proofs.Examples
import Verif.Props.C06

/-!
# C13: blade and base representations

`bladeRep`, `baseRep` model `Mv.blade_rep()`, `Mv.base_rep()`.
-/

set_option linter.unusedSectionVars false
set_option maxRecDepth 10000

namespace GA
variable {n : ℕ} {R : Type*} [CommRing R] [DecidableEq R] [Invertible (2 : R)]
  {g : Matrix (Fin n) (Fin n) R}

/-- The coefficient of a symbol (basis blade or base) in an expression. -/
def symCoeff (A : Expr R n) (s : Sym n) : R :=
  (A.map fun t => if t.2 = s then t.1 else 0).sum

omit [Invertible (2 : R)] in
theorem symCoeff_eq_lin (A : Expr R n) (s : Sym n) :
    symCoeff A s = lin (fun u => if u = s then (1 : R) else 0) A := by
  simp only [symCoeff, lin, smul_eq_mul, mul_ite, mul_one, mul_zero]

/-- Two multivectors in the same representation with the same meaning have the same
coefficients. -/
theorem same_coeff {A B : Mv R n} (hA : A.WF g) (hB : B.WF g) (hf : A.isBladeRep = B.isBladeRep)
    (h : A.val g = B.val g) : symCoeff A.obj = symCoeff B.obj := by
  have h1 : AllSyms (RepSym g A.isBladeRep) (subE A.obj B.obj) := hA.syms.subE (hf ▸ hB.syms)
  have h2 := (val_eq_zero (ofExpr_rep h1)).mp (by
    rw [ofExpr_val, den_subE]; exact sub_eq_zero.mpr h)
  have h3 : expand (subE A.obj B.obj) = [] := h2
  funext s
  rw [symCoeff_eq_lin, symCoeff_eq_lin, ← sub_eq_zero, ← lin_subE, ← lin_expand, h3, lin_nil]

/-- C13: both conversions keep the meaning, and are the identity on a multivector that is already
in the target representation. -/
theorem C13_meaning (hs : g.IsSymm) {A : Mv R n} (hA : A.WF g) :
    ((A.baseRep g).WF g ∧ (A.baseRep g).isBladeRep = false ∧ (A.baseRep g).val g = A.val g) ∧
    ((A.bladeRep g).WF g ∧ (A.bladeRep g).isBladeRep = true ∧ (A.bladeRep g).val g = A.val g) ∧
    (A.isBladeRep = true → A.bladeRep g = A) ∧ (A.isBladeRep = false → A.baseRep g = A) :=
  ⟨baseRep_spec hs hA, bladeRep_spec hs hA, fun h => by rw [Mv.bladeRep, if_pos h],
    fun h => by rw [Mv.baseRep, if_neg (by simp [h])]⟩

/-- C13: converting there and back returns the same coefficients, in both directions. -/
theorem C13_round_trip (hs : g.IsSymm) {A : Mv R n} (hA : A.WF g) :
    (A.isBladeRep = true → symCoeff ((A.baseRep g).bladeRep g).obj = symCoeff A.obj) ∧
    (A.isBladeRep = false → symCoeff ((A.bladeRep g).baseRep g).obj = symCoeff A.obj) := by
  have h1 := baseRep_spec hs hA
  have h2 := bladeRep_spec hs h1.1
  have h3 := bladeRep_spec hs hA
  have h4 := baseRep_spec hs h3.1
  exact ⟨fun h => same_coeff h2.1 hA (h2.2.1.trans h.symm) (h2.2.2.trans h1.2.2),
    fun h => same_coeff h4.1 hA (h4.2.1.trans h.symm) (h4.2.2.trans h3.2.2)⟩

example : symCoeff ((Ex.P.bladeRep Ex.gN).baseRep Ex.gN).obj = symCoeff Ex.P.obj :=
  (C13_round_trip Ex.gN_symm Ex.P_wf).2 Ex.P_base

example : symCoeff ((Ex.B.baseRep Ex.gN).bladeRep Ex.gN).obj = symCoeff Ex.B.obj :=
  (C13_round_trip Ex.gN_symm (Ex.B_wf _)).1 Ex.B_blade

example : (Ex.P.bladeRep Ex.gN).bladeCoefs = [1/2, 6, 0, 1, 1, 0, 0, 2] := by decide +kernel

end GA
