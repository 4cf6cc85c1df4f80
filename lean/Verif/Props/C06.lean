import Verif.Proofs.Examples

/-!
# C06: equality of multivectors

`A.eq g B` models `A == B`, `bladeCoefs` models `blade_coefs()`.
-/

set_option linter.unusedSectionVars false
set_option maxRecDepth 10000

namespace GA
variable {n : ℕ} {R : Type*} [CommRing R] [DecidableEq R] [Invertible (2 : R)]
  {g : Matrix (Fin n) (Fin n) R}

/-- C06: `A == B` holds exactly when both stand for the same element of the Clifford algebra, in
whichever representation they are. -/
theorem C06_eq_iff (hs : g.IsSymm) {A B : Mv R n} (hA : A.WF g) (hB : B.WF g) :
    A.eq g B = true ↔ A.val g = B.val g := eq_spec hs hA hB

/-- `blade_coefs()` lists the coefficients. -/
theorem bladeCoefs_eq (A : Mv R n) :
    A.bladeCoefs = (flat (blades n)).map fun b =>
      lin (fun s => if s = b then (1 : R) else 0) A.obj := by
  refine List.map_congr_left fun b _ => ?_
  cases h : (linearExpand A.obj).find? fun t => decide (t.2 = b) with
  | none =>
    rw [List.find?_eq_none] at h
    rw [← lin_linearExpand, lin_congr _ _ (fun _ => (0 : R))]
    · simp only
      induction linearExpand A.obj with
      | nil => rfl
      | cons t E ih => simp [← ih]
    · intro t ht
      rw [if_neg (by simpa using h t ht)]
  | some t =>
    have h1 := List.mem_of_find?_eq_some h
    have h2 : t.2 = b := by simpa using List.find?_some h
    simp only
    rw [← lin_linearExpand, ← h2, coef_of_mem_nodup (linearExpand_nodup _) h1]

/-- C06: two multivectors in blade representation stand for the same element exactly when their
lists of basis blade coefficients agree. -/
theorem C06_blade_coefs_iff {A B : Mv R n} (hA : A.WF g) (hB : B.WF g)
    (hA' : A.isBladeRep = true) (hB' : B.isBladeRep = true) :
    A.bladeCoefs = B.bladeCoefs ↔ A.val g = B.val g := by
  rw [Mv.val, Mv.val, den_eq_iff g (hA.valid (Or.inl hA')) (hB.valid (Or.inl hB')), bladeCoefs_eq,
    bladeCoefs_eq]
  simp only [List.map_inj_left, coeff_eq_lin, isBl_of_mem_flat]
  constructor
  · intro h l hl
    exact h _ ⟨l, rfl, hl⟩
  · rintro h b ⟨l, rfl, hl⟩
    exact h l hl

/-- C06: every element of the Clifford algebra is the value of a multivector in blade
representation, and any list of `2^n` coefficients is the coefficient list of one. -/
theorem C06_representable (x : Spec.Cl g) :
    ∃ A : Mv R n, A.WF g ∧ A.isBladeRep = true ∧ A.val g = x := by
  obtain ⟨E, hE, rfl⟩ := exists_expr g x
  exact ⟨Mv.ofExpr E, (ofExpr_valid hE).1, (ofExpr_valid (g := g) hE).2, ofExpr_val E⟩

/-- C06: coefficients can be prescribed freely. -/
theorem C06_coefs_free (c : List (Fin n) → R) :
    ∃ A : Mv R n, A.WF g ∧ A.isBladeRep = true ∧
      A.bladeCoefs = (flat (indexes n)).map c := by
  have hv : Valid ((flat (indexes n)).map fun l => (c l, Sym.blade l)) := by
    intro t ht
    obtain ⟨l, hl, rfl⟩ := List.mem_map.mp ht
    exact ⟨l, rfl, mem_flat_indexes.mp hl⟩
  refine ⟨Mv.ofExpr _, (ofExpr_valid hv).1, (ofExpr_valid (g := g) hv).2, ?_⟩
  rw [bladeCoefs_eq, flat_blades, List.map_map]
  refine List.map_congr_left fun l hl => ?_
  simp only [Mv.ofExpr, lin_expand, Function.comp, mkBlade]
  have hnd := nodup_flat_indexes n
  have : ∀ L : List (List (Fin n)), L.Nodup → l ∈ L →
      lin (fun s => if s = Sym.blade l then (1 : R) else 0)
        (L.map fun l => (c l, Sym.blade l)) = c l := by
    intro L hL hl
    have := coef_of_mem_nodup (E := L.map fun l => (c l, Sym.blade l)) (t := (c l, .blade l))
      (by rw [List.map_map]; exact hL.map (fun a b h => by simpa using h))
      (List.mem_map.mpr ⟨l, hl, rfl⟩)
    exact this
  exact this _ hnd hl

/-- C06: the zero test `is_zero`. -/
theorem C06_is_zero {A : Mv R n} (hA : A.WF g) : A.isZero = true ↔ A.val g = 0 := by
  rw [Mv.isZero, decide_eq_true_eq, val_eq_zero hA]

example : (Ex.P.eq Ex.gN (Ex.P.bladeRep Ex.gN) = true) ∧ Ex.P.obj ≠ (Ex.P.bladeRep Ex.gN).obj ∧
    (Ex.A.eq Ex.gN Ex.B = false) := by decide +kernel

example : Ex.A.bladeCoefs = [1, 2, 0, 0, 3, 0, 0, 0] := by decide +kernel

example : Ex.A.bladeCoefs = Ex.B.bladeCoefs ↔ Ex.A.val Ex.gN = Ex.B.val Ex.gN :=
  C06_blade_coefs_iff (Ex.A_wf _) (Ex.B_wf _) Ex.A_blade Ex.B_blade

end GA
