import Verif.Proofs.Examples
import Verif.Proofs.Flags
import Mathlib.LinearAlgebra.CliffordAlgebra.Conjugation

/-!
# C15, C16, C17: reverse, grade involution, Clifford conjugation

`rev`, `even`, `odd`, `gInvol`, `ccon` model `Mv.rev`, `Mv.even`, `Mv.odd`, `Mv.g_invol`, `Mv.ccon`.
-/

set_option linter.unusedSectionVars false
set_option maxRecDepth 10000

namespace GA
variable {n : ℕ} {R : Type*} [CommRing R] [DecidableEq R] [Invertible (2 : R)]
  {g : Matrix (Fin n) (Fin n) R}

/-- The product `v_1 * v_2 * ... * v_k` of vectors, as a multivector. -/
def vecProd (g : Matrix (Fin n) (Fin n) R) : List (Fin n → R) → Mv R n
  | [] => Mv.scalarMv 1
  | v :: L => (Mv.vector v).mul g (vecProd g L)

theorem vecProd_spec (hs : g.IsSymm) (L : List (Fin n → R)) :
    (vecProd g L).WF g ∧ (vecProd g L).val g = (L.map (CliffordAlgebra.ι (Spec.Q g))).prod := by
  induction L with
  | nil => exact ⟨(scalarMv_spec 1).1, by rw [vecProd, (scalarMv_spec 1).2.2]; simp⟩
  | cons v L ih =>
    have h := mul_spec' hs (vector_spec (g := g) v).1 ih.1
    exact ⟨h.1, by rw [vecProd, h.2, (vector_spec v).2.2, ih.2]; rfl⟩

/-- C15: `rev` is an involutive anti-automorphism, in any representation. -/
theorem C15_reverse (hs : g.IsSymm) {A B : Mv R n} (hA : A.WF g) (hB : B.WF g) :
    ((A.rev g).rev g).eq g A = true ∧
    ((A.mul g B).rev g).eq g ((B.rev g).mul g (A.rev g)) = true ∧
    ((A.add g B).rev g).eq g ((A.rev g).add g (B.rev g)) = true := by
  have rA := rev_spec hs hA
  have rB := rev_spec hs hB
  have rrA := rev_spec hs rA.1
  have h1 := mul_spec' hs hA hB
  have h2 := rev_spec hs h1.1
  have h3 := mul_spec' hs rB.1 rA.1
  have h4 := add_spec hs hA hB
  have h5 := rev_spec hs h4.1
  have h6 := add_spec hs rA.1 rB.1
  refine ⟨?_, ?_, ?_⟩
  · rw [eq_spec hs rrA.1 hA, rrA.2.2, rA.2.2, CliffordAlgebra.reverse_reverse]
  · rw [eq_spec hs h2.1 h3.1, h2.2.2, h3.2, h1.2, rA.2.2, rB.2.2, CliffordAlgebra.reverse.map_mul]
  · rw [eq_spec hs h5.1 h6.1, h5.2.2, h6.2, h4.2, rA.2.2, rB.2.2, map_add]

/-- C15: on a product of vectors `rev` reverses the order of the factors. -/
theorem C15_reverse_product (hs : g.IsSymm) (L : List (Fin n → R)) :
    ((vecProd g L).rev g).eq g (vecProd g L.reverse) = true := by
  have h1 := vecProd_spec hs L
  have h2 := vecProd_spec hs L.reverse
  have h3 := rev_spec hs h1.1
  rw [eq_spec hs h3.1 h2.1, h3.2.2, h1.2, h2.2, CliffordAlgebra.reverse_prod_map_ι, List.map_reverse]

/-- C15: the same meaning as Mathlib's reversion, which fixes vectors and scalars. -/
theorem C15_reverse_meaning (hs : g.IsSymm) {A : Mv R n} (hA : A.WF g) :
    (A.rev g).WF g ∧ (A.rev g).val g = CliffordAlgebra.reverse (A.val g) :=
  ⟨(rev_spec hs hA).1, (rev_spec hs hA).2.2⟩

example : ((Ex.P.mul Ex.gN Ex.B).rev Ex.gN).eq Ex.gN ((Ex.B.rev Ex.gN).mul Ex.gN (Ex.P.rev Ex.gN)) = true :=
  (C15_reverse Ex.gN_symm Ex.P_wf (Ex.B_wf _)).2.1

example : ((vecProd Ex.gN [![1, 2, 3], ![0, 1, 1]]).rev Ex.gN).eq Ex.gN
    (vecProd Ex.gN [![1, 2, 3], ![0, 1, 1]]) = false := by decide +kernel

/-- C16: even and odd part; `A = even(A) + odd(A)`, and the parts are fixed respectively negated by
the grade involution. -/
theorem C16_even_odd (hs : g.IsSymm) {A : Mv R n} (hA : A.WF g) (hb : A.isBladeRep = true) :
    (A.even.add g A.odd).eq g A = true ∧
    CliffordAlgebra.involute (A.even.val g) = A.even.val g ∧
    CliffordAlgebra.involute (A.odd.val g) = -A.odd.val g ∧
    (∀ t ∈ A.even.obj, ∃ l : List (Fin n), t.2 = .blade l ∧ Even l.length) ∧
    (∀ t ∈ A.odd.obj, ∃ l : List (Fin n), t.2 = .blade l ∧ Odd l.length) := by
  have he := even_spec hA (Or.inl hb)
  have ho := odd_spec hA (Or.inl hb)
  have h1 := add_spec hs he.1 ho.1
  have hv := hA.valid (Or.inl hb)
  have hsy : ∀ b : Bool, AllSyms (fun s => IsBl s ∧ symLen s % 2 = if b then 0 else 1)
      (Mv.ofExpr (evenOdd A.obj b)).obj := by
    intro b
    refine AllSyms.expand ?_
    rw [evenOdd_eq hv]
    intro t ht
    refine ⟨allSyms_filter hv.expand.syms _ t ht, ?_⟩
    simpa using (List.mem_filter.mp ht).2
  refine ⟨?_, ?_, ?_, fun t ht => ?_, fun t ht => ?_⟩
  · rw [eq_spec hs h1.1 hA, h1.2]
    apply Spec.two_cancel (R := R)
    rw [smul_add, he.2.2, ho.2.2, two_smul]; abel
  · apply Spec.two_cancel (R := R)
    rw [← map_smul, he.2.2, map_add, CliffordAlgebra.involute_involute, add_comm]
  · apply Spec.two_cancel (R := R)
    rw [← map_smul, smul_neg, ho.2.2, map_sub, CliffordAlgebra.involute_involute]; abel
  · obtain ⟨⟨l, hl, -⟩, h⟩ := hsy true t ht
    rw [hl] at h
    exact ⟨l, hl, Nat.even_iff.mpr (by simpa [symLen] using h)⟩
  · obtain ⟨⟨l, hl, -⟩, h⟩ := hsy false t ht
    rw [hl] at h
    exact ⟨l, hl, Nat.odd_iff.mpr (by simpa [symLen] using h)⟩

/-- C16: products respect parity: even*even and odd*odd are even, even*odd and odd*even are odd
(written as: the other part of the product is zero). -/
theorem C16_parity (hs : g.IsSymm) {A B : Mv R n} (hA : A.WF g) (hB : B.WF g)
    (hA' : A.isBladeRep = true) (hB' : B.isBladeRep = true) :
    CliffordAlgebra.involute ((A.even.mul g B.even).val g) = (A.even.mul g B.even).val g ∧
    CliffordAlgebra.involute ((A.odd.mul g B.odd).val g) = (A.odd.mul g B.odd).val g ∧
    CliffordAlgebra.involute ((A.even.mul g B.odd).val g) = -(A.even.mul g B.odd).val g ∧
    CliffordAlgebra.involute ((A.odd.mul g B.even).val g) = -(A.odd.mul g B.even).val g := by
  have a := C16_even_odd hs hA hA'
  have b := C16_even_odd hs hB hB'
  have eA := (even_spec hA (Or.inl hA')).1
  have oA := (odd_spec hA (Or.inl hA')).1
  have eB := (even_spec hB (Or.inl hB')).1
  have oB := (odd_spec hB (Or.inl hB')).1
  rw [(mul_spec' hs eA eB).2, (mul_spec' hs oA oB).2, (mul_spec' hs eA oB).2, (mul_spec' hs oA eB).2]
  simp only [map_mul, a.2.1, a.2.2.1, b.2.1, b.2.2.1]
  simp

/-- C16: `g_invol` is an involutive automorphism (multivectors in blade representation). -/
theorem C16_g_invol (hs : g.IsSymm) {A B : Mv R n} (hA : A.WF g) (hB : B.WF g)
    (hA' : A.isBladeRep = true) (hB' : B.isBladeRep = true) :
    ((A.gInvol g).gInvol g).eq g A = true ∧
    ((A.mul g B).gInvol g).eq g ((A.gInvol g).mul g (B.gInvol g)) = true ∧
    ((A.add g B).gInvol g).eq g ((A.gInvol g).add g (B.gInvol g)) = true := by
  have iA := gInvol_spec hs hA (Or.inl hA')
  have iB := gInvol_spec hs hB (Or.inl hB')
  have iiA := gInvol_spec hs iA.1 (Or.inl (gInvol_blade_flag hs hA hA'))
  have h1 := mul_spec' hs hA hB
  have h2 := gInvol_spec hs h1.1 (Or.inl (mul_blade_flag hs hA hB hB'))
  have h3 := mul_spec' hs iA.1 iB.1
  have h4 := add_spec hs hA hB
  have h5 := gInvol_spec hs h4.1 (Or.inl (add_blade_flag hs hA hB hA'))
  have h6 := add_spec hs iA.1 iB.1
  refine ⟨?_, ?_, ?_⟩
  · rw [eq_spec hs iiA.1 hA, iiA.2, iA.2, CliffordAlgebra.involute_involute]
  · rw [eq_spec hs h2.1 h3.1, h2.2, h3.2, h1.2, iA.2, iB.2, map_mul]
  · rw [eq_spec hs h5.1 h6.1, h5.2, h6.2, h4.2, iA.2, iB.2, map_add]

/-- C16 (limitation): for a multivector in base representation over a non-orthogonal basis `even`,
hence `g_invol` and `ccon`, raise `KeyError` (the bases are not keys of the dictionary of
blade grades). -/
theorem C16_base_rep_raises : ∃ A : Mv ℚ 3, A.WF Ex.gN ∧ A.isBladeRep = false ∧
    (∃ t ∈ A.even.obj, t.2 = .error) :=
  ⟨Ex.P, Ex.P_wf, Ex.P_base, by decide +kernel⟩

example : ((Ex.A.mul Ex.gN Ex.B).gInvol Ex.gN).eq Ex.gN
    ((Ex.A.gInvol Ex.gN).mul Ex.gN (Ex.B.gInvol Ex.gN)) = true :=
  (C16_g_invol Ex.gN_symm (Ex.A_wf _) (Ex.B_wf _) Ex.A_blade Ex.B_blade).2.1

example : Ex.A.even.obj = [(1, .blade []), (3, .blade [0, 1])] ∧ Ex.A.odd.obj = [(2, .blade [0])] := by
  decide +kernel

/-- C17: Clifford conjugation is `rev` after `g_invol` and `g_invol` after `rev`; it is an involutive
anti-automorphism. -/
theorem C17_ccon (hs : g.IsSymm) {A B : Mv R n} (hA : A.WF g) (hB : B.WF g)
    (hA' : A.isBladeRep = true) (hB' : B.isBladeRep = true) :
    A.ccon g = (A.gInvol g).rev g ∧
    (A.ccon g).eq g ((A.rev g).gInvol g) = true ∧
    ((A.ccon g).ccon g).eq g A = true ∧
    ((A.mul g B).ccon g).eq g ((B.ccon g).mul g (A.ccon g)) = true := by
  have cA := ccon_spec hs hA (Or.inl hA')
  have cB := ccon_spec hs hB (Or.inl hB')
  have ccA := ccon_spec hs cA.1 (Or.inl cA.2.1)
  have rA := rev_spec hs hA
  have irA := gInvol_spec hs rA.1 (Or.inl rA.2.1)
  have h1 := mul_spec' hs hA hB
  have h2 := ccon_spec hs h1.1 (Or.inl (mul_blade_flag hs hA hB hB'))
  have h3 := mul_spec' hs cB.1 cA.1
  refine ⟨rfl, ?_, ?_, ?_⟩
  · rw [eq_spec hs cA.1 irA.1, cA.2.2, irA.2, rA.2.2, CliffordAlgebra.reverse_involute]
  · rw [eq_spec hs ccA.1 hA, ccA.2.2, cA.2.2, CliffordAlgebra.reverse_involute,
      CliffordAlgebra.reverse_reverse, CliffordAlgebra.involute_involute]
  · rw [eq_spec hs h2.1 h3.1, h2.2.2, h3.2, h1.2, cA.2.2, cB.2.2, map_mul,
      CliffordAlgebra.reverse.map_mul]

example : ((Ex.A.mul Ex.gN Ex.B).ccon Ex.gN).eq Ex.gN
    ((Ex.B.ccon Ex.gN).mul Ex.gN (Ex.A.ccon Ex.gN)) = true :=
  (C17_ccon Ex.gN_symm (Ex.A_wf _) (Ex.B_wf _) Ex.A_blade Ex.B_blade).2.2.2

end GA
