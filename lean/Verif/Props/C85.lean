import Verif.Proofs.Subs
import Verif.Props.C06
import Mathlib.Algebra.Ring.Prod

/-!
# C85: substituting values for symbols before or after a calculation

`φ` assigns values to the symbols in the coefficients: it maps coefficients to coefficients and respects
sums, products and numbers, so it is a ring homomorphism.  `g.map φ` is the metric with the values
inserted; an oblique metric may become orthogonal, in which case the library calculates in another way.
`A.subs φ` models `A.subs(...)`.  `p.run g a` is the result of the calculation `p` (`Spec/Program`) in the
algebra of the metric `g` with given multivectors `a i`, and `p.map φ` is the calculation with the values
inserted in its constants.
-/

set_option linter.unusedSectionVars false
set_option maxRecDepth 10000

namespace GA
open Spec (Change exists_change)
variable {n : ℕ} {R S : Type*} [CommRing R] [DecidableEq R] [Invertible (2 : R)]
  [CommRing S] [DecidableEq S] [Invertible (2 : S)] (φ : R →+* S)
  {g : Matrix (Fin n) (Fin n) R} {a : ℕ → Mv R n}

/-- C85: `subs` changes the list of coefficients of basis blades entry by entry. -/
theorem C85_subs_coefs (A : Mv R n) : (A.subs φ).bladeCoefs = A.bladeCoefs.map φ := by
  rw [bladeCoefs_eq, bladeCoefs_eq, List.map_map]
  refine List.map_congr_left fun b _ => ?_
  rw [Mv.subs, Mv.ofExpr, lin_expand, Function.comp_apply, ← lin_linearExpand _ A.obj]
  induction linearExpand A.obj with
  | nil => simp
  | cons t E ih =>
    rw [List.map_cons, lin_cons, lin_cons, ih, map_add]
    congr 1
    simp only [smul_eq_mul, map_mul]
    split_ifs <;> simp

/-- C85: a calculation followed by the substitution gives the coefficients of the calculation with the
values inserted everywhere at the start: in the metric, in the given multivectors and in the constants. -/
theorem C85_calculation (hs : g.IsSymm) (ha : ∀ i, (a i).WF g) (hb : ∀ i, (a i).isBladeRep = true)
    (p : Calc R) :
    ((p.run g a).subs φ).bladeCoefs =
      ((p.map φ).run (g.map φ) fun i => (a i).subs φ).bladeCoefs := by
  obtain ⟨Ψ⟩ := exists_change φ g
  obtain ⟨z, h, h'⟩ := calc_rep Ψ hs (fun i => Rep.of_wf (ha i) (hb i))
    (fun i => (Rep.of_wf (ha i) (hb i)).subs Ψ) p
  have h1 := h.subs Ψ
  exact (C06_blade_coefs_iff h1.wf h'.wf h1.flag h'.flag).mpr (h1.val.trans h'.val.symm)

/-- C85: the two results have the same terms. -/
theorem C85_terms (hs : g.IsSymm) (ha : ∀ i, (a i).WF g) (hb : ∀ i, (a i).isBladeRep = true)
    (p : Calc R) :
    ((p.run g a).subs φ).obj.Perm ((p.map φ).run (g.map φ) fun i => (a i).subs φ).obj := by
  obtain ⟨Ψ⟩ := exists_change φ g
  obtain ⟨z, h, h'⟩ := calc_rep Ψ hs (fun i => Rep.of_wf (ha i) (hb i))
    (fun i => (Rep.of_wf (ha i) (hb i)).subs Ψ) p
  exact perm_of_val (h.subs Ψ) h'

/-- C85: if the metric contains none of the substituted symbols, both results live in the same algebra
and compare equal with `==`. -/
theorem C85_same_algebra (φ : R →+* R) (hg : g.map φ = g) (hs : g.IsSymm) (ha : ∀ i, (a i).WF g)
    (hb : ∀ i, (a i).isBladeRep = true) (p : Calc R) :
    ((p.run g a).subs φ).eq g ((p.map φ).run g fun i => (a i).subs φ) = true := by
  obtain ⟨Ψ⟩ := exists_change φ g
  obtain ⟨z, h, h'⟩ := calc_rep Ψ hs (fun i => Rep.of_wf (ha i) (hb i))
    (fun i => (Rep.of_wf (ha i) (hb i)).subs Ψ) p
  have h1 := h.subs Ψ
  have key := (Rep.eq_iff (isSymm_map hs) h1 h').mpr rfl
  rwa [hg] at key

/-- C85: an equation between two calculations that `==` confirms with symbols holds for all values of
the symbols. -/
theorem C85_identity (hs : g.IsSymm) (ha : ∀ i, (a i).WF g) (hb : ∀ i, (a i).isBladeRep = true)
    (p q : Calc R) (he : (p.run g a).eq g (q.run g a) = true) :
    ((p.map φ).run (g.map φ) fun i => (a i).subs φ).eq (g.map φ)
      ((q.map φ).run (g.map φ) fun i => (a i).subs φ) = true := by
  obtain ⟨Ψ⟩ := exists_change φ g
  obtain ⟨x, h, h'⟩ := calc_rep Ψ hs (fun i => Rep.of_wf (ha i) (hb i))
    (fun i => (Rep.of_wf (ha i) (hb i)).subs Ψ) p
  obtain ⟨y, k, k'⟩ := calc_rep Ψ hs (fun i => Rep.of_wf (ha i) (hb i))
    (fun i => (Rep.of_wf (ha i) (hb i)).subs Ψ) q
  refine (Rep.eq_iff (isSymm_map hs) h' k').mpr ?_
  rw [(Rep.eq_iff hs h k).mp he]

/-- C85: conversely an equation that holds for sufficiently many values of the symbols, so that no two
coefficients agree for all of them, is confirmed by `==` with symbols. -/
theorem C85_identity_converse {ι : Type*} (φs : ι → (R →+* S)) (hφ : ∀ c, (∀ k, φs k c = 0) → c = 0)
    (hs : g.IsSymm) (ha : ∀ i, (a i).WF g) (hb : ∀ i, (a i).isBladeRep = true) (p q : Calc R)
    (he : ∀ k, ((p.map (φs k)).run (g.map (φs k)) fun i => (a i).subs (φs k)).eq (g.map (φs k))
      ((q.map (φs k)).run (g.map (φs k)) fun i => (a i).subs (φs k)) = true) :
    (p.run g a).eq g (q.run g a) = true := by
  have hr := fun i => Rep.of_wf (ha i) (hb i)
  obtain ⟨Ψ0⟩ := exists_change (RingHom.id R) g
  obtain ⟨x, h, -⟩ := calc_rep Ψ0 hs hr (fun i => (hr i).subs Ψ0) p
  obtain ⟨y, k, -⟩ := calc_rep Ψ0 hs hr (fun i => (hr i).subs Ψ0) q
  rw [Rep.eq_iff hs h k, ← h.val, ← k.val, ← C06_blade_coefs_iff h.wf k.wf h.flag k.flag]
  have key : ∀ j, (p.run g a).bladeCoefs.map (φs j) = (q.run g a).bladeCoefs.map (φs j) := by
    intro j
    rw [← C85_subs_coefs, ← C85_subs_coefs, C85_calculation _ hs ha hb, C85_calculation _ hs ha hb]
    obtain ⟨Ψ⟩ := exists_change (φs j) g
    obtain ⟨x', -, h'⟩ := calc_rep Ψ hs hr (fun i => (hr i).subs Ψ) p
    obtain ⟨y', -, k'⟩ := calc_rep Ψ hs hr (fun i => (hr i).subs Ψ) q
    have := (Rep.eq_iff (isSymm_map hs) h' k').mp (he j)
    exact (C06_blade_coefs_iff h'.wf k'.wf h'.flag k'.flag).mpr
      (h'.val.trans (this.trans k'.val.symm))
  have hl : (p.run g a).bladeCoefs.length = (q.run g a).bladeCoefs.length := by
    rw [bladeCoefs_eq, bladeCoefs_eq, List.length_map, List.length_map]
  refine List.ext_getElem hl fun i h1 h2 => sub_eq_zero.mp (hφ _ fun j => ?_)
  rw [map_sub, sub_eq_zero]
  have := congrArg (fun L : List S => L[i]?) (key j)
  simpa [List.getElem?_map, List.getElem?_eq_getElem h1, List.getElem?_eq_getElem h2] using this

/-! A coefficient is a pair: its values for two choices of the symbols.  The metric is oblique for the
second choice only. -/

namespace Ex

instance : Invertible (2 : ℚ × ℚ) := ⟨(1 / 2, 1 / 2), by ext <;> norm_num, by ext <;> norm_num⟩

def gPair : Matrix (Fin 2) (Fin 2) (ℚ × ℚ) := !![(1, 2), (0, 1/2); (0, 1/2), (-1, 3)]
theorem gPair_symm : gPair.IsSymm := by
  ext i j <;> fin_cases i <;> fin_cases j <;> rfl

/-- The terms of two multivectors with coefficients that depend on the symbols. -/
def ePair (i : ℕ) : Expr (ℚ × ℚ) 2 :=
  if i = 0 then [((1, 2), .blade []), ((3, 0), .blade [0]), ((0, 1), .blade [0, 1])]
  else [((2, 1), .blade [1]), ((1, 5), .blade [0, 1])]
def aPair (i : ℕ) : Mv (ℚ × ℚ) 2 := Mv.ofExpr (ePair i)
theorem ePair_valid (i : ℕ) : Valid (ePair i) := by
  rw [ePair]
  split_ifs
  · intro t ht
    simp only [List.mem_cons, List.not_mem_nil, or_false] at ht
    rcases ht with rfl | rfl | rfl
    exacts [⟨[], rfl, by decide⟩, ⟨[0], rfl, by decide⟩, ⟨[0, 1], rfl, by decide⟩]
  · intro t ht
    simp only [List.mem_cons, List.not_mem_nil, or_false] at ht
    rcases ht with rfl | rfl
    exacts [⟨[1], rfl, by decide⟩, ⟨[0, 1], rfl, by decide⟩]
theorem aPair_wf (i : ℕ) : (aPair i).WF gPair := (ofExpr_valid (ePair_valid i)).1
theorem aPair_blade (i : ℕ) : (aPair i).isBladeRep = true := (ofExpr_valid (g := gPair) (ePair_valid i)).2

/-- `A * B + (A.rev() | (3 * B)) - A.qform()` -/
def pPair : Calc (ℚ × ℚ) :=
  .sub (.add (.mul (.var 0) (.var 1)) (.dot (.rev (.var 0)) (.mul (.const 3) (.var 1)))) (.qform (.var 0))

end Ex

example : isOrtho Ex.gPair = false ∧ isOrtho (Ex.gPair.map (RingHom.fst ℚ ℚ)) = true := by decide +kernel
example : (Ex.pPair.run Ex.gPair Ex.aPair).bladeCoefs.map (RingHom.fst ℚ ℚ) =
    ((Ex.pPair.map (RingHom.fst ℚ ℚ)).run (Ex.gPair.map (RingHom.fst ℚ ℚ))
      fun i => (Ex.aPair i).subs (RingHom.fst ℚ ℚ)).bladeCoefs := by
  rw [← C85_subs_coefs, C85_calculation _ Ex.gPair_symm Ex.aPair_wf Ex.aPair_blade]
example : ((Ex.pPair.map (RingHom.fst ℚ ℚ)).run (Ex.gPair.map (RingHom.fst ℚ ℚ))
      fun i => (Ex.aPair i).subs (RingHom.fst ℚ ℚ)).bladeCoefs ≠
    (Ex.pPair.run Ex.gPair Ex.aPair).bladeCoefs.map (RingHom.snd ℚ ℚ) := by
  decide +kernel
example : (Ex.pPair.run Ex.gPair Ex.aPair).bladeCoefs.map (RingHom.fst ℚ ℚ) = [-10, 0, 14, 7] := by
  decide +kernel
/-- The two choices of values separate coefficients. -/
example : ∀ c : ℚ × ℚ, (∀ k : Bool, (if k then RingHom.fst ℚ ℚ else RingHom.snd ℚ ℚ) c = 0) → c = 0 :=
  fun _ h => Prod.ext (h true) (h false)
/-- An equation between calculations that holds. -/
example : (Calc.run Ex.gPair Ex.aPair (.anti (.var 0) (.var 1))).eq Ex.gPair
    (Calc.run Ex.gPair Ex.aPair (.sub (.mul (.var 0) (.var 1)) (.comm (.var 0) (.var 1)))) = true := by
  decide +kernel

end GA
