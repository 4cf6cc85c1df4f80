import Verif.Model.Coef
import Verif.Spec.Coef
import Verif.Proofs.Cache
import Verif.Proofs.Lt
import Verif.Proofs.Examples

/-!
# Coefficients of expressions
-/

set_option linter.unusedSectionVars false

namespace GA
variable {n : ℕ} {R : Type*} [CommRing R] [DecidableEq R] [Invertible (2 : R)]
  {g : Matrix (Fin n) (Fin n) R}

theorem repr_ofCoefs (c : Finset (Fin n) → R) (s : Finset (Fin n)) :
    (Pi.basisFun R (Fin n)).ExteriorAlgebra.repr (Spec.toExt g (Spec.ofCoefs g c)) s = c s := by
  rw [Spec.ofCoefs, map_sum, map_sum, Finsupp.coe_finsetSum, Finset.sum_apply, Finset.sum_eq_single s]
  · rw [map_smul, map_smul, Spec.toExt_blade, ← Spec.extBasis_apply, Module.Basis.repr_self]
    simp
  · intro t _ hts
    rw [map_smul, map_smul, Spec.toExt_blade, ← Spec.extBasis_apply, Module.Basis.repr_self]
    simp [hts]
  · intro h; exact absurd (Finset.mem_univ s) h

theorem coeff_of_rep {A : Expr R n} {c : Finset (Fin n) → R} (hA : Valid A)
    (h : den g A = Spec.ofCoefs g c) {l : List (Fin n)} (hl : l.Pairwise (· < ·)) :
    coeff A l = c l.toFinset := by
  have := toExt_den g hA l.toFinset
  rw [sort_toFinset hl, h, repr_ofCoefs] at this
  exact this.symm

theorem den_ofCoefs {A : Expr R n} {c : Finset (Fin n) → R} (hA : Valid A)
    (h : ∀ l : List (Fin n), l.Pairwise (· < ·) → coeff A l = c l.toFinset) :
    den g A = Spec.ofCoefs g c := by
  apply (Spec.toExt g).injective
  apply (Pi.basisFun R (Fin n)).ExteriorAlgebra.repr.injective
  ext s
  rw [toExt_den g hA, repr_ofCoefs, h _ (sort_lt s)]
  simp

/-- The coefficient of a symbol. -/
def coefOf (E : Expr R n) (s : Sym n) : R := lin (fun u => if u = s then (1 : R) else 0) E

theorem coeff_eq_coefOf (E : Expr R n) (l : List (Fin n)) : coeff E l = coefOf E (.blade l) :=
  coeff_eq_lin E l

theorem coefOf_cons (t : R × Sym n) (E : Expr R n) (s : Sym n) :
    coefOf (t :: E) s = (if t.2 = s then t.1 else 0) + coefOf E s := by
  rw [coefOf, lin_cons]; split_ifs <;> simp [coefOf]

theorem coefOf_eq_zero {E : Expr R n} {s : Sym n} (h : s ∉ E.map Prod.snd) : coefOf E s = 0 := by
  induction E with
  | nil => rfl
  | cons t E ih =>
    simp only [List.map_cons, List.mem_cons, not_or] at h
    rw [coefOf_cons, ih h.2, if_neg (Ne.symm h.1), add_zero]

theorem coefOf_of_mem {E : Expr R n} (hn : (E.map Prod.snd).Nodup) {t : R × Sym n} (ht : t ∈ E) :
    coefOf E t.2 = t.1 := coef_of_mem_nodup hn ht

theorem coefOf_linearExpand (E : Expr R n) (s : Sym n) : coefOf (linearExpand E) s = coefOf E s :=
  lin_linearExpand _ _

theorem coefOf_map {E : Expr R n} (hn : (E.map Prod.snd).Nodup) (φ : R → R) (h0 : φ 0 = 0)
    (s : Sym n) : coefOf (E.map fun t => (φ t.1, t.2)) s = φ (coefOf E s) := by
  induction E with
  | nil => exact h0.symm
  | cons t E ih =>
    rw [List.map_cons, List.nodup_cons] at hn
    rw [List.map_cons, coefOf_cons, coefOf_cons, ih hn.2]
    dsimp only
    by_cases hts : t.2 = s
    · rw [if_pos hts, if_pos hts, coefOf_eq_zero (hts ▸ hn.1), h0, add_zero, add_zero]
    · rw [if_neg hts, if_neg hts, zero_add, zero_add]

theorem coefOf_filter (E : Expr R n) (p : Sym n → Prop) [DecidablePred p] (s : Sym n) :
    coefOf (E.filter fun t => decide (p t.2)) s = if p s then coefOf E s else 0 := by
  induction E with
  | nil => simp [coefOf]
  | cons t E ih =>
    rw [List.filter_cons]
    by_cases hp : p t.2
    · rw [if_pos (by simpa using hp), coefOf_cons, coefOf_cons, ih]
      split_ifs with h1 h2 h2
      · rfl
      · exact absurd (h1 ▸ hp) h2
      · rfl
      · rw [add_zero]
    · rw [if_neg (by simpa using hp), coefOf_cons, ih]
      by_cases h1 : p s
      · have h2 : t.2 ≠ s := by rintro rfl; exact hp h1
        rw [if_pos h1, if_pos h1, if_neg h2, zero_add]
      · rw [if_neg h1, if_neg h1]

theorem valid_map {E : Expr R n} (hE : Valid E) (φ : R → R) : Valid (E.map fun t => (φ t.1, t.2)) := by
  intro t ht
  obtain ⟨u, hu, rfl⟩ := List.mem_map.mp ht
  exact hE u hu

theorem valid_linearExpand {E : Expr R n} (hE : Valid E) : Valid (linearExpand E) :=
  AllSyms.linearExpand (P := IsBl) hE isBl_one

/-! ### get_coefs -/

theorem modify_idxOf {α : Type*} [DecidableEq α] {bl : List α} (hn : bl.Nodup) {s : α} (hs : s ∈ bl)
    (f : α → R) (c : R) :
    (bl.map f).modify (bl.idxOf s) (· + c) = bl.map fun b => f b + if s = b then c else 0 := by
  apply List.ext_getElem
  · simp
  · intro i h1 h2
    rw [List.getElem_modify, List.getElem_map]
    have hi : i < bl.length := by simpa using h2
    have : bl.idxOf s = i ↔ s = bl[i] := by
      constructor
      · rintro rfl; exact (List.getElem_idxOf hi).symm
      · rintro rfl; exact hn.idxOf_getElem i hi
    by_cases h : s = bl[i]
    · rw [if_pos (this.mpr h)]; simp [← h]
    · rw [if_neg (fun e => h (this.mp e))]; simp [h]

theorem getCoefs_none (bl : List (Sym n)) (E : Expr R n) :
    E.foldl (getCoefsStep bl) none = none := by
  induction E with
  | nil => rfl
  | cons t E ih => exact ih

theorem getCoefs_fold {bl : List (Sym n)} (hn : bl.Nodup) (E : Expr R n) (f : Sym n → R) :
    E.foldl (getCoefsStep bl) (some (bl.map f)) =
      if ∀ t ∈ E, t.1 ≠ 0 → t.2 ∈ bl then some (bl.map fun b => f b + coefOf E b) else none := by
  induction E generalizing f with
  | nil => simp [coefOf]
  | cons t E ih =>
    rw [List.foldl_cons, getCoefsStep]
    by_cases h0 : t.1 = 0
    · rw [if_pos h0, ih]
      simp only [List.forall_mem_cons, h0, ne_eq, not_true_eq_false, false_imp_iff, true_and]
      refine if_congr Iff.rfl ?_ rfl
      congr 1
      refine List.map_congr_left fun b _ => ?_
      rw [coefOf_cons, h0]; simp
    · rw [if_neg h0]
      by_cases hm : t.2 ∈ bl
      · rw [if_pos hm, modify_idxOf hn hm, ih]
        simp only [List.forall_mem_cons, hm, imp_true_iff, true_and]
        refine if_congr Iff.rfl ?_ rfl
        congr 1
        refine List.map_congr_left fun b _ => ?_
        rw [coefOf_cons, add_assoc]
      · rw [if_neg hm, getCoefs_none, if_neg]
        intro h
        exact hm (h t (by simp) h0)

/-! ### Terms and their coefficients -/

theorem exists_term {E : Expr R n} {s : Sym n} (h : coefOf E s ≠ 0) :
    ∃ t ∈ linearExpand E, t.2 = s ∧ t.1 = coefOf E s := by
  have h1 : s ∈ (linearExpand E).map Prod.snd := by
    by_contra hc
    exact h (by rw [← coefOf_linearExpand]; exact coefOf_eq_zero hc)
  obtain ⟨t, ht, rfl⟩ := List.mem_map.mp h1
  exact ⟨t, ht, rfl, by rw [← coefOf_linearExpand, coefOf_of_mem (linearExpand_nodup E) ht]⟩

theorem term_coef {E : Expr R n} {t : R × Sym n} (ht : t ∈ linearExpand E) :
    t.1 = coefOf E t.2 := by
  rw [← coefOf_linearExpand, coefOf_of_mem (linearExpand_nodup E) ht]

/-- Two canonical expressions of basis blades with the same value have the same terms. -/
theorem perm_of_val {A B : Mv R n} {x : Spec.Cl g} (hA : Rep g A x) (hB : Rep g B x) :
    A.obj.Perm B.obj := by
  have hn : ∀ {E : Expr R n}, (E.map Prod.snd).Nodup → E.Nodup := fun h => h.of_map
  rw [List.perm_ext_iff_of_nodup (hn hA.wf.1) (hn hB.wf.1)]
  have key : ∀ {A B : Mv R n}, Rep g A x → Rep g B x → ∀ t ∈ A.obj, t ∈ B.obj := by
    intro A B hA hB t ht
    obtain ⟨l, hl, hlt⟩ := hA.valid t ht
    have e := (den_eq_iff g hA.valid hB.valid).mp (hA.den.trans hB.den.symm) l hlt
    rw [coeff_eq_coefOf, coeff_eq_coefOf, ← hl, coefOf_of_mem hA.wf.1 ht] at e
    have h0 : t.1 ≠ 0 := hA.wf.2.1 t ht
    have hm : t.2 ∈ B.obj.map Prod.snd := by
      by_contra hc
      exact h0 (by rw [e, coefOf_eq_zero hc])
    obtain ⟨u, hu, hut⟩ := List.mem_map.mp hm
    rw [← hut, coefOf_of_mem hB.wf.1 hu] at e
    have : t = u := Prod.ext e hut.symm
    rwa [this]
  exact fun t => ⟨key hA hB t, key hB hA t⟩

/-! ### components -/

theorem nodup_flat_blades (n : ℕ) : (flat (blades n)).Nodup := by
  rw [flat_blades]
  exact (nodup_flat_indexes n).map fun _ _ h => by injection h

theorem bladeIndex_inj {s t : Sym n} (hs : s ∈ flat (blades n)) (h : bladeIndex s = bladeIndex t) :
    s = t := (List.idxOf_inj hs).mp h

theorem pairwise_bladeIndex {L : List (Sym n)} (h : L.Sublist (flat (blades n))) :
    L.Pairwise fun s t => bladeIndex s ≤ bladeIndex t := by
  refine List.Pairwise.sublist h ?_
  rw [List.pairwise_iff_getElem]
  intro i j hi hj hij
  rw [bladeIndex, bladeIndex, (nodup_flat_blades n).idxOf_getElem, (nodup_flat_blades n).idxOf_getElem]
  exact hij.le

theorem linearExpand_canon {E : Expr R n} (h : Canon E) (h0 : E ≠ []) : linearExpand E = E := by
  have e : expand E = E := by
    rw [expand, gatherE_of_nodup h.1, List.filter_eq_self]
    intro t ht
    simpa using Or.inl (h.2 t ht)
  rw [linearExpand, e]
  cases E with
  | nil => exact absurd rfl h0
  | cons t E => exact gatherE_of_nodup h.1

/-- Sorting the terms of a non-zero expression gives the non-zero coefficients in the order of the
basis blades. -/
theorem sort_terms {A : Mv R n} {c : Finset (Fin n) → R} (hA : Rep g A (Spec.ofCoefs g c))
    (h0 : A.obj ≠ []) :
    ((linearExpand A.obj).insertionSort fun t u => bladeIndex t.2 ≤ bladeIndex u.2) =
      ((flat (indexes n)).filter fun l => decide (c l.toFinset ≠ 0)).map fun l =>
        (c l.toFinset, Sym.blade l) := by
  rw [linearExpand_canon hA.wf.canon h0]
  have hcoef : ∀ {l : List (Fin n)}, l.Pairwise (· < ·) → coefOf A.obj (.blade l) = c l.toFinset :=
    fun hl => by rw [← coeff_eq_coefOf]; exact coeff_of_rep hA.valid hA.den hl
  have hnd : (A.obj.insertionSort fun t u => bladeIndex t.2 ≤ bladeIndex u.2).Perm A.obj :=
    List.perm_insertionSort _ _
  refine List.Perm.eq_of_pairwise (le := fun t u : R × Sym n => bladeIndex t.2 ≤ bladeIndex u.2)
    ?_ ?_ ?_ ?_
  · intro t u ht hu h1 h2
    have ht' := hnd.mem_iff.mp ht
    obtain ⟨l, hl, rfl⟩ := List.mem_map.mp hu
    have hl' := mem_flat_indexes.mp (List.mem_filter.mp hl).1
    have e : t.2 = Sym.blade l := bladeIndex_inj (mem_flat_blades.mpr (hA.valid t ht'))
      (le_antisymm h1 h2)
    refine Prod.ext ?_ e
    rw [← coefOf_of_mem hA.wf.1 ht', e, hcoef hl']
  · haveI : Std.Total fun t u : R × Sym n => bladeIndex t.2 ≤ bladeIndex u.2 :=
      ⟨fun a b => le_total _ _⟩
    haveI : IsTrans (R × Sym n) fun t u => bladeIndex t.2 ≤ bladeIndex u.2 :=
      ⟨fun a b c h1 h2 => le_trans h1 h2⟩
    exact List.pairwise_insertionSort _ _
  · rw [List.pairwise_map]
    have h := pairwise_bladeIndex (n := n) (L := ((flat (indexes n)).filter fun l =>
      decide (c l.toFinset ≠ 0)).map mkBlade) (by
        rw [flat_blades]; exact List.filter_sublist.map _)
    rw [List.pairwise_map] at h
    exact h
  · refine hnd.trans ?_
    rw [List.perm_ext_iff_of_nodup hA.wf.1.of_map]
    · intro t
      rw [List.mem_map]
      constructor
      · intro ht
        obtain ⟨l, hl, hlt⟩ := hA.valid t ht
        have e := coefOf_of_mem hA.wf.1 ht
        rw [hl, hcoef hlt] at e
        refine ⟨l, List.mem_filter.mpr ⟨mem_flat_indexes.mpr hlt, ?_⟩, Prod.ext e hl.symm⟩
        simpa [e] using hA.wf.2.1 t ht
      · rintro ⟨l, hl, rfl⟩
        obtain ⟨h1, h2⟩ := List.mem_filter.mp hl
        have h2 : c l.toFinset ≠ 0 := by simpa using h2
        obtain ⟨u, hu, e1, e2⟩ := exists_term (E := A.obj) (s := .blade l)
          (by rw [hcoef (mem_flat_indexes.mp h1)]; exact h2)
        rw [linearExpand_canon hA.wf.canon h0] at hu
        rw [hcoef (mem_flat_indexes.mp h1)] at e2
        rw [← e1, ← e2]
        exact hu
    · refine (List.Nodup.filter _ (nodup_flat_indexes n)).map ?_
      intro a b h
      have := congrArg Prod.snd h
      injection this

end GA
