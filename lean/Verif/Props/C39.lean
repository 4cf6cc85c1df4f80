import Verif.Props.C36

/-!
# C39: transformations given by partial dictionaries

The property does not hold.  An omitted basis vector is

* fixed by application `L(A)` and by `mv_dict` (`xreplace` leaves it alone),
* printed with image `0`,
* treated as mapped to `0` by `+` and `-` when the other operand has it,
* omitted from `L1 * L2` whenever `L2` omits it, even if `L1` moves it,
* a `KeyError` in `matrix()`.

`C39_counterexample_*` are concrete witnesses.  `C39_application_partial`, `C39_composition_partial`
and `C39_matrix_raises` describe what does hold for every partial dictionary.
-/

set_option linter.unusedSectionVars false
set_option maxRecDepth 10000

namespace GA
variable {n : ℕ} {R : Type*} [CommRing R] [DecidableEq R] [Invertible (2 : R)]
  {g : Matrix (Fin n) (Fin n) R}

theorem Dict.get?_append {K V : Type*} [DecidableEq K] (d d' : Dict K V) (k : K) :
    Dict.get? (d ++ d') k = (Dict.get? d k).or (Dict.get? d' k) := by
  induction d with
  | nil => simp [Dict.get?]
  | cons p d ih =>
    obtain ⟨k', v'⟩ := p
    simp only [List.cons_append, Dict.get?]
    split_ifs
    · rfl
    · exact ih

theorem complete_get? (L : Lt R n) (i : Fin n) :
    L.complete.get? (.blade [i]) = some ((L.get? (.blade [i])).getD [(1, .blade [i])]) := by
  rw [Lt.complete, Dict.get?_append]
  cases h : L.get? (.blade [i]) with
  | some E => rfl
  | none =>
    simp only [Option.none_or, Option.getD_none]
    apply Dict.get?_of_mem
    · rw [List.map_map]
      exact ((List.nodup_finRange n).filter _).map fun i j h => by simpa using h
    · exact List.mem_map.mpr ⟨i, List.mem_filter.mpr ⟨List.mem_finRange i, by simp [h]⟩, rfl⟩

theorem Lt.PartialWF.complete {L : Lt R n} (hL : L.PartialWF) [Nontrivial R] : L.complete.WF := by
  refine Lt.WF.of ?_ ?_ fun i => ⟨_, complete_get? L i, ?_⟩
  · intro p hp
    rcases List.mem_append.mp hp with h | h
    · exact (hL.vals p h).1
    · obtain ⟨i, -, rfl⟩ := List.mem_map.mp h
      exact ⟨i, rfl⟩
  · rw [Lt.complete, List.map_append, List.nodup_append]
    refine ⟨hL.nodup, ?_, ?_⟩
    · rw [List.map_map]
      exact ((List.nodup_finRange n).filter _).map fun i j h => by simpa using h
    · intro a ha b hb hab
      subst hab
      rw [List.map_map] at hb
      obtain ⟨i, hi, rfl⟩ := List.mem_map.mp hb
      have h1 := (List.mem_filter.mp hi).2
      obtain ⟨v, hv⟩ := Dict.get?_isSome.mpr ha
      have hv' : L.get? (.blade [i]) = some v := hv
      rw [hv'] at h1
      simp at h1
  · cases h : L.get? (.blade [i]) with
    | some E => exact (hL.vals _ (Dict.mem_of_get? h)).2
    | none =>
      simp only [Option.getD_none]
      refine ⟨?_, Or.inr ?_⟩
      · intro t ht
        rw [List.mem_singleton] at ht
        subst ht
        exact ⟨i, rfl⟩
      · rw [expand, gatherE_of_nodup (by simp)]
        simp

theorem complete_get?_ne (L : Lt R n) {s : Sym n} (hs : ∀ i : Fin n, s ≠ .blade [i]) :
    L.complete.get? s = L.get? s := by
  rw [Lt.complete, Dict.get?_append]
  have : Dict.get? (((List.finRange n).filter fun i => (L.get? (.blade [i])).isNone).map fun i =>
      ((Sym.blade [i] : Sym n), ([(1, .blade [i])] : Expr R n))) s = none := by
    by_contra hne
    obtain ⟨v, hv⟩ := Option.ne_none_iff_exists'.mp hne
    obtain ⟨i, -, hi⟩ := List.mem_map.mp (Dict.mem_of_get? hv)
    exact hs i (congrArg Prod.fst hi).symm
  rw [this, Option.or_none]

theorem subsE_complete (L : Lt R n) (E : Expr R n) : subsE E L.complete = subsE E L := by
  rw [subsE, subsE]
  refine List.flatMap_congr fun t _ => ?_
  by_cases h : ∃ i : Fin n, t.2 = .blade [i]
  · obtain ⟨i, hi⟩ := h
    rw [hi, complete_get?]
    cases h2 : L.get? (.blade [i]) with
    | some E => rfl
    | none =>
      simp only [Option.getD_none, smulE, List.map_cons, List.map_nil, mul_one]
      rw [← hi]
  · rw [complete_get?_ne L fun i hi => h ⟨i, hi⟩]

theorem mvDict_complete (L : Lt R n) : L.complete.mvDict = L.mvDict := by
  rw [Lt.mvDict, Lt.mvDict]
  simp only [subsE_complete]

/-- C39 (part): application treats an omitted basis vector as fixed, for every multivector. -/
theorem C39_application_partial [Nontrivial R] {L : Lt R n} (hL : L.PartialWF) (A : Mv R n) :
    L.complete.WF ∧ L.call g A = L.complete.call g A := by
  refine ⟨hL.complete, ?_⟩
  rw [Lt.call, Lt.call, mvDict_complete]
  simp only [subsE_complete]

theorem callE_complete (L : Lt R n) (E : Expr R n) : L.complete.callE E = L.callE E := by
  rw [Lt.callE, Lt.callE, mvDict_complete]

/-- C39 (part): `L1 * L2` is the composition if `L2` is complete. -/
theorem C39_composition_partial [Nontrivial R] (hs : g.IsSymm) {L L' : Lt R n} (hL : L.PartialWF)
    (hL' : L'.WF) {A : Mv R n} (hA : A.WF g) (ha : A.isBladeRep = true) :
    ((L.mul L').call g A).eq g (L.call g (L'.call g A)) = true := by
  have h : L.mul L' = L.complete.mul L' := by
    rw [Lt.mul, Lt.mul]
    simp only [callE_complete]
  rw [h, (C39_application_partial hL _).2]
  exact C34_composition hs hL.complete hL' hA ha

/-- C39 (part): `matrix()` raises exactly when a basis vector is omitted. -/
theorem C39_matrix_raises [Nontrivial R] {L : Lt R n} (hL : L.PartialWF) :
    L.matrix = none ↔ ∃ i : Fin n, L.get? (.blade [i]) = none := by
  constructor
  · intro h
    by_contra hne
    push Not at hne
    have hw : L.WF := ⟨fun i => Option.ne_none_iff_exists'.mp (hne i), hL.vals, hL.nodup⟩
    rw [hw.matrix] at h
    cases h
  · rintro ⟨i, hi⟩
    rw [Lt.matrix, Option.map_eq_none_iff, basis]
    have : ∀ l : List (Fin n), i ∈ l →
        (l.map fun i => (Sym.blade [i] : Sym n)).mapM (fun b => (Dict.get? L b).bind columnOf) =
          none := by
      intro l
      induction l with
      | nil => intro h; simp at h
      | cons j l ih =>
        intro h
        rw [List.map_cons, List.mapM_cons]
        rcases List.mem_cons.mp h with rfl | h
        · rw [hi]; rfl
        · rw [ih h]
          cases (Dict.get? L (.blade [j])).bind columnOf <;> rfl
    exact this _ (List.mem_finRange i)

/-- `{e_0: e_1}` in three dimensions. -/
def Ex.Lp : Lt ℚ 3 := [(.blade [0], [(1, .blade [1])])]
/-- `{e_1: 2*e_2}` in three dimensions. -/
def Ex.Lq : Lt ℚ 3 := [(.blade [1], [(2, .blade [2])])]

theorem Ex.Lp_wf : Ex.Lp.PartialWF := by
  refine ⟨?_, by decide⟩
  intro p hp
  rw [Ex.Lp, List.mem_singleton] at hp
  subst hp
  refine ⟨⟨0, rfl⟩, ?_, Or.inr (by decide +kernel)⟩
  intro t ht
  rw [List.mem_singleton] at ht
  subst ht
  exact ⟨1, rfl⟩

theorem Ex.Lq_wf : Ex.Lq.PartialWF := by
  refine ⟨?_, by decide⟩
  intro p hp
  rw [Ex.Lq, List.mem_singleton] at hp
  subst hp
  refine ⟨⟨1, rfl⟩, ?_, Or.inr (by decide +kernel)⟩
  intro t ht
  rw [List.mem_singleton] at ht
  subst ht
  exact ⟨2, rfl⟩

/-- C39 fails: application and display disagree about an omitted basis vector. -/
theorem C39_display_counterexample : ∃ (L : Lt ℚ 3) (i : Fin 3), L.PartialWF ∧
    (L.call Ex.gO (Mv.ofExpr (bladeE [i]))).eq Ex.gO (L.shown i) = false :=
  ⟨Ex.Lp, 1, Ex.Lp_wf, by decide +kernel⟩

/-- C39 fails: a sum of partial transformations is not the pointwise sum. -/
theorem C39_sum_counterexample : ∃ (L L' : Lt ℚ 3) (v : Fin 3 → ℚ), L.PartialWF ∧ L'.PartialWF ∧
    ((L.add L').call Ex.gO (Mv.vector v)).eq Ex.gO
      ((L.call Ex.gO (Mv.vector v)).add Ex.gO (L'.call Ex.gO (Mv.vector v))) = false :=
  ⟨Ex.Lp, Ex.Lq, ![1, 0, 0], Ex.Lp_wf, Ex.Lq_wf, by decide +kernel⟩

/-- C39 fails: a product of partial transformations is not their composition. -/
theorem C39_product_counterexample : ∃ (L L' : Lt ℚ 3) (v : Fin 3 → ℚ), L.PartialWF ∧
    L'.PartialWF ∧ ((L.mul L').call Ex.gO (Mv.vector v)).eq Ex.gO
      (L.call Ex.gO (L'.call Ex.gO (Mv.vector v))) = false :=
  ⟨Ex.Lp, Ex.Lq, ![1, 0, 0], Ex.Lp_wf, Ex.Lq_wf, by decide +kernel⟩

example : Ex.Lp.matrix = none ∧ Ex.Lp.PartialWF := ⟨by decide +kernel, Ex.Lp_wf⟩

end GA
