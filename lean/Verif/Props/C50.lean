import Verif.Proofs.Cache
import Verif.Proofs.Examples
import Verif.Proofs.Calc

/-!
# C50, C61: classification queries and updates of multivector objects; pure_grade

`MvObj.ofExpr E` is a new object `Mv(E)`; `MvObj.run g A h` is the object `A` after the history `h` of
questions and updates (`Step.ask q`, `Step.setCoef i j v`); `(A.ask g q).1` is its answer to `q`.

The claim of C50 is false for histories with `set_coef`, see `C50_set_coef_counterexample`.
-/

set_option linter.unusedSectionVars false
set_option maxRecDepth 10000

namespace GA
variable {n : ℕ} {R : Type*} [CommRing R] [DecidableEq R] [Invertible (2 : R)]
  {g : Matrix (Fin n) (Fin n) R}

/-- C50 (histories of questions only): two objects with the same value give the same answers, no
matter how they were written down and what either was asked before.  (`pure_grade` of a value of
mixed grade depends on the order of terms, see `C61_mixed`.)  Missing for the full claim: updates. -/
theorem C50_questions_partial (hs : g.IsSymm) {E E' : Expr R n} (hE : Valid E) (hE' : Valid E')
    (he : den g E = den g E') (qs qs' : List Query) (q : Query)
    (hq : q = .pureGrade → ∃ r, Spec.Homogeneous g r (den g E)) :
    (((MvObj.ofExpr E).run g (qs.map Step.ask)).ask g q).1 =
      (((MvObj.ofExpr E').run g (qs'.map Step.ask)).ask g q).1 := by
  have h := (MvObj.ok_ofExpr hs hE).run hs hE qs
  have h' := (MvObj.ok_ofExpr hs hE').run hs hE' qs'
  generalize (MvObj.ofExpr E).run g (qs.map Step.ask) = A at h
  generalize (MvObj.ofExpr E').run g (qs'.map Step.ask) = A' at h'
  have r1 := Rep.ofExpr (g := g) hE
  have r2 := Rep.ofExpr (g := g) hE'
  rw [← he] at r2
  cases q with
  | characterise => rfl
  | isBlade =>
    simp only [MvObj.ask]
    rw [(h.isBlade hs hE).1, (h'.isBlade hs hE').1, isBlade_congr hs r1 r2]
  | isVersor =>
    simp only [MvObj.ask]
    rw [(h.isVersor hs hE).1, (h'.isVersor hs hE').1, isVersor_congr hs r1 r2]
  | pureGrade =>
    obtain ⟨r, hr⟩ := hq rfl
    simp only [MvObj.ask]
    rw [(h.pureGrade hs hE).1, (h'.pureGrade hs hE').1, iGrade_congr r1 r2]
    have : ∃ k, (Mv.ofExpr E').iGrade = some k := by
      by_cases h0 : den g E = 0
      · exact ⟨0, (iGrade_eq_some r2 0).mpr ⟨by rw [h0]; intro k _; simp, fun _ => rfl⟩⟩
      · exact ⟨r, (iGrade_eq_some r2 r).mpr ⟨hr, fun h => absurd h h0⟩⟩
    obtain ⟨k, hk⟩ := this
    rw [hk]
  | isScalar =>
    simp only [MvObj.ask]
    rw [h.mv hE, h'.mv hE', isScalar_congr hs r1 r2]
  | isVector =>
    simp only [MvObj.ask]
    rw [h.mv hE, h'.mv hE', isVector_congr hs r1 r2]
  | isZero =>
    simp only [MvObj.ask]
    rw [h.mv hE, h'.mv hE', isZero_congr r1 r2]

/-- C50 (histories of questions only): every question can be repeated: asked after any questions, it
gets the answer a new object gives. -/
theorem C50_repeat_partial (hs : g.IsSymm) {E : Expr R n} (hE : Valid E) (qs : List Query)
    (q : Query) :
    (((MvObj.ofExpr E).run g (qs.map Step.ask)).ask g q).1 = ((MvObj.ofExpr E).ask g q).1 := by
  have h := (MvObj.ok_ofExpr hs hE).run hs hE qs
  have h' := MvObj.ok_ofExpr (g := g) hs hE
  generalize (MvObj.ofExpr E).run g (qs.map Step.ask) = A at h
  cases q with
  | characterise => rfl
  | isBlade => simp only [MvObj.ask]; rw [(h.isBlade hs hE).1, (h'.isBlade hs hE).1]
  | isVersor => simp only [MvObj.ask]; rw [(h.isVersor hs hE).1, (h'.isVersor hs hE).1]
  | pureGrade => simp only [MvObj.ask]; rw [(h.pureGrade hs hE).1, (h'.pureGrade hs hE).1]
  | isScalar => simp only [MvObj.ask]; rw [h.mv hE, h'.mv hE]
  | isVector => simp only [MvObj.ask]; rw [h.mv hE, h'.mv hE]
  | isZero => simp only [MvObj.ask]; rw [h.mv hE, h'.mv hE]

/-- C50: questions do not change the value of the object. -/
theorem C50_questions_keep_value (hs : g.IsSymm) {E : Expr R n} (hE : Valid E) (qs : List Query) :
    ((MvObj.ofExpr E).run g (qs.map Step.ask)).mv.val g = den g E := by
  rw [((MvObj.ok_ofExpr hs hE).run hs hE qs).mv hE]
  exact (Rep.ofExpr hE).val

theorem linearExpand_coeff (A : Expr R n) (l : List (Fin n)) :
    (match (linearExpand A).find? fun t => decide (t.2 = .blade l) with
      | some t => t.1
      | none => 0) = coeff A l := by
  have hk : ((linearExpand A).map Prod.snd).Nodup := linearExpand_nodup A
  have h1 : coeff (linearExpand A) l = coeff A l := by
    rw [coeff_eq_lin, coeff_eq_lin, lin_linearExpand]
  rw [← h1]
  generalize linearExpand A = F at hk
  induction F with
  | nil => simp [coeff]
  | cons t F ih =>
    rw [List.map_cons, List.nodup_cons] at hk
    rw [List.find?_cons]
    by_cases ht : t.2 = .blade l
    · rw [decide_eq_true ht]
      have : coeff F l = 0 := by
        rw [coeff]
        refine List.sum_eq_zero fun x hx => ?_
        obtain ⟨u, hu, rfl⟩ := List.mem_map.mp hx
        rw [if_neg]
        intro h
        exact hk.1 (List.mem_map.mpr ⟨u, hu, h.trans ht.symm⟩)
      simp only [coeff, List.map_cons, List.sum_cons, if_pos ht] at this ⊢
      rw [this, add_zero]
    · rw [decide_eq_false ht]
      simp only [coeff, List.map_cons, List.sum_cons, if_neg ht, zero_add] at ih ⊢
      exact ih hk.2

/-- C50: `set_coef(r, k, v)` succeeds exactly for the index of a basis blade, replaces the
coefficient of that blade by `v` and keeps every other coefficient; all this after any history. -/
theorem C50_set_coef_value (A : MvObj R n) (r k : ℕ) (v : R) :
    match ((combinations r (List.finRange n))[k]? : Option (List (Fin n))) with
    | none => A.setCoef r k v = none
    | some l => ∃ A', A.setCoef r k v = some A' ∧
        ∀ m, coeff A'.obj m = if m = l then v else coeff A.obj m := by
  have hrow : (blades n)[r]? = if r < n + 1 then
      some ((combinations r (List.finRange n)).map mkBlade) else none := by
    rw [blades, indexes, List.map_map, List.getElem?_map]
    by_cases hr : r < n + 1
    · rw [List.getElem?_range hr, if_pos hr]; rfl
    · rw [if_neg hr, List.getElem?_eq_none (by simpa using hr)]; rfl
  have hnil : ¬ r < n + 1 → combinations r (List.finRange n) = [] := by
    intro hr
    refine List.eq_nil_iff_forall_not_mem.mpr fun l hl => ?_
    have := mem_combinations.mp hl
    have h1 := this.1.length_le
    rw [this.2, List.length_finRange] at h1
    omega
  rw [MvObj.setCoef, hrow]
  by_cases hr : r < n + 1
  · rw [if_pos hr]
    dsimp only
    rw [List.getElem?_map]
    cases h : (combinations r (List.finRange n))[k]? with
    | none => rfl
    | some l =>
      dsimp only [Option.map_some, mkBlade]
      have hc := linearExpand_coeff A.obj l
      have h1 : ∀ c m, coeff ([(c, .blade l)] : Expr R n) m = if m = l then c else 0 := by
        intro c m
        by_cases hm : m = l
        · simp [coeff, hm]
        · simp [coeff, hm, Ne.symm hm]
      cases ht : (linearExpand A.obj).find? fun t => decide (t.2 = .blade l) with
      | some t =>
        rw [ht] at hc
        dsimp only at hc
        refine ⟨_, rfl, fun m => ?_⟩
        rw [coeff_addE, Pi.add_apply, h1, hc]
        split_ifs with hm
        · rw [hm]; ring
        · ring
      | none =>
        rw [ht] at hc
        dsimp only at hc
        refine ⟨_, rfl, fun m => ?_⟩
        rw [coeff_addE, Pi.add_apply, h1]
        split_ifs with hm
        · rw [hm, ← hc]; ring
        · ring
  · rw [if_neg hr, hnil hr]
    rfl

/-- C50: `is_scalar`, `is_vector` and `is_zero` are not remembered: after every history, with updates,
the answer is that of a new object with the present value. -/
theorem C50_direct_tests (E : Expr R n) (h : List (Step R)) (q : Query)
    (hq : q = .isScalar ∨ q = .isVector ∨ q = .isZero) :
    (((MvObj.ofExpr E).run g h).ask g q).1 =
      ((MvObj.ofExpr ((MvObj.ofExpr E).run g h).obj).ask g q).1 := by
  generalize (MvObj.ofExpr E).run g h = A
  have : (MvObj.ofExpr A.obj).obj = A.obj := by
    rw [MvObj.ofExpr, MvObj.characterise]
    rw [if_neg (by simp)]
    dsimp only
    split_ifs
    · rfl
    · split
      · split_ifs
        · rfl
        · split <;> rfl
      · split <;> rfl
  rcases hq with rfl | rfl | rfl
  · rw [MvObj.ask, MvObj.ask, MvObj.mv, MvObj.mv, Mv.isScalar, Mv.isScalar, this]
  · rw [MvObj.ask, MvObj.ask, MvObj.mv, MvObj.mv, Mv.isVector, Mv.isVector, this]
  · rw [MvObj.ask, MvObj.ask, MvObj.mv, MvObj.mv, Mv.isZero, Mv.isZero, this]

/-- C50 fails with updates: after `set_coef(2, 0, 1)` the vector `e₀` has become `e₀ + e₀^e₁`, but
`is_blade()` and `pure_grade()` still describe the vector, `is_versor()` too if it was asked before; a
new object with the same value answers differently. -/
theorem C50_set_coef_counterexample :
    let A := (MvObj.ofExpr ([(1, .blade [0])] : Expr ℚ 3)).run Ex.gO [.ask .isVersor, .setCoef 2 0 1]
    A.obj = [(1, .blade [0]), (1, .blade [0, 1])] ∧
    (A.ask Ex.gO .isBlade).1 = .bool true ∧
      ((MvObj.ofExpr A.obj).ask Ex.gO .isBlade).1 = .bool false ∧
    (A.ask Ex.gO .pureGrade).1 = .grade 1 ∧
      ((MvObj.ofExpr A.obj).ask Ex.gO .pureGrade).1 = .grade (-2) := by
  decide +kernel

/-- Non-vacuity: the same bivector written in two ways, asked different questions. -/
example : ((MvObj.ofExpr ([(1, .blade [0, 1]), (1, .blade [1, 2]), (1, .blade [0, 1])] : Expr ℚ 3)).run
      Ex.gO ([.isBlade, .pureGrade].map Step.ask)).ask Ex.gO .isVersor =
    (.bool true, ⟨[(1, .blade [0, 1]), (1, .blade [1, 2]), (1, .blade [0, 1])], true, true, some 2,
      some [2], some true, some true⟩) := by
  decide +kernel

/-! ## C61: `pure_grade` -/

/-- C61: a multivector that is not zero and of one grade `r` has `pure_grade() = r`, also after any
questions. -/
theorem C61_pure (hs : g.IsSymm) {E : Expr R n} (hE : Valid E) (qs : List Query) {r : ℕ}
    (hr : Spec.Homogeneous g r (den g E)) (h0 : den g E ≠ 0) :
    (((MvObj.ofExpr E).run g (qs.map Step.ask)).ask g .pureGrade).1 = .grade r := by
  have h := (MvObj.ok_ofExpr hs hE).run hs hE qs
  simp only [MvObj.ask]
  rw [(h.pureGrade hs hE).1, (iGrade_eq_some (Rep.ofExpr hE) r).mpr ⟨hr, fun h => absurd h h0⟩]

/-- C61: `pure_grade()` of zero is `0`. -/
theorem C61_zero (hs : g.IsSymm) {E : Expr R n} (hE : Valid E) (qs : List Query)
    (h0 : den g E = 0) :
    (((MvObj.ofExpr E).run g (qs.map Step.ask)).ask g .pureGrade).1 = .grade 0 := by
  have h := (MvObj.ok_ofExpr hs hE).run hs hE qs
  simp only [MvObj.ask]
  rw [(h.pureGrade hs hE).1, (iGrade_eq_some (Rep.ofExpr hE) 0).mpr
    ⟨by rw [h0]; intro k _; simp, fun _ => rfl⟩]
  rfl

/-- C61, for mixed grades: the answer is `-r` for a grade `r` which occurs.  Missing: that `r` is the
largest grade, which is false (`C61_mixed_counterexample`). -/
theorem C61_mixed_partial (hs : g.IsSymm) {E : Expr R n} (hE : Valid E) (qs : List Query)
    (hm : ∀ r, ¬ Spec.Homogeneous g r (den g E)) :
    ∃ r : ℕ, (((MvObj.ofExpr E).run g (qs.map Step.ask)).ask g .pureGrade).1 = .grade (-r) ∧
      Spec.grade g r (den g E) ≠ 0 := by
  have h := (MvObj.ok_ofExpr hs hE).run hs hE qs
  have hi : (Mv.ofExpr E).iGrade = none := by
    cases hk : (Mv.ofExpr E).iGrade with
    | none => rfl
    | some k => exact absurd ((iGrade_eq_some (Rep.ofExpr (g := g) hE) k).mp hk).1 (hm k)
  simp only [MvObj.ask]
  rw [(h.pureGrade hs hE).1, hi]
  have hc : ¬ ((expand E).all fun t => decide (t.2 = .blade [])) = true := by
    intro hc
    refine hm 0 ?_
    intro k hk
    refine (expand_len_iff (g := g) (k := 0) hE).mp (fun t ht => ?_) k hk
    rw [of_decide_eq_true (List.all_eq_true.mp hc t ht)]; rfl
  have hne : expand E ≠ [] := by rintro h; rw [h] at hc; simp at hc
  rw [gradeList, if_neg hc]
  obtain ⟨hn, hmem⟩ := lensAppear_spec (expand E)
  have hne' : lensAppear (expand E) ≠ [] := by
    obtain ⟨t, ht⟩ := List.exists_mem_of_ne_nil _ hne
    exact List.ne_nil_of_mem ((hmem _).mpr ⟨t, ht, rfl⟩)
  refine ⟨(lensAppear (expand E)).getLast hne', ?_, ?_⟩
  · rw [List.getLast?_eq_some_getLast hne']; rfl
  · intro h0
    obtain ⟨t, ht, hr⟩ := (hmem _).mp (List.getLast_mem hne')
    obtain ⟨l, hl, hlt⟩ := hE.expand.syms t ht
    have hr' : (lensAppear (expand E)).getLast hne' = l.length := by rw [← hr, hl]; rfl
    rw [hr'] at h0
    have h2 := congrArg (bladeCoord g l) h0
    rw [← den_expand, ← den_filter_len g hE.expand.syms,
      bladeCoord_den g (allSyms_filter hE.expand.syms _) hlt, map_zero] at h2
    have hmem' : t ∈ (expand E).filter fun t => decide (symLen t.2 = l.length) := by
      rw [List.mem_filter]; refine ⟨ht, ?_⟩; rw [hl]; simp [symLen]
    have hwf := (Rep.ofExpr (g := g) hE).wf.canon
    have hc' : Canon ((expand E).filter fun t => decide (symLen t.2 = l.length)) :=
      ⟨hwf.1.sublist (List.filter_sublist.map _), fun t ht => hwf.2 t (List.mem_of_mem_filter ht)⟩
    rw [coeff_of_mem hc' hmem' hl] at h2
    exact hwf.2 t ht h2

/-- C61 is false for mixed grades: `pure_grade()` of `e₀^e₁ + e₂` is `-1`, not `-2`.  (SymPy orders the
terms of a sum by class name first: `BasisBladeSymbol` comes before `BasisVectorSymbol`.) -/
theorem C61_mixed_counterexample :
    ((MvObj.ofExpr ([(1, .blade [0, 1]), (1, .blade [2])] : Expr ℚ 3)).ask Ex.gO .pureGrade).1 =
      .grade (-1) := by
  decide +kernel

end GA
