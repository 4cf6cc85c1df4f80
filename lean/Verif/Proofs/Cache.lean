import Verif.Model.Cache
import Verif.Proofs.Blade

/-! Invariant of the cached classification. -/

set_option linter.unusedSectionVars false

namespace GA
variable {n : ℕ} {R : Type*} [CommRing R] [DecidableEq R] [Invertible (2 : R)]
  {g : Matrix (Fin n) (Fin n) R}

/-- The lengths of the symbols in order of appearance. -/
def lensAppear (F : Expr R n) : List ℕ :=
  F.foldl (fun gs t => if symLen t.2 ∈ gs then gs else gs ++ [symLen t.2]) []

theorem mem_flat_blades {s : Sym n} : s ∈ flat (blades n) ↔ IsBl s := by
  rw [blades, flat_map, List.mem_map]
  constructor
  · rintro ⟨l, hl, rfl⟩; exact ⟨l, rfl, mem_flat_indexes.mp hl⟩
  · rintro ⟨l, rfl, hl⟩; exact ⟨l, mem_flat_indexes.mpr hl, rfl⟩

theorem gradesAppear_eq {F : Expr R n} (hF : AllSyms IsBl F) :
    gradesAppear F = some (lensAppear F) := by
  have key : ∀ (F : Expr R n) (acc : List ℕ), AllSyms IsBl F → F.foldl gradeStep (some acc) =
      some (F.foldl (fun gs t => if symLen t.2 ∈ gs then gs else gs ++ [symLen t.2]) acc) := by
    intro F
    induction F with
    | nil => intro acc _; rfl
    | cons t F ih =>
      intro acc hF
      rw [allSyms_cons] at hF
      rw [List.foldl_cons, List.foldl_cons, ← ih _ hF.2]
      congr 1
      rw [gradeStep]
      by_cases h1 : t.2 = .blade []
      · rw [if_pos h1, h1]; rfl
      · rw [if_neg h1, if_pos (mem_flat_blades.mpr hF.1), grade_of_isBl hF.1]
  exact key F [] hF

theorem lensAppear_spec (F : Expr R n) :
    (lensAppear F).Nodup ∧ ∀ r, r ∈ lensAppear F ↔ ∃ t ∈ F, symLen t.2 = r := by
  have key : ∀ (F : Expr R n) (acc : List ℕ), acc.Nodup →
      (F.foldl (fun gs t => if symLen t.2 ∈ gs then gs else gs ++ [symLen t.2]) acc).Nodup ∧
      ∀ r, r ∈ F.foldl (fun gs t => if symLen t.2 ∈ gs then gs else gs ++ [symLen t.2]) acc ↔
        r ∈ acc ∨ ∃ t ∈ F, symLen t.2 = r := by
    intro F
    induction F with
    | nil => intro acc h; simpa using h
    | cons t F ih =>
      intro acc h
      rw [List.foldl_cons]
      by_cases ht : symLen t.2 ∈ acc
      · rw [if_pos ht]
        refine ⟨(ih acc h).1, fun r => ?_⟩
        rw [(ih acc h).2]
        simp only [List.mem_cons, exists_eq_or_imp]
        constructor
        · tauto
        · rintro (h | rfl | h) <;> tauto
      · rw [if_neg ht]
        have h' : (acc ++ [symLen t.2]).Nodup := by
          rw [List.nodup_append]
          exact ⟨h, by simp, fun a ha b hb => by
            rw [List.mem_singleton] at hb; rintro rfl; exact ht (hb ▸ ha)⟩
        refine ⟨(ih _ h').1, fun r => ?_⟩
        rw [(ih _ h').2]
        rw [List.mem_append, List.mem_singleton]
        simp only [List.mem_cons, exists_eq_or_imp]
        constructor
        · rintro ((h | rfl) | h) <;> tauto
        · rintro (h | rfl | h) <;> tauto
  have := key F [] (by simp)
  exact ⟨this.1, fun r => by rw [lensAppear, this.2]; simp⟩

theorem nodup_singleton_iff {L : List ℕ} (h : L.Nodup) {k : ℕ} :
    L = [k] ↔ ∀ r, r ∈ L ↔ r = k := by
  constructor
  · rintro rfl; simp
  · intro hm
    match L, h with
    | [], _ => exact absurd ((hm k).mpr rfl) (by simp)
    | [a], _ => rw [(hm a).mp (by simp)]
    | a :: b :: L, h =>
      have h1 := (hm a).mp (by simp)
      have h2 := (hm b).mp (by simp)
      rw [List.nodup_cons] at h
      exact absurd (by rw [h1, h2]; simp) h.1

theorem igrade_lensAppear {E : Expr R n} (hE : Valid E) (h0 : expand E ≠ []) :
    (match lensAppear (expand E) with | [r] => some r | _ => none) =
      Mv.iGrade (⟨expand E, true⟩ : Mv R n) := by
  rw [Mv.iGrade]
  dsimp only
  obtain ⟨hn, hm⟩ := lensAppear_spec (expand E)
  have hv := hE.expand
  have hx : expand (expand E) ≠ [] := by
    intro h
    have := (expand_eq_nil (g := (0 : Matrix (Fin n) (Fin n) R)) hv).mp h
    rw [den_expand, ← expand_eq_nil hE] at this
    exact h0 this
  have key : ∀ k, lensAppear (expand E) = [k] ↔ gradesOf (expand E) = some [k] := by
    intro k
    rw [gradesOf_eq_singleton hv, nodup_singleton_iff hn]
    rw [expand_len_iff (g := (0 : Matrix (Fin n) (Fin n) R)) hv, den_expand,
      ← expand_len_iff (g := (0 : Matrix (Fin n) (Fin n) R)) hE]
    constructor
    · intro h
      refine ⟨fun t ht => (h _).mp ((hm _).mpr ⟨t, ht, rfl⟩), fun h => absurd h hx⟩
    · rintro ⟨h, -⟩ r
      rw [hm]
      constructor
      · rintro ⟨t, ht, rfl⟩; exact h t ht
      · rintro rfl
        obtain ⟨t, ht⟩ := List.exists_mem_of_ne_nil _ h0
        exact ⟨t, ht, h t ht⟩
  obtain ⟨L, hL, -⟩ := gradesOf_spec hv
  rw [hL]
  rw [hL] at key
  simp only [Option.some.injEq] at key
  generalize lensAppear (expand E) = M at key
  match M, L, key with
  | [], [], _ => rfl
  | [], [a], key => exact absurd ((key a).mpr rfl) (by simp)
  | [], _ :: _ :: _, _ => rfl
  | [a], [], key => exact absurd ((key a).mp rfl) (by simp)
  | [a], [b], key => have := (key a).mp rfl; simp at this; rw [this]
  | [a], _ :: _ :: _, key => exact absurd ((key a).mp rfl) (by simp)
  | _ :: _ :: _, [], _ => rfl
  | _ :: _ :: _, [a], key => exact absurd ((key a).mpr rfl) (by simp)
  | _ :: _ :: _, _ :: _ :: _, _ => rfl

/-- The list of grades Python remembers. -/
def gradeList (E : Expr R n) : List ℕ :=
  if (expand E).all fun t => decide (t.2 = .blade []) then [0] else lensAppear (expand E)

/-- The remembered classification is that of the value. -/
structure MvObj.Ok (g : Matrix (Fin n) (Fin n) R) (E : Expr R n) (A : MvObj R n) : Prop where
  obj : A.obj = E
  rep : A.isBladeRep = true
  char : A.charMv = true → A.iGrade = (Mv.ofExpr E).iGrade ∧ A.grades = some (gradeList E)
  blade : ∀ b, A.bladeFlg = some b → b = (Mv.ofExpr E).isBlade g
  versor : ∀ b, A.versorFlg = some b → b = (Mv.ofExpr E).isVersor g

theorem MvObj.Ok.mv {E : Expr R n} (hE : Valid E) {A : MvObj R n} (h : A.Ok g E) :
    A.mv = Mv.ofExpr E := by
  have h1 := (ofExpr_valid (g := g) hE).2
  have h2 : (Mv.ofExpr E).isBladeRep = true := h1
  rw [MvObj.mv, h.obj, h.rep, ← h2]
  rfl

theorem ofExpr_eq {E : Expr R n} (hE : Valid E) : Mv.ofExpr E = ⟨expand E, true⟩ := by
  have h2 : (Mv.ofExpr E).isBladeRep = true := (ofExpr_valid (g := (0 : Matrix (Fin n) (Fin n) R)) hE).2
  calc Mv.ofExpr E = ⟨expand E, (Mv.ofExpr E).isBladeRep⟩ := rfl
    _ = _ := by rw [h2]

theorem blade_isBlade (hs : g.IsSymm) {l : List (Fin n)}
    {B : Mv R n} (hB : Rep g B (Spec.blade g l)) (h0 : B.obj ≠ []) : B.isBlade g = true := by
  have e : Spec.blade g l = Spec.wedgeL g (l.map fun i => Pi.single i 1) := by
    clear hB
    induction l with
    | nil => simp [Spec.wedgeL]
    | cons i l ih => rw [List.map_cons, Spec.wedgeL_cons, ← ih, Spec.blade_cons]; rfl
  rw [e] at hB
  refine isBlade_wedgeL hs hB fun h => h0 ?_
  rw [← hB.val] at h
  exact (val_eq_zero hB.wf).mp h

theorem MvObj.Ok.characterise (hs : g.IsSymm) {E : Expr R n} (hE : Valid E) {A : MvObj R n}
    (h : A.Ok g E) :
    A.characterise.Ok g E ∧ A.characterise.iGrade = (Mv.ofExpr E).iGrade ∧
      A.characterise.grades = some (gradeList E) := by
  obtain ⟨obj, rep, ch, ig, gs, bf, vf⟩ := A
  obtain ⟨h1, h2, h3, h4, h5⟩ := h
  dsimp only at h1 h2 h3 h4 h5
  subst h1 h2
  cases ch with
  | true =>
    refine ⟨⟨rfl, rfl, h3, h4, h5⟩, h3 rfl⟩
  | false =>
    clear h3
    have hv := hE.expand
    have hsy := hv.syms
    rw [MvObj.characterise]
    simp only [Bool.false_eq_true, if_false]
    by_cases hc : ((expand obj).all fun t => decide (t.2 = .blade [])) = true
    · rw [if_pos hc]
      have hg : some 0 = (Mv.ofExpr obj).iGrade := by
        have : gradesOf (expand obj) = some [0] := by
          rw [gradesOf_eq_singleton hv, expand_len_iff (g := g) hv, den_expand,
            ← expand_len_iff (g := g) hE]
          refine ⟨fun t ht => ?_, fun _ => rfl⟩
          have := List.all_eq_true.mp hc t ht
          rw [of_decide_eq_true this]; rfl
        rw [Mv.iGrade, ofExpr_eq hE, this]
      refine ⟨⟨rfl, rfl, ?_, h4, h5⟩, hg, ?_⟩
      · intro h; simp at h
      · rw [gradeList, if_pos hc]
    · rw [if_neg hc]
      have hne : expand obj ≠ [] := by rintro h; rw [h] at hc; simp at hc
      have hgl : gradeList obj = lensAppear (expand obj) := by rw [gradeList, if_neg hc]
      have hig := igrade_lensAppear hE hne
      rw [← ofExpr_eq hE] at hig
      have hgen : ∀ A' : MvObj R n, A' = (match gradesAppear (expand obj) with
        | none => { (⟨obj, true, false, ig, gs, bf, vf⟩ : MvObj R n) with
            charMv := true, isBladeRep := false, iGrade := none }
        | some gs =>
          { (⟨obj, true, false, ig, gs, bf, vf⟩ : MvObj R n) with
            isBladeRep := true
            iGrade := (match gs with | [r] => some r | _ => none)
            grades := some gs
            charMv := true }) →
          A'.Ok g obj ∧ A'.iGrade = (Mv.ofExpr obj).iGrade ∧ A'.grades = some (gradeList obj) := by
        rintro A' rfl
        rw [gradesAppear_eq hsy]
        have e1 : (match lensAppear (expand obj) with | [r] => some r | _ => none) =
          (Mv.ofExpr obj).iGrade := hig
        refine ⟨⟨rfl, rfl, fun _ => ⟨e1, by rw [hgl]⟩, h4, h5⟩, e1, by rw [hgl]⟩
      split
      · rename_i c s hcs
        split_ifs with hb
        · obtain ⟨rfl, hb⟩ := hb
          have hbl : IsBl s := mem_flat_blades.mp hb
          have e0 : lensAppear (expand obj) = [symLen s] := by rw [hcs]; simp [lensAppear]
          rw [grade_of_isBl hbl]
          rw [e0] at hig hgl
          have hB : (Mv.ofExpr obj).isBlade g = true := by
            obtain ⟨l, rfl, hl⟩ := hbl
            refine blade_isBlade hs (l := l) (B := Mv.ofExpr obj) ((Rep.ofExpr hE).congr ?_) hne
            rw [← den_expand, hcs]
            simp [den, symDen]
          refine ⟨⟨rfl, rfl, fun _ => ⟨hig, by rw [hgl]; rfl⟩, ?_, h5⟩, hig, by rw [hgl]; rfl⟩
          intro b hb'
          rw [hB]
          exact (Option.some.inj hb').symm
        · exact hgen _ (by rw [hcs]; rfl)
      · exact hgen _ rfl

theorem MvObj.Ok.isVersor (hs : g.IsSymm) {E : Expr R n} (hE : Valid E) {A : MvObj R n}
    (h : A.Ok g E) :
    (A.isVersor g).1 = (Mv.ofExpr E).isVersor g ∧ (A.isVersor g).2.Ok g E ∧
      (A.isVersor g).2.mv = Mv.ofExpr E := by
  rw [MvObj.isVersor]
  cases hv : A.versorFlg with
  | some b => exact ⟨h.versor b hv, h, h.mv hE⟩
  | none =>
    have h1 := (h.characterise hs hE).1
    have h2 := h1.mv hE
    dsimp only
    refine ⟨by rw [h2], ⟨h1.obj, h1.rep, h1.char, h1.blade, ?_⟩, ?_⟩
    · intro b hb
      rw [← Option.some.inj hb, h2]
    · exact h2

theorem MvObj.Ok.isBlade (hs : g.IsSymm) {E : Expr R n} (hE : Valid E) {A : MvObj R n}
    (h : A.Ok g E) :
    (A.isBlade g).1 = (Mv.ofExpr E).isBlade g ∧ (A.isBlade g).2.Ok g E := by
  rw [MvObj.isBlade]
  have key : ∀ (A : MvObj R n) (b : Bool), A.Ok g E → b = (Mv.ofExpr E).isBlade g →
      ({ A with bladeFlg := some b } : MvObj R n).Ok g E := fun A b h hb =>
    ⟨h.obj, h.rep, h.char, fun b' hb' => by rw [← Option.some.inj hb', hb], h.versor⟩
  cases hv : A.bladeFlg with
  | some b => exact ⟨h.blade b hv, h⟩
  | none =>
    obtain ⟨h1, h2, -⟩ := h.characterise hs hE
    have h3 := h1.mv hE
    dsimp only
    generalize A.characterise = A' at h1 h2 h3 ⊢
    obtain ⟨obj, rep, ch, ig, gs, bf, vf⟩ := A'
    dsimp only at h2
    subst h2
    rw [h3]
    dsimp only
    have hb : ∀ b, b = (Mv.ofExpr E).isBlade g ↔ b = (match (Mv.ofExpr E).iGrade with
      | none => false
      | some r =>
        if (Mv.ofExpr E).isZero then false
        else if r ≤ 1 then true
        else if (Mv.ofExpr E).isVersor g then true
        else ((Mv.ofExpr E).wedge g (Mv.ofExpr E)).isZero) := fun b => by rw [Mv.isBlade]; rfl
    cases hig : (Mv.ofExpr E).iGrade with
    | none =>
      rw [hig] at h1
      have : false = (Mv.ofExpr E).isBlade g := by rw [hb, hig]
      exact ⟨this, key _ _ h1 this⟩
    | some r =>
      rw [hig] at hb h1
      dsimp only at hb ⊢
      split_ifs with c1 c2 c3
      · have : false = (Mv.ofExpr E).isBlade g := by rw [hb, if_pos c1]
        exact ⟨this, key _ _ h1 this⟩
      · have : true = (Mv.ofExpr E).isBlade g := by rw [hb, if_neg c1, if_pos c2]
        exact ⟨this, key _ _ h1 this⟩
      · obtain ⟨h4, h5, h6⟩ := h1.isVersor hs hE
        rw [h4] at c3
        have : true = (Mv.ofExpr E).isBlade g := by rw [hb, if_neg c1, if_neg c2, if_pos c3]
        exact ⟨this, key _ _ h5 this⟩
      · obtain ⟨h4, h5, h6⟩ := h1.isVersor hs hE
        rw [h4] at c3
        have : ((Mv.ofExpr E).wedge g (Mv.ofExpr E)).isZero = (Mv.ofExpr E).isBlade g := by
          rw [hb, if_neg c1, if_neg c2, if_neg c3]
        rw [h6]
        exact ⟨this, key _ _ h5 this⟩

theorem MvObj.Ok.pureGrade (hs : g.IsSymm) {E : Expr R n} (hE : Valid E) {A : MvObj R n}
    (h : A.Ok g E) :
    A.pureGrade.1 = (match (Mv.ofExpr E).iGrade with
      | some r => some (r : ℤ)
      | none => (gradeList E).getLast?.map fun r => -(r : ℤ)) ∧ A.pureGrade.2.Ok g E := by
  obtain ⟨h1, h2, h3⟩ := h.characterise hs hE
  rw [MvObj.pureGrade]
  rw [h2, h3]
  cases (Mv.ofExpr E).iGrade with
  | none => exact ⟨rfl, h1⟩
  | some r => exact ⟨rfl, h1⟩

theorem MvObj.ok_ofExpr (hs : g.IsSymm) {E : Expr R n} (hE : Valid E) :
    (MvObj.ofExpr E).Ok g E := by
  refine (MvObj.Ok.characterise hs hE ⟨rfl, rfl, ?_, ?_, ?_⟩).1
  · intro h; simp at h
  · intro b h; simp at h
  · intro b h; simp at h

theorem MvObj.Ok.ask (hs : g.IsSymm) {E : Expr R n} (hE : Valid E) {A : MvObj R n}
    (h : A.Ok g E) (q : Query) : (A.ask g q).2.Ok g E := by
  cases q with
  | characterise => exact (h.characterise hs hE).1
  | isBlade => exact (h.isBlade hs hE).2
  | isVersor => exact (h.isVersor hs hE).2.1
  | pureGrade => exact (h.pureGrade hs hE).2
  | isScalar => exact h
  | isVector => exact h
  | isZero => exact h

theorem MvObj.Ok.run (hs : g.IsSymm) {E : Expr R n} (hE : Valid E) {A : MvObj R n}
    (h : A.Ok g E) (qs : List Query) : (A.run g (qs.map Step.ask)).Ok g E := by
  induction qs generalizing A with
  | nil => exact h
  | cons q qs ih => exact ih (h.ask hs hE q)

/-! ### The classification depends on the value only -/

theorem bool_ext {a b : Bool} (h : a = true ↔ b = true) : a = b := by
  cases a <;> cases b <;> simp_all

theorem isScalar_congr (hs : g.IsSymm) {A B : Mv R n} {x : Spec.Cl g} (hA : Rep g A x)
    (hB : Rep g B x) : A.isScalar g = B.isScalar g :=
  bool_ext (by rw [isScalar_iff hs hA.wf, isScalar_iff hs hB.wf, hA.val, hB.val])

theorem isVector_congr (hs : g.IsSymm) {A B : Mv R n} {x : Spec.Cl g} (hA : Rep g A x)
    (hB : Rep g B x) : A.isVector g = B.isVector g :=
  bool_ext (by rw [isVector_iff hs hA.wf, isVector_iff hs hB.wf, hA.val, hB.val])

theorem isZero_congr {A B : Mv R n} {x : Spec.Cl g} (hA : Rep g A x)
    (hB : Rep g B x) : A.isZero = B.isZero :=
  bool_ext (by rw [isZero_iff hA.wf, isZero_iff hB.wf, hA.val, hB.val])

theorem isVersor_congr (hs : g.IsSymm) {A B : Mv R n} {x : Spec.Cl g} (hA : Rep g A x)
    (hB : Rep g B x) : A.isVersor g = B.isVersor g := by
  rw [Mv.isVersor, Mv.isVersor]
  dsimp only
  have h1 := (hA.mul hs (hA.rev hs))
  have h2 := (hB.mul hs (hB.rev hs))
  rw [isScalar_congr hs h1 h2, isZero_congr h1 h2]
  have key : ∀ i : Fin n, ∃ y,
      Rep g (((A.gInvol g).mul g (Mv.ofExpr (bladeE [i]))).mul g (A.rev g)) y ∧
      Rep g (((B.gInvol g).mul g (Mv.ofExpr (bladeE [i]))).mul g (B.rev g)) y := fun i => by
    have h : Rep g (Mv.ofExpr (bladeE [i]) : Mv R n) _ :=
      Rep.ofExpr (valid_bladeE (R := R) (l := [i]) (by simp))
    exact ⟨_, Rep.mul hs (Rep.mul hs (hA.gInvol hs) h) (hA.rev hs),
      Rep.mul hs (Rep.mul hs (hB.gInvol hs) h) (hB.rev hs)⟩
  congr 1
  rw [List.all_map, List.all_map, List.any_map, List.any_map]
  congr 1
  · congr 1
    funext i
    obtain ⟨y, h3, h4⟩ := key i
    simp only [Function.comp]
    rw [isZero_congr h3 h4, isVector_congr hs h3 h4]
  · congr 1
    funext i
    obtain ⟨y, h3, h4⟩ := key i
    simp only [Function.comp]
    rw [isVector_congr hs h3 h4]

theorem iGrade_eq_some {A : Mv R n} {x : Spec.Cl g} (hA : Rep g A x) (r : ℕ) :
    A.iGrade = some r ↔ Spec.Homogeneous g r x ∧ (x = 0 → r = 0) := by
  have h1 : gradesOf A.obj = some [r] ↔ Spec.Homogeneous g r x ∧ (x = 0 → r = 0) := by
    rw [gradesOf_eq_singleton hA.valid, expand_len_iff (g := g) hA.valid,
      expand_eq_nil (g := g) hA.valid, hA.den]
    rfl
  rw [← h1, Mv.iGrade]
  split
  · rename_i k hk; rw [hk]; simp
  · rename_i hk
    constructor
    · intro h; simp at h
    · intro h; exact absurd h (hk r)

theorem iGrade_congr {A B : Mv R n} {x : Spec.Cl g} (hA : Rep g A x) (hB : Rep g B x) :
    A.iGrade = B.iGrade := by
  ext r
  rw [iGrade_eq_some hA, iGrade_eq_some hB]

theorem isBlade_congr (hs : g.IsSymm) {A B : Mv R n} {x : Spec.Cl g} (hA : Rep g A x)
    (hB : Rep g B x) : A.isBlade g = B.isBlade g := by
  rw [Mv.isBlade, Mv.isBlade, iGrade_congr hA hB, isZero_congr hA hB, isVersor_congr hs hA hB,
    isZero_congr (hA.wedge hs hA) (hB.wedge hs hB)]

end GA
