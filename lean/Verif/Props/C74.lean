import Verif.Proofs.Print
import Verif.Proofs.Flags
import Verif.Proofs.Examples

/-!
# C74: the text form of a multivector
-/

set_option linter.unusedSectionVars false
set_option maxRecDepth 10000

namespace GA
variable {n : ℕ} {R : Type*} [CommRing R] [DecidableEq R] [Invertible (2 : R)]
  {g : Matrix (Fin n) (Fin n) R}

theorem symIndex_mkBlade (l : List (Fin n)) : symIndex (mkBlade l) = l := rfl

theorem symIndex_mkBase (l : List (Fin n)) : symIndex (mkBase l) = l := by
  rw [mkBase]; split_ifs <;> rfl

/-- Which keys the printer uses. -/
theorem mvStr_cases {A : Mv R n} (hA : A.WF g) {args : Expr R n} (hargs : expand args = A.obj)
    (hsub : ∀ t ∈ args, t.2 ∈ A.obj.map Prod.snd) :
    ∃ (mk : List (Fin n) → Sym n) (grades : Dict (Sym n) ℕ), Function.Injective mk ∧
      mk [] = .blade [] ∧ (∀ l, symIndex (mk l) = l) ∧
      (∀ l : List (Fin n), l.Pairwise (· < ·) → grades.get? (mk l) = some l.length) ∧
      (∀ t ∈ args, ∃ l : List (Fin n), l.Pairwise (· < ·) ∧ t.2 = mk l) ∧
      ∀ g0, mvTerms g g0 args = sortedTerms g0 ((flat (indexes n)).map mk) grades args := by
  by_cases hb : (Mv.ofExpr args).isBladeRep = true ∨ isOrtho g = true
  · refine ⟨mkBlade, bladesToGrades n, mkBlade_inj, rfl, symIndex_mkBlade,
      fun l hl => (get?_bladesToGrades _ _).mpr ⟨l, hl, rfl, rfl⟩, fun t ht => ?_, fun g0 => ?_⟩
    · obtain ⟨u, hu, he⟩ := List.mem_map.mp (hsub t ht)
      have : IsBl u.2 := by
        rcases hb with hb | hb
        · have := ofExpr_flag.mp hb
          rw [hargs] at this
          exact this u hu
        · have := hA.syms u hu
          rwa [RepSym, if_pos (Or.inr hb)] at this
      obtain ⟨l, h1, h2⟩ := this
      exact ⟨l, h2, he ▸ h1⟩
    · rw [mvTerms, if_pos (by simpa using hb), flat_blades]
  · refine ⟨mkBase, basesToGrades n, mkBase_inj, rfl, symIndex_mkBase,
      fun l hl => (get?_basesToGrades _ _).mpr ⟨l, hl, rfl, rfl⟩, fun t ht => ?_, fun g0 => ?_⟩
    · obtain ⟨u, hu, he⟩ := List.mem_map.mp (hsub t ht)
      have hf : ¬ (A.isBladeRep = true ∨ isOrtho g = true) := by
        rintro (h | h)
        · refine hb (Or.inl (ofExpr_flag.mpr ?_))
          rw [hargs]
          intro v hv
          have := hA.syms v hv
          rwa [RepSym, if_pos (Or.inl h)] at this
        · exact hb (Or.inr h)
      have := hA.syms u hu
      rw [RepSym, if_neg hf] at this
      obtain ⟨l, h1, h2⟩ := this
      exact ⟨l, h2, he ▸ h1⟩
    · rw [mvTerms, if_neg (by simpa using hb), flat_bases]

theorem expand_all_scalar {args : Expr R n} (h : ∀ t ∈ args, t.2 = .blade []) :
    coefOf args (.blade []) = (args.map Prod.fst).sum := by
  induction args with
  | nil => rfl
  | cons t args ih =>
    rw [coefOf_cons, if_pos (h t List.mem_cons_self), ih fun u hu => h u (List.mem_cons_of_mem _ hu)]
    simp

/-- C74: for each of the three formats the text of a multivector is made, and it says the multivector:
without the blanks it is the sequence of its terms, each exactly once, by grade and within a grade in
the dictionary order of the basis vectors, with the sign of each term before it, on one line, on one
line per grade, or on one line per term.  `args` are the terms as SymPy lists them, and `shows c b` is
SymPy's text of a term. -/
theorem C74_text {A : Mv R n} (hA : A.WF g) {args : Expr R n} (hargs : expand args = A.obj)
    (hsub : ∀ t ∈ args, t.2 ∈ A.obj.map Prod.snd) (fmt : ℕ) {shows : R → Sym n → List Char}
    (hne : ∀ c b, shows c b ≠ []) (hnl : ∀ c b, '\n' ∉ shows c b)
    (hneg : ∀ c b s, b ≠ .blade [] → shows c b = '-' :: s → s = shows (-c) b) :
    ∃ s, mvStr g fmt shows args = some s ∧
      ((A.obj = [] ∧ s = shows 0 (.blade [])) ∨
        ∃ T, T.Perm A.obj ∧ (T.Pairwise fun t u => Before (symIndex t.2) (symIndex u.2)) ∧
          ReadsAs fmt shows (noSpace s) T) := by
  have hco : ∀ s, coefOf A.obj s = coefOf args s := fun s => by
    rw [← hargs]; exact lin_expand _ _
  unfold mvStr
  by_cases hall : (args.all fun t => decide (t.2 = .blade [])) = true
  · rw [if_pos hall]
    simp only [List.all_eq_true, decide_eq_true_eq] at hall
    refine ⟨_, rfl, ?_⟩
    cases args with
    | nil => exact Or.inl ⟨hargs.symm, rfl⟩
    | cons t args =>
      refine Or.inr ⟨A.obj, List.Perm.refl _, ?_⟩
      have hE : ∀ u ∈ A.obj, u = (((t :: args).map Prod.fst).sum, .blade []) := by
        intro u hu
        have h1 : coefOf A.obj u.2 = u.1 := coefOf_of_mem hA.1 hu
        have h2 : u.2 = .blade [] := by
          by_contra hc
          refine hA.2.1 u hu ?_
          rw [← h1, hco]
          refine coefOf_eq_zero fun hm => ?_
          obtain ⟨v, hv, he⟩ := List.mem_map.mp hm
          exact hc (he ▸ hall v hv)
        refine Prod.ext ?_ h2
        rw [← h1, hco, h2]
        exact expand_all_scalar hall
      have hobj : A.obj = [(((t :: args).map Prod.fst).sum, .blade [])] := by
        obtain ⟨u, hu, -⟩ := List.mem_map.mp (hsub t List.mem_cons_self)
        cases hO : A.obj with
        | nil => rw [hO] at hu; cases hu
        | cons v E =>
          have h1 := hE v (by rw [hO]; exact List.mem_cons_self)
          cases E with
          | nil => rw [h1]
          | cons w E =>
            have h2 := hE w (by rw [hO]; simp)
            have := hA.1
            rw [hO, h1, h2] at this
            simp at this
      rw [hobj]
      exact ⟨List.pairwise_singleton _ _, ReadsAs.one _ _⟩
  · rw [if_neg hall]
    split
    · rename_i c b
      have hobj : A.obj = [(c, b)] := by
        obtain ⟨u, hu, he⟩ := List.mem_map.mp (hsub (c, b) List.mem_cons_self)
        have hE : ∀ u ∈ A.obj, u = (c, b) := by
          intro u hu
          have h1 : coefOf A.obj u.2 = u.1 := coefOf_of_mem hA.1 hu
          rw [hco, coefOf_singleton] at h1
          split_ifs at h1 with h2
          · exact Prod.ext h1.symm h2.symm
          · exact absurd h1.symm (hA.2.1 u hu)
        cases hO : A.obj with
        | nil => rw [hO] at hu; cases hu
        | cons v E =>
          have h1 := hE v (by rw [hO]; exact List.mem_cons_self)
          cases E with
          | nil => rw [h1]
          | cons w E =>
            have h2 := hE w (by rw [hO]; simp)
            have := hA.1
            rw [hO, h1, h2] at this
            simp at this
      refine ⟨_, rfl, Or.inr ⟨A.obj, List.Perm.refl _, ?_⟩⟩
      rw [hobj]
      exact ⟨List.pairwise_singleton _ _, ReadsAs.one _ _⟩
    · obtain ⟨mk, grades, h1, h2, h3, h4, h5, h6⟩ := mvStr_cases hA hargs hsub
      have hE : A.obj ≠ [] := by
        intro h
        rw [h] at hsub
        cases args with
        | nil => simp at hall
        | cons t args => simpa using hsub t List.mem_cons_self
      obtain ⟨s, T, hs, hT⟩ := printTerms_sorted fmt hne hnl hneg h1 h2 h3 h4 h5 hargs hA.1 hA.2.1 hsub hE
      exact ⟨s, (congrArg (printTerms fmt shows) (h6 (-1))).trans hs, Or.inr ⟨T, hT⟩⟩


theorem sortedTerms_congr {g0 : ℤ} {keys : List (Sym n)} {grades : Dict (Sym n) ℕ} {args args' : Expr R n}
    (hP : ∀ t ∈ args, t.2 ∈ keys) (hP' : ∀ t ∈ args', t.2 ∈ keys)
    (hs : ∀ s, s ∈ args.map Prod.snd ↔ s ∈ args'.map Prod.snd)
    (hc : ∀ s, coefOf args s = coefOf args' s) :
    sortedTerms g0 keys grades args = sortedTerms g0 keys grades args' := by
  obtain ⟨h1, h2⟩ := sortedTerms_spec g0 keys grades args hP
  obtain ⟨h1', h2'⟩ := sortedTerms_spec g0 keys grades args' hP'
  have hm : ∀ e, e ∈ sortedTerms g0 keys grades args ↔ e ∈ sortedTerms g0 keys grades args' := fun e => by
    rw [h2, h2']
    simp only [hs, hc]
  have hperm : (sortedTerms g0 keys grades args).Perm (sortedTerms g0 keys grades args') := by
    refine (List.perm_ext_iff_of_nodup ?_ ?_).mpr hm
    · exact h1.imp fun h e => by rw [e] at h; exact lt_irrefl _ h
    · exact h1'.imp fun h e => by rw [e] at h; exact lt_irrefl _ h
  exact hperm.eq_of_pairwise (fun a b _ _ h h' => absurd h (lt_asymm h')) h1 h1'

theorem mem_args_iff {A : Mv R n} (hA : A.WF g) {args : Expr R n} (hargs : expand args = A.obj)
    (hsub : ∀ t ∈ args, t.2 ∈ A.obj.map Prod.snd) (s : Sym n) :
    s ∈ args.map Prod.snd ↔ s ∈ A.obj.map Prod.snd := by
  constructor
  · rintro h
    obtain ⟨t, ht, rfl⟩ := List.mem_map.mp h
    exact hsub t ht
  · intro h
    obtain ⟨t, ht, rfl⟩ := List.mem_map.mp h
    by_contra hc
    refine hA.2.1 t ht ?_
    have h1 : coefOf A.obj t.2 = t.1 := coefOf_of_mem hA.1 ht
    have h2 : coefOf A.obj t.2 = coefOf args t.2 := by rw [← hargs]; exact lin_expand _ _
    rw [← h1, h2, coefOf_eq_zero hc]

/-- Equal multivectors have the same sorted terms. -/
theorem mvTerms_same {A A' : Mv R n} (hA : A.WF g) (hA' : A'.WF g) (hperm : A.obj.Perm A'.obj)
    {args args' : Expr R n} (hargs : expand args = A.obj) (hargs' : expand args' = A'.obj)
    (hsub : ∀ t ∈ args, t.2 ∈ A.obj.map Prod.snd) (hsub' : ∀ t ∈ args', t.2 ∈ A'.obj.map Prod.snd)
    {g0 : ℤ} : mvTerms g g0 args = mvTerms g g0 args' := by
  have hs : ∀ s, s ∈ args.map Prod.snd ↔ s ∈ args'.map Prod.snd := fun s => by
    rw [mem_args_iff hA hargs hsub, mem_args_iff hA' hargs' hsub', (hperm.map Prod.snd).mem_iff]
  have hc : ∀ s, coefOf args s = coefOf args' s := fun s => by
    have e1 : coefOf A.obj s = coefOf args s := by rw [← hargs]; exact lin_expand _ _
    have e2 : coefOf A'.obj s = coefOf args' s := by rw [← hargs']; exact lin_expand _ _
    rw [← e1, ← e2]
    exact ((hperm.map _).sum_eq)
  have hflag : (Mv.ofExpr args).isBladeRep = (Mv.ofExpr args').isBladeRep := by
    rw [Bool.eq_iff_iff, ofExpr_flag, ofExpr_flag, hargs, hargs']
    exact ⟨fun h t ht => h t (hperm.mem_iff.mpr ht), fun h t ht => h t (hperm.mem_iff.mp ht)⟩
  rw [mvTerms, mvTerms, hflag]
  obtain ⟨mk, grades, -, -, -, -, h5, h6⟩ := mvStr_cases hA hargs hsub
  have hk : ∀ {keys : List (Sym n)}, (∀ t ∈ args, t.2 ∈ keys) → ∀ t ∈ args', t.2 ∈ keys := by
    intro keys h t ht
    obtain ⟨u, hu, he⟩ := List.mem_map.mp ((hs t.2).mpr (List.mem_map_of_mem ht))
    exact he ▸ h u hu
  by_cases hb : ((Mv.ofExpr args').isBladeRep || isOrtho g) = true
  · rw [if_pos hb, if_pos hb]
    have hP : ∀ t ∈ args, t.2 ∈ flat (blades n) := fun t ht => by
      obtain ⟨u, hu, he⟩ := List.mem_map.mp (hsub t ht)
      rw [← he, isBl_of_mem_flat]
      rw [Bool.or_eq_true, ← hflag] at hb
      rcases hb with hb | hb
      · have := ofExpr_flag.mp hb
        rw [hargs] at this
        exact this u hu
      · have := hA.syms u hu
        rwa [RepSym, if_pos (Or.inr hb)] at this
    rw [sortedTerms_congr hP (hk hP) hs hc]
  · rw [if_neg hb, if_neg hb]
    have hP : ∀ t ∈ args, t.2 ∈ flat (bases n) := fun t ht => by
      obtain ⟨u, hu, he⟩ := List.mem_map.mp (hsub t ht)
      have hf : ¬ (A.isBladeRep = true ∨ isOrtho g = true) := by
        rw [← hflag, Bool.or_eq_true] at hb
        rintro (h | h)
        · refine hb (Or.inl (ofExpr_flag.mpr ?_))
          rw [hargs]
          intro v hv
          have := hA.syms v hv
          rwa [RepSym, if_pos (Or.inl h)] at this
        · exact hb (Or.inr h)
      have := hA.syms u hu
      rw [RepSym, if_neg hf] at this
      obtain ⟨l, h1, h2⟩ := this
      rw [← he, h1, flat_bases]
      exact List.mem_map_of_mem (mem_flat_indexes.mpr h2)
    rw [sortedTerms_congr hP (hk hP) hs hc]

/-- With one line per multivector a single term is printed as in the general case. -/
theorem mvStr_single {fmt : ℕ} (h2 : fmt ≠ 2) (h3 : fmt ≠ 3) {shows : R → Sym n → List Char}
    (hne : ∀ c b, shows c b ≠ []) (hnl : ∀ c b, '\n' ∉ shows c b) (keys : List (Sym n))
    (grades : Dict (Sym n) ℕ) {c : R} {b : Sym n} (hb : b ∈ keys) (h1 : b ≠ .blade []) :
    printTerms fmt shows (sortedTerms (-1) keys grades [(c, b)]) = some (shows c b) := by
  have : sortedTerms (-1) keys grades [(c, b)] =
      [((keys.idxOf b : ℤ), c, b, (((grades.get? b).getD 0 : ℕ) : ℤ))] := by
    simp only [sortedTerms, List.foldl_cons, List.foldl_nil, collectStep, if_neg h1, if_pos hb,
      Dict.get?, Dict.set]
    simp
  rw [this]
  simp only [printTerms, if_neg h2, if_neg h3, List.foldlM_nil]
  change (match (shows c b).getLast? with
      | none => none
      | some '\n' => some (shows c b).dropLast
      | some _ => some (shows c b)) = _
  rw [List.getLast?_eq_some_getLast (hne c b)]
  have hc : (shows c b).getLast (hne c b) ≠ '\n' := fun h => hnl c b (h ▸ List.getLast_mem _)
  split
  · rename_i h; cases h
  · rename_i h; exact absurd (Option.some.inj h) hc
  · rfl

/-- C74: equal multivectors have the same text: the text does not depend on the order of the terms, or
on how a coefficient is split into several terms (with one line per multivector). -/
theorem C74_same {A A' : Mv R n} (hA : A.WF g) (hA' : A'.WF g) (hperm : A.obj.Perm A'.obj)
    {args args' : Expr R n} (hargs : expand args = A.obj) (hargs' : expand args' = A'.obj)
    (hsub : ∀ t ∈ args, t.2 ∈ A.obj.map Prod.snd) (hsub' : ∀ t ∈ args', t.2 ∈ A'.obj.map Prod.snd)
    {fmt : ℕ} (h2 : fmt ≠ 2) (h3 : fmt ≠ 3) {shows : R → Sym n → List Char}
    (hne : ∀ c b, shows c b ≠ []) (hnl : ∀ c b, '\n' ∉ shows c b) :
    mvStr g fmt shows args = mvStr g fmt shows args' := by
  have hs : ∀ s, s ∈ args.map Prod.snd ↔ s ∈ args'.map Prod.snd := fun s => by
    rw [mem_args_iff hA hargs hsub, mem_args_iff hA' hargs' hsub', (hperm.map Prod.snd).mem_iff]
  have hc : ∀ s, coefOf args s = coefOf args' s := fun s => by
    have e1 : coefOf A.obj s = coefOf args s := by rw [← hargs]; exact lin_expand _ _
    have e2 : coefOf A'.obj s = coefOf args' s := by rw [← hargs']; exact lin_expand _ _
    rw [← e1, ← e2]
    exact ((hperm.map _).sum_eq)
  have hallI : ∀ E : Expr R n, (E.all fun t => decide (t.2 = .blade [])) = true ↔
      ∀ s ∈ E.map Prod.snd, s = .blade [] := fun E => by
    simp only [List.all_eq_true, decide_eq_true_eq, List.mem_map]
    exact ⟨fun h s ⟨t, ht, e⟩ => e ▸ h t ht, fun h t ht => h t.2 ⟨t, ht, rfl⟩⟩
  have hall : (args.all fun t => decide (t.2 = .blade [])) =
      (args'.all fun t => decide (t.2 = .blade [])) := by
    rw [Bool.eq_iff_iff, hallI, hallI]; simp only [hs]
  have hflag : (Mv.ofExpr args).isBladeRep = (Mv.ofExpr args').isBladeRep := by
    rw [Bool.eq_iff_iff, ofExpr_flag, ofExpr_flag, hargs, hargs']
    exact ⟨fun h t ht => h t (hperm.mem_iff.mpr ht), fun h t ht => h t (hperm.mem_iff.mp ht)⟩
  by_cases ha : (args.all fun t => decide (t.2 = .blade [])) = true
  · have ha' := hall ▸ ha
    unfold mvStr
    rw [if_pos ha, if_pos ha']
    simp only [List.all_eq_true, decide_eq_true_eq] at ha ha'
    rw [← expand_all_scalar ha, ← expand_all_scalar ha', hc]
  · have ha' : ¬ (args'.all fun t => decide (t.2 = .blade [])) = true := hall ▸ ha
    have hgen : ∀ {E : Expr R n}, ¬ (E.all fun t => decide (t.2 = .blade [])) = true →
        (∃ B : Mv R n, B.WF g ∧ expand E = B.obj ∧ ∀ t ∈ E, t.2 ∈ B.obj.map Prod.snd) →
        mvStr g fmt shows E = printTerms fmt shows (mvTerms g (-1) E) := by
      intro E hE hB
      unfold mvStr
      rw [if_neg hE]
      split
      · rename_i c b
        obtain ⟨B, hB, hexp, hsubB⟩ := hB
        obtain ⟨mk, grades, -, -, -, -, h5, h6⟩ := mvStr_cases hB hexp hsubB
        rw [h6]
        refine (mvStr_single h2 h3 hne hnl _ _ ?_ ?_).symm
        · obtain ⟨l, hl, he⟩ := h5 (c, b) List.mem_cons_self
          exact (show b = mk l from he) ▸ List.mem_map_of_mem (mem_flat_indexes.mpr hl)
        · simpa using hE
      · rfl
    rw [hgen ha ⟨A, hA, hargs, hsub⟩, hgen ha' ⟨A', hA', hargs', hsub'⟩,
      mvTerms_same hA hA' hperm hargs hargs' hsub hsub']

/-! ### a printer for the examples: coefficients as strokes, basis vectors as letters -/

namespace Ex

/-- A printer of terms. -/
def showTerm (c : ℚ) (b : Sym 3) : List Char :=
  (if c < 0 then ['-'] else []) ++ 'I' :: List.replicate c.num.natAbs 'i' ++
    (symIndex b).map fun i => ['x', 'y', 'z'].getD i.1 'w'

theorem showTerm_ne (c : ℚ) (b : Sym 3) : showTerm c b ≠ [] := by
  rw [showTerm]; simp

theorem showTerm_nl (c : ℚ) (b : Sym 3) : '\n' ∉ showTerm c b := by
  rw [showTerm]
  simp only [List.mem_append, List.mem_cons, List.mem_map, not_or]
  refine ⟨⟨by split_ifs <;> decide, by decide, fun h => ?_⟩, ?_⟩
  · exact absurd (List.eq_of_mem_replicate h) (by decide)
  · rintro ⟨i, -, h⟩
    revert h
    fin_cases i <;> decide

theorem showTerm_neg (c : ℚ) (b : Sym 3) (s : List Char) (_ : b ≠ .blade [])
    (h : showTerm c b = '-' :: s) : s = showTerm (-c) b := by
  rw [showTerm] at h ⊢
  by_cases hc : c < 0
  · have hc' : ¬ -c < 0 := by linarith
    rw [if_pos hc] at h
    rw [if_neg hc']
    simp only [List.cons_append, List.nil_append, List.cons.injEq, true_and] at h
    rw [← h]
    simp
  · rw [if_neg hc] at h
    simp at h

end Ex

-- `2 x - y + 3 x^z` from terms in another order, the coefficient of `x` in two parts
example : mvStr Ex.gO 1 Ex.showTerm [(1, .blade [0]), (3, .blade [0, 2]), (-1, .blade [1]), (1, .blade [0])] =
    some "Iiix - Iiy + Iiiixz".toList := by decide +kernel
example : mvStr Ex.gO 2 Ex.showTerm [(1, .blade [0]), (3, .blade [0, 2]), (-1, .blade [1]), (1, .blade [0])] =
    some " Iiix - Iiy\n + Iiiixz".toList := by decide +kernel
example : mvStr Ex.gN 3 Ex.showTerm [(1, .blade [0]), (3, .base [0, 2]), (-1, .blade [1]), (1, .blade [0])] =
    some " Iiix\n - Iiy\n + Iiiixz".toList := by decide +kernel
example : ∃ s, mvStr Ex.gO 2 Ex.showTerm [(1, .blade [0, 1, 2]), (1, .blade [1]), (-1, .blade [0, 2]), (4, .blade [0, 1, 2])] =
    some s ∧ ((Ex.B.obj = [] ∧ s = Ex.showTerm 0 (.blade [])) ∨
      ∃ T, T.Perm Ex.B.obj ∧ (T.Pairwise fun t u => Before (symIndex t.2) (symIndex u.2)) ∧
        ReadsAs 2 Ex.showTerm (noSpace s) T) := by
  have hargs : ∃ P : Mv ℚ 3, P = Mv.ofExpr [(1, .blade [0, 1, 2]), (1, .blade [1]), (-1, .blade [0, 2]), (4, .blade [0, 1, 2])] ∧
    P.obj.Perm Ex.B.obj := ⟨_, rfl, by decide +kernel⟩
  obtain ⟨P, rfl, hp⟩ := hargs
  obtain ⟨s, h1, h2⟩ := C74_text (g := Ex.gO) (ofExpr_rep (g := Ex.gO) (b := true) (E := [(1, .blade [0, 1, 2]),
    (1, .blade [1]), (-1, .blade [0, 2]), (4, .blade [0, 1, 2])]) (by
    intro t ht
    rw [RepSym, if_pos (Or.inl rfl), ← isBl_of_mem_flat]
    revert t
    decide)) rfl (by decide +kernel) 2 Ex.showTerm_ne Ex.showTerm_nl Ex.showTerm_neg
  refine ⟨s, h1, Or.inr ?_⟩
  rcases h2 with ⟨h2, -⟩ | ⟨T, h3, h4⟩
  · exact absurd h2 (by decide +kernel)
  · exact ⟨T, h3.trans hp, h4⟩


example : mvStr Ex.gO 1 Ex.showTerm [(1, .blade [0]), (3, .blade [0, 2]), (1, .blade [0])] =
    mvStr Ex.gO 1 Ex.showTerm [(3, .blade [0, 2]), (2, .blade [0])] := by
  have hw : ∀ E : Expr ℚ 3, (∀ t ∈ E, t.2 ∈ flat (blades 3)) → (Mv.ofExpr E).WF Ex.gO := fun E h =>
    ofExpr_rep (b := true) fun t ht => by
      rw [RepSym, if_pos (Or.inl rfl), ← isBl_of_mem_flat]; exact h t ht
  exact C74_same (hw [(1, .blade [0]), (3, .blade [0, 2]), (1, .blade [0])] (by decide))
    (hw [(3, .blade [0, 2]), (2, .blade [0])] (by decide)) (by decide +kernel) rfl rfl
    (by decide +kernel) (by decide +kernel) (by decide) (by decide) Ex.showTerm_ne Ex.showTerm_nl

end GA
