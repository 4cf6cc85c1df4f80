import Verif.Proofs.Coef

/-!
# C65, C66: access to coefficients; hashing

`Spec.ofCoefs g c` is the element of the Clifford algebra with coefficient `c s` of the basis blade of
every index set `s`.  `bladeCoefsOf g A bs` models `A.blade_coefs(bs)`, `getCoefs A r` models
`A.get_coefs(r)`, `projBases A bs` models `A.proj(bs)`; `none` is an exception.

The claims are about multivectors in blade representation (or of an orthogonal algebra); for the other
representation they are false, see `C65_base_rep_counterexample` and `C66_base_rep_counterexample`.
-/

set_option linter.unusedSectionVars false
set_option maxRecDepth 10000

namespace GA
variable {n : ℕ} {R : Type*} [CommRing R] [DecidableEq R] [Invertible (2 : R)]
  {g : Matrix (Fin n) (Fin n) R}

/-- Every element of the algebra has exactly one family of coefficients. -/
theorem C65_coefs_unique (x : Spec.Cl g) : ∃! c : Finset (Fin n) → R, x = Spec.ofCoefs g c := by
  obtain ⟨E, hE, rfl⟩ := exists_expr g x
  refine ⟨fun s => coeff E (s.sort (· ≤ ·)), den_ofCoefs hE fun l hl => by
    rw [sort_toFinset hl], fun c hc => ?_⟩
  funext s
  have := coeff_of_rep hE hc (sort_lt s)
  rw [this]
  simp

/-- The functions below read the expression only. -/
theorem rep_obj {A : Mv R n} (hA : A.WF g) (hb : A.isBladeRep = true ∨ isOrtho g = true) :
    Rep g ⟨A.obj, true⟩ (A.val g) :=
  ⟨wf_of_valid hA.canon (hA.valid hb) (Or.inl rfl), rfl, rfl⟩

variable {A : Mv R n} {c : Finset (Fin n) → R}

theorem coefOf_obj (hA : A.WF g) (hb : A.isBladeRep = true ∨ isOrtho g = true)
    (hc : A.val g = Spec.ofCoefs g c) {l : List (Fin n)} (hl : l.Pairwise (· < ·)) :
    coefOf A.obj (.blade l) = c l.toFinset := by
  rw [← coeff_eq_coefOf]
  exact coeff_of_rep (hA.valid hb) hc hl

theorem bladeE_obj [Nontrivial R] (l : List (Fin n)) :
    (Mv.ofExpr (bladeE l) : Mv R n).obj = [((1 : R), Sym.blade l)] := by
  simp [Mv.ofExpr, bladeE, expand, gatherE, addTerm]

theorem rep_bladeE {l : List (Fin n)} (hl : l.Pairwise (· < ·)) :
    Rep g (Mv.ofExpr (bladeE l)) (Spec.blade g l) := by
  refine (Rep.ofExpr (g := g) (E := bladeE l) fun t ht => ?_).congr ?_
  · rw [bladeE, List.mem_singleton] at ht
    exact ⟨l, by rw [ht], hl⟩
  · simp [den, bladeE, symDen]

theorem lookupCoef_eq [Nontrivial R] (E : Expr R n) (s : Sym n) :
    lookupCoef E [((1 : R), s)] = coefOf E s := by
  rw [lookupCoef]
  cases h : (linearExpand E).find? fun t => decide ([((1 : R), s)] = [((1 : R), t.2)]) with
  | none =>
    rw [List.find?_eq_none] at h
    by_contra hc
    obtain ⟨t, ht, e, -⟩ := exists_term (Ne.symm hc)
    exact h t ht (by simp [e])
  | some t =>
    have h1 := List.mem_of_find?_eq_some h
    have h2 : s = t.2 := by simpa using List.find?_some h
    rw [h2]
    exact term_coef h1

/-- C65: `blade_coefs` of a list of basis blades, in any order and with repetitions, is the list of their
coefficients. -/
theorem C65_blade_coefs [Nontrivial R] (hs : g.IsSymm) (hA : A.WF g)
    (hb : A.isBladeRep = true ∨ isOrtho g = true) (hc : A.val g = Spec.ofCoefs g c)
    (ls : List (List (Fin n))) (hl : ∀ l ∈ ls, l.Pairwise (· < ·)) :
    A.bladeCoefsOf g (ls.map fun l => Mv.ofExpr (bladeE l)) = some (ls.map fun l => c l.toFinset) := by
  rw [Mv.bladeCoefsOf, if_pos]
  · congr 1
    rw [List.map_map]
    refine List.map_congr_left fun l h => ?_
    rw [Function.comp_apply, bladeE_obj, lookupCoef_eq, coefOf_obj hA hb hc (hl l h)]
  · rw [List.all_eq_true]
    intro b h
    obtain ⟨l, hm, rfl⟩ := List.mem_map.mp h
    rw [Bool.and_eq_true]
    constructor
    · rw [Mv.isBase, bladeE_obj, linearExpand_canon ⟨by simp, by simp⟩ (by simp)]
      simp
    · exact blade_isBlade hs (rep_bladeE (hl l hm)) (by rw [bladeE_obj]; simp)

theorem combinations_one {α : Type*} (l : List α) : combinations 1 l = l.map fun x => [x] := by
  induction l with
  | nil => rfl
  | cons x l ih => rw [combinations, ih]; cases l <;> rfl

/-- C65: `list` is the list of the coefficients of the basis vectors, in order. -/
theorem C65_list [Nontrivial R] (hs : g.IsSymm) (hA : A.WF g)
    (hb : A.isBladeRep = true ∨ isOrtho g = true) (hc : A.val g = Spec.ofCoefs g c) (hn : 0 < n) :
    A.list g = some (List.ofFn fun i : Fin n => c {i}) := by
  have e : (blades n)[1]? = some ((List.finRange n).map fun i => Sym.blade [i]) := by
    rw [blades, indexes, List.getElem?_map, List.getElem?_map, List.getElem?_range (by omega),
      Option.map_some, Option.map_some, combinations_one, List.map_map]
    rfl
  have := C65_blade_coefs hs hA hb hc ((List.finRange n).map fun i => [i]) (by simp)
  rw [Mv.list, e]
  simp only [List.map_map] at this ⊢
  rw [List.ofFn_eq_map]
  refine this.trans ?_
  simp [Function.comp_def]

/-- C65: a list with a member that is not a basis blade is rejected. -/
theorem C65_blade_coefs_rejects (A : Mv R n) {B : Mv R n} (hB : B.WF g) (hb : B.isBladeRep = true)
    (h : ∀ l : List (Fin n), l.Pairwise (· < ·) → B.val g ≠ Spec.blade g l) (bs : List (Mv R n))
    (hm : B ∈ bs) : A.bladeCoefsOf g bs = none := by
  rw [Mv.bladeCoefsOf, if_neg]
  intro hall
  have := List.all_eq_true.mp hall B hm
  rw [Bool.and_eq_true] at this
  have h1 : (linearExpand B.obj).map Prod.fst = [1] := by simpa [Mv.isBase] using this.1
  obtain ⟨t, e, ht⟩ := List.map_eq_singleton_iff.mp h1
  obtain ⟨l, hl, hlt⟩ := valid_linearExpand (hB.valid (Or.inl hb)) t (by rw [e]; simp)
  refine h l hlt ?_
  rw [Mv.val, ← den_linearExpand, e, den_eq_lin, lin_cons, ht, hl]
  simp [symDen]

/-- C65: `get_coefs(r)` succeeds exactly for grades `r ≤ n` such that all components have grade `r`, and
then is the list of the coefficients of the basis blades of grade `r`. -/
theorem C65_get_coefs (hA : A.WF g) (hb : A.isBladeRep = true ∨ isOrtho g = true)
    (hc : A.val g = Spec.ofCoefs g c) (r : ℕ) :
    A.getCoefs r =
      if r ≤ n ∧ ∀ s, c s ≠ 0 → s.card = r then
        some ((combinations r (List.finRange n)).map fun l => c l.toFinset)
      else none := by
  classical
  rw [Mv.getCoefs]
  by_cases hr : r ≤ n
  · have e : (blades n)[r]? = some ((combinations r (List.finRange n)).map mkBlade) := by
      rw [blades, indexes, List.getElem?_map, List.getElem?_map, List.getElem?_range (by omega)]
      rfl
    rw [e]
    dsimp only
    set bl : List (Sym n) := (combinations r (List.finRange n)).map mkBlade with hbl
    have hnd : bl.Nodup := (nodup_combinations r (List.nodup_finRange n)).map fun _ _ h => by
      injection h
    have hrep : List.replicate bl.length (0 : R) = bl.map fun _ => 0 := by
      rw [List.map_const']
    rw [hrep, getCoefs_fold hnd]
    have hmem : ∀ l : List (Fin n), l.Pairwise (· < ·) → (Sym.blade l ∈ bl ↔ l.toFinset.card = r) := by
      intro l hl
      rw [List.toFinset_card_of_nodup (nodup_of_lt hl), hbl, List.mem_map]
      constructor
      · rintro ⟨m, hm, e⟩
        injection e with e
        rw [← e]; exact (mem_combinations.mp hm).2
      · intro h
        exact ⟨l, mem_combinations.mpr ⟨sublist_finRange_iff.mpr hl, h⟩, rfl⟩
    refine if_congr ?_ ?_ rfl
    · constructor
      · intro h
        refine ⟨hr, fun s hs => ?_⟩
        have hcs := coefOf_obj hA hb hc (sort_lt s)
        rw [Finset.sort_toFinset] at hcs
        obtain ⟨t, ht, h1, h2⟩ := exists_term (E := A.obj) (s := .blade (s.sort (· ≤ ·)))
          (by rw [hcs]; exact hs)
        have := h t ht (by rw [h2, hcs]; exact hs)
        rw [h1, hmem _ (sort_lt s), Finset.sort_toFinset] at this
        exact this
      · rintro ⟨-, h⟩ t ht h0
        obtain ⟨l, hl, hlt⟩ := valid_linearExpand (hA.valid hb) t ht
        rw [hl, hmem l hlt]
        refine h _ ?_
        rw [← coefOf_obj hA hb hc hlt, ← hl, ← term_coef ht]
        exact h0
    · rw [hbl, List.map_map]
      congr 1
      refine List.map_congr_left fun l h => ?_
      have hl : l.Pairwise (· < ·) := (List.pairwise_lt_finRange n).sublist (mem_combinations.mp h).1
      rw [Function.comp_apply, zero_add, coefOf_linearExpand]
      exact coefOf_obj hA hb hc hl
  · have e : (blades n)[r]? = none := by
      rw [List.getElem?_eq_none_iff, blades, indexes]; simp; omega
    rw [e, if_neg (fun h => hr h.1)]

/-- C65: `proj(bases)` keeps the coefficients of the given basis blades and sets the others to zero. -/
theorem C65_proj [Nontrivial R] (hA : A.WF g) (hb : A.isBladeRep = true ∨ isOrtho g = true)
    (hc : A.val g = Spec.ofCoefs g c) (ls : List (List (Fin n))) :
    let P := A.projBases (ls.map fun l => Mv.ofExpr (bladeE l))
    P.WF g ∧ P.isBladeRep = true ∧
      P.val g = Spec.ofCoefs g fun s => if s.sort (· ≤ ·) ∈ ls then c s else 0 := by
  intro P
  have hv : Valid ((linearExpand A.obj).filter fun t => decide ([((1 : R), t.2)] ∈
      (ls.map fun l => (Mv.ofExpr (bladeE l) : Mv R n)).map Mv.obj)) := fun t ht =>
    valid_linearExpand (hA.valid hb) t (List.mem_filter.mp ht).1
  have hr := Rep.ofExpr (g := g) hv
  refine ⟨hr.wf, hr.flag, hr.val.trans (den_ofCoefs hv fun l hl => ?_)⟩
  have hiff : ∀ s : Sym n, [((1 : R), s)] ∈
      (ls.map fun l => (Mv.ofExpr (bladeE l) : Mv R n)).map Mv.obj ↔ ∃ l ∈ ls, s = .blade l := by
    intro s
    rw [List.map_map, List.mem_map]
    refine exists_congr fun l => and_congr_right fun _ => ?_
    rw [Function.comp_apply, bladeE_obj]
    simp [eq_comm]
  rw [coeff_eq_coefOf, coefOf_filter _ (fun s => [((1 : R), s)] ∈
    (ls.map fun l => (Mv.ofExpr (bladeE l) : Mv R n)).map Mv.obj), coefOf_linearExpand,
    coefOf_obj hA hb hc hl, sort_toFinset hl]
  refine if_congr ?_ rfl rfl
  rw [hiff]
  constructor
  · rintro ⟨m, hm, e⟩; injection e with e; rwa [e]
  · exact fun h => ⟨l, h, rfl⟩

/-- C65: `components()` of a non-zero multivector are its non-zero coefficients times their basis blades,
in the order of `Ga.blades.flat`; zero has the single component zero. -/
theorem C65_components (hA : A.WF g) (hb : A.isBladeRep = true ∨ isOrtho g = true)
    (hc : A.val g = Spec.ofCoefs g c) :
    A.components = some (if A.isZero then [Mv.zero] else
      ((flat (indexes n)).filter fun l => decide (c l.toFinset ≠ 0)).map fun l =>
        Mv.ofExpr [(c l.toFinset, .blade l)]) := by
  have h1 : (linearExpand A.obj).all (fun t => decide (t.2 ∈ flat (blades n))) = true := by
    rw [List.all_eq_true]
    intro t ht
    exact decide_eq_true (mem_flat_blades.mpr (valid_linearExpand (hA.valid hb) t ht))
  rw [Mv.components, if_pos h1]
  congr 1
  have hr := rep_obj hA hb
  by_cases h0 : A.obj = []
  · rw [if_pos (by simp [Mv.isZero, h0]), h0]
    simp [linearExpand, expand, gatherE, Mv.ofExpr, addTerm, Mv.zero]
  · rw [if_neg (by simp [Mv.isZero, h0]), sort_terms (hr.congr hc) h0, List.map_map]
    rfl

/-- C65: the components add up to the multivector. -/
theorem C65_components_sum (hA : A.WF g) (hb : A.isBladeRep = true ∨ isOrtho g = true) :
    ∃ cs, A.components = some cs ∧ (cs.map (Mv.val g)).sum = A.val g := by
  have h1 : (linearExpand A.obj).all (fun t => decide (t.2 ∈ flat (blades n))) = true := by
    rw [List.all_eq_true]
    intro t ht
    exact decide_eq_true (mem_flat_blades.mpr (valid_linearExpand (hA.valid hb) t ht))
  refine ⟨_, by rw [Mv.components, if_pos h1], ?_⟩
  rw [List.map_map, Mv.val, ← den_linearExpand]
  rw [((List.perm_insertionSort _ _).map _).sum_eq, den]
  refine congrArg List.sum (List.map_congr_left fun t _ => ?_)
  rw [Function.comp_apply, ofExpr_val, den_eq_lin, lin_cons]
  simp

/-- C65: `subs` applies the substitution to every coefficient. -/
theorem C65_subs (hA : A.WF g) (hb : A.isBladeRep = true ∨ isOrtho g = true)
    (hc : A.val g = Spec.ofCoefs g c) (φ : R → R) (h0 : φ 0 = 0) :
    (A.subs φ).WF g ∧ (A.subs φ).isBladeRep = true ∧
      (A.subs φ).val g = Spec.ofCoefs g fun s => φ (c s) := by
  have hv := valid_map (valid_linearExpand (hA.valid hb)) φ
  have hr := Rep.ofExpr (g := g) hv
  refine ⟨hr.wf, hr.flag, hr.val.trans (den_ofCoefs hv fun l hl => ?_)⟩
  rw [coeff_eq_coefOf, coefOf_map (linearExpand_nodup _) φ h0, coefOf_linearExpand,
    coefOf_obj hA hb hc hl]

/-- C65: `simplify(modes)` applies the modes one after the other to every coefficient. -/
theorem C65_simplify (hA : A.WF g) (hb : A.isBladeRep = true ∨ isOrtho g = true)
    (hc : A.val g = Spec.ofCoefs g c) (modes : List (R → R)) (h0 : ∀ f ∈ modes, f 0 = 0) :
    (A.simplify modes).WF g ∧ (A.simplify modes).isBladeRep = true ∧
      (A.simplify modes).val g = Spec.ofCoefs g fun s => modes.foldl (fun x f => f x) (c s) := by
  refine C65_subs hA hb hc (fun x => modes.foldl (fun x f => f x) x) ?_
  clear hc
  induction modes with
  | nil => rfl
  | cons f modes ih =>
    rw [List.foldl_cons, h0 f (by simp)]
    exact ih fun f' hf' => h0 f' (by simp [hf'])

/-- C65: `simplify` with modes that keep the value of an expression gives an equal multivector, in either
representation. -/
theorem C65_simplify_eq (hs : g.IsSymm) (hA : A.WF g) (modes : List (R → R))
    (h : ∀ f ∈ modes, ∀ x, f x = x) : (A.simplify modes).eq g A = true := by
  have e : (fun t : R × Sym n => (modes.foldl (fun c f => f c) t.1, t.2)) = id := by
    funext t
    have : ∀ x : R, modes.foldl (fun c f => f c) x = x := by
      induction modes with
      | nil => exact fun _ => rfl
      | cons f modes ih =>
        intro x
        rw [List.foldl_cons, h f (by simp)]
        exact ih (fun f' hf' => h f' (by simp [hf'])) x
    rw [this]; rfl
  have hr := ofExpr_rep (g := g) (E := linearExpand A.obj) (b := A.isBladeRep)
    (hA.syms.linearExpand (repSym_one _))
  rw [Mv.simplify, e, List.map_id, eq_spec hs hr hA, ofExpr_val, den_linearExpand]
  rfl

/-- C65: `collect` does not change the value of the multivector, in either representation. -/
theorem C65_collect (hs : g.IsSymm) (hA : A.WF g) (f : R → R) (hf : ∀ x, f x = x) :
    (A.collect f).eq g A = true := by
  have hf' : f = id := funext hf
  have hr := ofExpr_rep (g := g) (E := gatherE (linearExpand A.obj)) (b := A.isBladeRep)
    (hA.syms.linearExpand (repSym_one _)).gatherE
  have e : A.collect f = Mv.ofExpr (gatherE (linearExpand A.obj)) := by
    rw [Mv.collect, hf']
    simp [gatherE]
  rw [e, eq_spec hs hr hA, ofExpr_val, den_eq_lin, lin_gatherE, lin_linearExpand]
  rfl

/-- A multivector in blade representation. -/
def Ex.F : Mv ℚ 3 := Mv.ofExpr [(2, .blade [1, 2]), (-3, .blade [0]), (5, .blade [0, 1]), (1, .blade [])]

example : Ex.F.list Ex.gN = some [-3, 0, 0] := by decide +kernel
example : Ex.A.getCoefs 1 = none ∧ (Ex.A.getGrade 1).getCoefs 1 ≠ none := by decide +kernel
example : (Ex.F.getGrade 2).getCoefs 2 = some [5, 0, 2] ∧ Ex.F.getCoefs 2 = none := by decide +kernel
example : Ex.F.bladeCoefsOf Ex.gN [Mv.ofExpr (bladeE [0, 1]), Mv.ofExpr (bladeE [2]),
    Mv.ofExpr (bladeE [0])] = some [5, 0, -3] := by decide +kernel
example : Ex.F.components = some [Mv.scalarMv 1, Mv.ofExpr [(-3, .blade [0])],
    Mv.ofExpr [(5, .blade [0, 1])], Mv.ofExpr [(2, .blade [1, 2])]] := by decide +kernel
example : (Ex.F.projBases [Mv.ofExpr (bladeE [0, 1]), Mv.ofExpr (bladeE [2])]).bladeCoefs =
    [0, 0, 0, 0, 5, 0, 0, 0] := by decide +kernel
example : (Ex.F.subs fun x => x * x).bladeCoefs = [1, 9, 0, 0, 25, 0, 4, 0] := by decide +kernel

/-- The claims of C65 are false in base representation: there are equal multivectors with different
coefficients, one of which is accepted by `get_coefs` and `components` and the other is not, and whose
projections to the scalars differ. -/
theorem C65_base_rep_counterexample :
    let B : Mv ℚ 3 := Mv.ofExpr (bladeE [0, 1])
    (B.baseRep Ex.gN).eq Ex.gN B = true ∧ (B.baseRep Ex.gN).bladeCoefs ≠ B.bladeCoefs ∧
      B.getCoefs 2 = some [1, 0, 0] ∧ (B.baseRep Ex.gN).getCoefs 2 = none ∧
      (B.baseRep Ex.gN).components = none ∧
      ((B.baseRep Ex.gN).projBases [Mv.ofExpr (bladeE [])]).eq Ex.gN
        (B.projBases [Mv.ofExpr (bladeE [])]) = false := by
  decide +kernel

/-- C66: equal multivectors (in blade representation) have equal hashes, whatever the hash functions of
expressions and of pairs are. -/
theorem C66_hash_partial (hs : g.IsSymm) {A B : Mv R n} (hA : A.WF g) (hB : B.WF g)
    (hb : A.isBladeRep = true) (hb' : B.isBladeRep = true) (h : A.eq g B = true)
    (hashObj hashPair : Multiset (R × Sym n) → ℤ) :
    A.hash g hashObj hashPair = B.hash g hashObj hashPair := by
  have e := (eq_spec hs hA hB).mp h
  have rA := Rep.of_wf hA hb
  have rB := (Rep.of_wf hB hb').congr e.symm
  rw [Mv.hash, Mv.hash, isScalar_congr hs rA rB, Multiset.coe_eq_coe.mpr (perm_of_val rA rB)]

/-- C66: a multivector that equals a plain scalar has the hash of that scalar, and a multivector equals
the scalar `c` exactly when it stands for `c`. -/
theorem C66_scalar (hs : g.IsSymm) {A : Mv R n} (hA : A.WF g) (c : R)
    (hashObj hashPair : Multiset (R × Sym n) → ℤ) :
    (A.eqScalar g c = true ↔ A.val g = algebraMap R _ c) ∧
      (A.eqScalar g c = true → A.hash g hashObj hashPair = hashObj (expand (scalarE c) : Expr R n)) := by
  have hr := Rep.scalarMv (g := g) c
  constructor
  · rw [Mv.eqScalar, Bool.and_eq_true, decide_eq_true_eq]
    constructor
    · rintro ⟨-, h⟩
      rw [Mv.val, h, den_expand, den_scalarE]
    · intro h
      have h1 : A.isScalar g = true := (isScalar_iff hs hA).mpr ⟨c, h⟩
      refine ⟨h1, ?_⟩
      have h2 := len_zero_of_scalar hA fun r hr => by rw [h, grade_algebraMap g c hr]
      have hv : Valid A.obj := fun u hu => ⟨[], h2 u hu, List.Pairwise.nil⟩
      have rA : Rep g ⟨A.obj, true⟩ (A.val g) := ⟨wf_of_valid hA.canon hv (Or.inl rfl), rfl, rfl⟩
      have hp : A.obj.Perm (expand (scalarE c)) := perm_of_val (rA.congr h) hr
      by_cases h0 : c = 0
      · have e : (expand (scalarE c) : Expr R n) = [] := by
          simp [expand, scalarE, gatherE, addTerm, h0]
        rw [e] at hp ⊢; exact hp.eq_nil
      · have e : (expand (scalarE c) : Expr R n) = [(c, .blade [])] := by
          simp [expand, scalarE, gatherE, addTerm, h0]
        rw [e] at hp ⊢; exact List.perm_singleton.mp hp
  · intro h
    rw [Mv.eqScalar, Bool.and_eq_true, decide_eq_true_eq] at h
    rw [Mv.hash, if_pos h.1, h.2]

/-- C66 is false for multivectors in different representations: they are equal and have different
hashes, if the hash function tells their expressions apart. -/
theorem C66_base_rep_counterexample :
    let B : Mv ℚ 3 := Mv.ofExpr (bladeE [0, 1])
    (B.baseRep Ex.gN).eq Ex.gN B = true ∧
      ∀ hashObj hashPair : Multiset (ℚ × Sym 3) → ℤ, Function.Injective hashPair →
        (B.baseRep Ex.gN).hash Ex.gN hashObj hashPair ≠ B.hash Ex.gN hashObj hashPair := by
  intro B
  refine ⟨by decide +kernel, fun hashObj hashPair hi => ?_⟩
  have h1 : (B.baseRep Ex.gN).isScalar Ex.gN = false := by decide +kernel
  have h2 : B.isScalar Ex.gN = false := by decide +kernel
  rw [Mv.hash, Mv.hash, h1, h2]
  simp only [Bool.false_eq_true, if_false]
  refine fun h => absurd (Multiset.coe_eq_coe.mp (hi h)) ?_
  decide +kernel

example : ((Ex.A.add Ex.gN Ex.F).hash Ex.gN (fun _ => 1) (fun s => s.card)) =
    ((Ex.F.add Ex.gN Ex.A).hash Ex.gN (fun _ => 1) (fun s => s.card)) := by decide +kernel

end GA
