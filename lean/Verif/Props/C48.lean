import Verif.Model.Names
import Verif.Proofs.Dict
import Verif.Proofs.Session
import Verif.Props.C21

/-!
# C48: generic multivectors

`makeNames ss name k = some l` gives the terms of `Ga.mv(name, kind)`: the pairs of the name of the
coefficient symbol and of the basis blade.  `ss` are the super scripts of the basis vectors: the names of
the coordinates, or the subscripts of the basis vectors, or the numbers `1, 2, …`.
-/

set_option linter.unusedSectionVars false
set_option maxRecDepth 10000

namespace GA
variable {n : ℕ}

theorem mapM_eq_some_map {α β : Type*} {f : α → Option β} {h : α → β} {l : List α}
    (hf : ∀ a ∈ l, f a = some (h a)) : l.mapM f = some (l.map h) := by
  induction l with
  | nil => rfl
  | cons a l ih =>
    rw [List.mapM_cons, hf a (by simp), ih fun x hx => hf x (by simp [hx])]
    rfl

/-- The super script of basis vector `i`. -/
def script (ss : List (List Char)) (i : Fin n) : List Char := ss.getD i.val []

theorem script_eq {ss : List (List Char)} {i : Fin n} (h : i.val < ss.length) : script ss i = ss[i.val] := by
  simp [script, List.getD, List.getElem?_eq_getElem h]

/-- The name of the coefficient of the blade with indices `I`. -/
def coefName (ss : List (List Char)) (name : List Char) (I : List (Fin n)) : List Char :=
  addSuperscript name (I.map (script ss)).flatten

theorem bladeSuperScript_eq {ss : List (List Char)} (hss : n ≤ ss.length) (I : List (Fin n)) :
    bladeSuperScript ss I = some (I.map (script ss)).flatten := by
  rw [bladeSuperScript, mapM_eq_some_map (h := script ss)]
  · rfl
  · intro i _
    have : i.val < ss.length := by omega
    rw [script_eq this, List.getElem?_eq_getElem this]

theorem makeGradeNames_eq {ss : List (List Char)} (hss : n ≤ ss.length) (name : List Char) {r : ℕ}
    (hr : r ≤ n) : makeGradeNames (n := n) ss name r =
      some ((combinations r (List.finRange n)).map fun I => (coefName ss name I, .blade I)) := by
  have h1 : (indexes n)[r]? = some (combinations r (List.finRange n)) := by
    rw [indexes, List.getElem?_map, List.getElem?_range (by omega)]; rfl
  have h2 : (blades n)[r]? = some ((combinations r (List.finRange n)).map mkBlade) := by
    rw [blades, List.getElem?_map, h1]; rfl
  rw [makeGradeNames, h1, Option.bind_some, h2, Option.bind_some,
    mapM_eq_some_map fun I _ => bladeSuperScript_eq hss I, Option.map_some, List.map_map,
    List.zip_map']
  rfl

theorem makeNames_eq {ss : List (List Char)} (hss : n ≤ ss.length) (name : List Char) {k : Kind}
    (hk : ∀ r ∈ k.gradeList n, r ≤ n) : makeNames (n := n) ss name k =
      some (((k.gradeList n).flatMap fun r => combinations r (List.finRange n)).map
        fun I => (coefName ss name I, .blade I)) := by
  rw [makeNames, mapM_eq_some_map fun r hr => makeGradeNames_eq hss name (hk r hr), Option.map_some,
    ← List.flatMap_def, List.map_flatMap]

theorem gradeList_nodup (k : Kind) : (k.gradeList n).Nodup := by
  cases k with
  | mv => exact List.nodup_range
  | even => exact List.nodup_range.filter _
  | odd => exact List.nodup_range.filter _
  | _ => simp [Kind.gradeList]

theorem mem_kindIndexes {k : Kind} {I : List (Fin n)} :
    I ∈ ((k.gradeList n).flatMap fun r => combinations r (List.finRange n)) ↔
      I.Pairwise (· < ·) ∧ I.length ∈ k.gradeList n := by
  rw [List.mem_flatMap]
  constructor
  · rintro ⟨r, hr, hI⟩
    obtain ⟨h1, h2⟩ := mem_combinations.mp hI
    exact ⟨sublist_finRange_iff.mp h1, h2 ▸ hr⟩
  · rintro ⟨h1, h2⟩
    exact ⟨_, h2, mem_combinations.mpr ⟨sublist_finRange_iff.mpr h1, rfl⟩⟩

theorem nodup_kindIndexes (k : Kind) :
    ((k.gradeList n).flatMap fun r => combinations r (List.finRange n)).Nodup := by
  rw [List.nodup_flatMap]
  refine ⟨fun r _ => nodup_combinations r (List.nodup_finRange n), ?_⟩
  refine (gradeList_nodup k).imp ?_
  intro a b hab I ha hb
  exact hab ((mem_combinations.mp ha).2.symm.trans (mem_combinations.mp hb).2)

/-- C48: which grades a kind contains. -/
theorem C48_grades (r : ℕ) :
    (r ∈ Kind.scalar.gradeList n ↔ r = 0) ∧ (r ∈ Kind.vector.gradeList n ↔ r = 1) ∧
    (r ∈ Kind.bivector.gradeList n ↔ r = 2) ∧ (r ∈ Kind.pseudo.gradeList n ↔ r = n) ∧
    (∀ s, r ∈ (Kind.grade s).gradeList n ↔ r = s) ∧ (r ∈ Kind.mv.gradeList n ↔ r ≤ n) ∧
    (r ∈ Kind.even.gradeList n ↔ r ≤ n ∧ Even r) ∧ (r ∈ Kind.odd.gradeList n ↔ r ≤ n ∧ Odd r) := by
  simp only [Kind.gradeList, List.mem_singleton, List.mem_range, List.mem_filter, decide_eq_true_eq,
    Nat.even_iff, Nat.odd_iff, Nat.lt_succ_iff, implies_true, and_self]

/-- C48: a generic multivector has one term for every basis blade of its grades, and the name of its
coefficient is the name of the multivector followed by the super scripts. -/
theorem C48_terms {ss : List (List Char)} (hss : n ≤ ss.length) (name : List Char) {k : Kind}
    (hk : ∀ r ∈ k.gradeList n, r ≤ n) :
    ∃ l : List (List Char × Sym n), makeNames ss name k = some l ∧ (l.map Prod.snd).Nodup ∧
      ∀ x s, (x, s) ∈ l ↔ ∃ I : List (Fin n), s = .blade I ∧ I.Pairwise (· < ·) ∧
        I.length ∈ k.gradeList n ∧
        x = addSuperscript name (I.map (script ss)).flatten := by
  refine ⟨_, makeNames_eq hss name hk, ?_, ?_⟩
  · rw [List.map_map]
    exact (nodup_kindIndexes k).map fun I J h => by simpa using h
  · intro x s
    rw [List.mem_map]
    constructor
    · rintro ⟨I, hI, h⟩
      obtain ⟨rfl, rfl⟩ := Prod.mk.inj h
      exact ⟨I, rfl, (mem_kindIndexes.mp hI).1, (mem_kindIndexes.mp hI).2, rfl⟩
    · rintro ⟨I, rfl, h1, h2, rfl⟩
      exact ⟨I, mem_kindIndexes.mpr ⟨h1, h2⟩, rfl⟩

/-- C48: a grade larger than the dimension is an `IndexError`. -/
theorem C48_grade_too_large {ss : List (List Char)} (name : List Char) {k : Kind} {r : ℕ}
    (hr : r ∈ k.gradeList n) (hn : n < r) : makeNames (n := n) ss name k = none := by
  have h : ∀ l : List ℕ, r ∈ l → l.mapM (makeGradeNames (n := n) ss name) = none := by
    intro l
    induction l with
    | nil => simp
    | cons a l ih =>
      intro h
      rw [List.mapM_cons]
      rcases List.mem_cons.mp h with rfl | h
      · have : (indexes n)[r]? = none := by simp [indexes]; omega
        rw [makeGradeNames, this]; rfl
      · rw [ih h]
        cases makeGradeNames (n := n) ss name a <;> rfl
  rw [makeNames, h _ hr]; rfl

theorem addSuperscript_inj {name a b : List Char} (h : addSuperscript name a = addSuperscript name b) :
    a = b := by
  have key : ∀ a : List Char, (addSuperscript name a).length =
      if a = [] then name.length else name.length + 2 + a.length := by
    intro a; rw [addSuperscript]; split_ifs <;> simp; omega
  have hl := congrArg List.length h
  rw [key, key] at hl
  by_cases ha : a = []
  · by_cases hb : b = []
    · rw [ha, hb]
    · rw [if_pos ha, if_neg hb] at hl; omega
  · by_cases hb : b = []
    · rw [if_neg ha, if_pos hb] at hl; omega
    · rw [addSuperscript, addSuperscript, if_neg ha, if_neg hb] at h
      exact List.append_cancel_left h

theorem coefName_inj {ss : List (List Char)} {name : List Char} {I J : List (Fin n)} :
    coefName ss name I = coefName ss name J ↔
      (I.map (script ss)).flatten = (J.map (script ss)).flatten :=
  ⟨addSuperscript_inj, fun h => by rw [coefName, coefName, h]⟩

/-- C48: exactly when the coefficient symbols are all different. -/
theorem C48_distinct_iff {ss : List (List Char)} (hss : n ≤ ss.length) (name : List Char) {k : Kind}
    (hk : ∀ r ∈ k.gradeList n, r ≤ n) {l : List (List Char × Sym n)}
    (hl : makeNames ss name k = some l) :
    (l.map Prod.fst).Nodup ↔ ∀ I J : List (Fin n), I.Pairwise (· < ·) → J.Pairwise (· < ·) →
      I.length ∈ k.gradeList n → J.length ∈ k.gradeList n →
      (I.map (script ss)).flatten = (J.map (script ss)).flatten → I = J := by
  rw [makeNames_eq hss name hk] at hl
  obtain rfl := Option.some.inj hl
  rw [List.map_map]
  constructor
  · intro h I J hI hJ hI' hJ' e
    exact List.inj_on_of_nodup_map h (mem_kindIndexes.mpr ⟨hI, hI'⟩) (mem_kindIndexes.mpr ⟨hJ, hJ'⟩)
      (coefName_inj.mpr e)
  · intro h
    refine (nodup_kindIndexes k).map_on fun I hI J hJ e => ?_
    obtain ⟨h1, h2⟩ := mem_kindIndexes.mp hI
    obtain ⟨h3, h4⟩ := mem_kindIndexes.mp hJ
    exact h I J h1 h3 h2 h4 (coefName_inj.mp e)

/-- No super script is empty or begins another one. -/
def PrefixFree (n : ℕ) (ss : List (List Char)) : Prop :=
  (∀ i : Fin n, script ss i ≠ []) ∧
    ∀ i j : Fin n, script ss i <+: script ss j → i = j

theorem PrefixFree.inj {ss : List (List Char)} (h : PrefixFree n ss) : ∀ {I J : List (Fin n)},
    (I.map (script ss)).flatten = (J.map (script ss)).flatten → I = J
  | [], [], _ => rfl
  | [], j :: J, e => by
    simp only [List.map_nil, List.flatten_nil, List.map_cons, List.flatten_cons] at e
    exact absurd (List.append_eq_nil_iff.mp e.symm).1 (h.1 j)
  | i :: I, [], e => by
    simp only [List.map_nil, List.flatten_nil, List.map_cons, List.flatten_cons] at e
    exact absurd (List.append_eq_nil_iff.mp e).1 (h.1 i)
  | i :: I, j :: J, e => by
    simp only [List.map_cons, List.flatten_cons] at e
    have hij : i = j := by
      have h1 : script ss i <+: script ss j ++ (J.map (script ss)).flatten :=
        e ▸ List.prefix_append _ _
      have h2 : script ss j <+: script ss j ++ (J.map (script ss)).flatten :=
        List.prefix_append _ _
      rcases List.prefix_or_prefix_of_prefix h1 h2 with h3 | h3
      · exact h.2 i j h3
      · exact (h.2 j i h3).symm
    subst hij
    rw [h.inj (List.append_cancel_left e)]

/-- C48: with prefix-free super scripts every blade has its own coefficient symbol.  Missing for the
full claim: other super scripts, for which it is false (`C48_collision_counterexample`). -/
theorem C48_distinct_partial {ss : List (List Char)} (hss : n ≤ ss.length) (hp : PrefixFree n ss)
    (name : List Char) {k : Kind} (hk : ∀ r ∈ k.gradeList n, r ≤ n) {l : List (List Char × Sym n)}
    (hl : makeNames ss name k = some l) : (l.map Prod.fst).Nodup :=
  (C48_distinct_iff hss name hk hl).mpr fun _ _ _ _ _ _ e => hp.inj e

/-- C48: different super scripts of the same length (e.g. one-letter coordinates) are prefix-free. -/
theorem C48_equal_length {ss : List (List Char)} (hss : n ≤ ss.length) {k : ℕ} (hk : 0 < k)
    (hl : ∀ s ∈ ss, s.length = k) (hn : ss.Nodup) : PrefixFree n ss := by
  have hm : ∀ i : Fin n, script ss i ∈ ss := by
    intro i
    have : i.val < ss.length := by omega
    rw [script_eq this]
    exact List.getElem_mem this
  refine ⟨fun i h => ?_, fun i j h => ?_⟩
  · have := hl _ (hm i)
    rw [h] at this
    simp at this
    omega
  · have e := h.eq_of_length ((hl _ (hm i)).trans (hl _ (hm j)).symm)
    have h1 : i.val < ss.length := by omega
    have h2 : j.val < ss.length := by omega
    rw [script_eq h1, script_eq h2] at e
    exact Fin.ext ((List.Nodup.getElem_inj_iff hn).mp e)

/-- C48: basis vectors without subscripts and coordinates, up to nine of them: the super scripts
`1, …, 9` are prefix-free. -/
theorem C48_default_numbers {basis : List (List Char)} (hb : ∀ b ∈ basis, '_' ∉ b)
    (hn : basis.length ≤ 9) : basis.length = (basisSuperScripts basis none).length ∧
      PrefixFree basis.length (basisSuperScripts basis none) := by
  have e : basisSuperScripts basis none = (List.range basis.length).map fun i => strNat (i + 1) := by
    cases basis with
    | nil => rfl
    | cons b bs =>
      rw [basisSuperScripts]
      rw [if_neg (hb b (by simp))]
  have h9 : ∀ i : Fin 9, (strNat (i.val + 1)).length = 1 := by decide
  have hinj : ∀ i j : Fin 9, strNat (i.val + 1) = strNat (j.val + 1) → i = j := by decide
  have hlen : basis.length = (basisSuperScripts basis none).length := by rw [e]; simp
  refine ⟨hlen, C48_equal_length hlen.le one_pos ?_ ?_⟩
  · intro s hs
    rw [e, List.mem_map] at hs
    obtain ⟨i, hi, rfl⟩ := hs
    rw [List.mem_range] at hi
    exact h9 ⟨i, by omega⟩
  · rw [e]
    refine List.nodup_range.map_on fun i hi j hj h => ?_
    rw [List.mem_range] at hi hj
    exact Fin.mk.inj_iff.mp (hinj ⟨i, by omega⟩ ⟨j, by omega⟩ h)

/-- C48: a generic multivector is generic: with prefix-free super scripts, every multivector with the
grades of the kind is obtained by giving values to the symbols. -/
theorem C48_generic {R : Type*} [CommRing R] {ss : List (List Char)} (hss : n ≤ ss.length)
    (hp : PrefixFree n ss) (name : List Char) {k : Kind} (hk : ∀ r ∈ k.gradeList n, r ≤ n)
    (c : List (Fin n) → R) : ∃ (val : List Char → R) (E : Expr R n),
      makeGeneric val ss name k = some E ∧ ∀ I : List (Fin n), coeff E I =
        if I.Pairwise (· < ·) ∧ I.length ∈ k.gradeList n then c I else 0 := by
  classical
  refine ⟨fun x => if h : ∃ I : List (Fin n), coefName ss name I = x then c h.choose else 0, _,
    by rw [makeGeneric, makeNames_eq hss name hk]; rfl, fun I => ?_⟩
  dsimp only
  rw [List.map_map, coeff, List.map_map]
  have hval : ∀ I : List (Fin n), (if h : ∃ J : List (Fin n), coefName ss name J = coefName ss name I
      then c h.choose else 0) = c I := by
    intro I
    have h : ∃ J : List (Fin n), coefName ss name J = coefName ss name I := ⟨I, rfl⟩
    rw [dif_pos h, hp.inj (coefName_inj.mp h.choose_spec)]
  have hf : ((fun t : R × Sym n => if t.2 = Sym.blade I then t.1 else 0) ∘
      (fun t : List Char × Sym n => ((if h : ∃ I : List (Fin n), coefName ss name I = t.1
        then c h.choose else 0 : R), t.2)) ∘ fun I => (coefName ss name I, Sym.blade I)) =
      fun J => if J = I then c I else 0 := by
    funext J
    simp only [Function.comp, hval, Sym.blade.injEq]
    split_ifs with h
    · rw [h]
    · rfl
  rw [hf]
  have hsum : ∀ l : List (List (Fin n)), l.Nodup →
      (l.map fun J => if J = I then c I else 0).sum = if I ∈ l then c I else 0 := by
    intro l
    induction l with
    | nil => simp
    | cons a l ih =>
      intro hl
      rw [List.nodup_cons] at hl
      rw [List.map_cons, List.sum_cons, ih hl.2]
      by_cases ha : a = I
      · subst ha; simp [hl.1]
      · simp [ha, Ne.symm ha]
  rw [hsum _ (nodup_kindIndexes k)]
  simp only [mem_kindIndexes]

/-- The hypotheses are met: coordinates `x, y, z`, all kinds up to grade 3. -/
example : PrefixFree 3 [['x'], ['y'], ['z']] ∧ ∀ r ∈ Kind.mv.gradeList 3, r ≤ 3 :=
  ⟨C48_equal_length (k := 1) (by decide) (by decide) (by decide) (by decide), by decide⟩

/-- … and the names of the coefficients. -/
example : makeNames (n := 2) [['x'], ['y']] ['A'] .mv =
    some [(['A'], .blade []), (['A', '_', '_', 'x'], .blade [0]), (['A', '_', '_', 'y'], .blade [1]),
      (['A', '_', '_', 'x', 'y'], .blade [0, 1])] := by decide +kernel

/-- The claim fails for coordinates such as `x, y, xy`: the symbol `A__xy` is the coefficient of two
blades.  With coordinates `a, ab, b, bb` this happens within one grade: `A__abb` is the coefficient of
two blades of the generic bivector. -/
theorem C48_collision_counterexample :
    (∃ l : List (List Char × Sym 3), makeNames [['x'], ['y'], ['x', 'y']] ['A'] .mv = some l ∧
      (['A', '_', '_', 'x', 'y'], .blade [0, 1]) ∈ l ∧ (['A', '_', '_', 'x', 'y'], .blade [2]) ∈ l) ∧
    (∃ l : List (List Char × Sym 4),
      makeNames [['a'], ['a', 'b'], ['b'], ['b', 'b']] ['A'] .bivector = some l ∧
      (['A', '_', '_', 'a', 'b', 'b'], .blade [0, 3]) ∈ l ∧
      (['A', '_', '_', 'a', 'b', 'b'], .blade [1, 2]) ∈ l) := by
  constructor
  · obtain ⟨l, h1, -, h2⟩ := C48_terms (n := 3) (ss := [['x'], ['y'], ['x', 'y']]) (by decide) ['A']
      (k := .mv) (by decide)
    exact ⟨l, h1, (h2 _ _).mpr ⟨[0, 1], rfl, by decide, by decide, rfl⟩,
      (h2 _ _).mpr ⟨[2], rfl, by decide, by decide, rfl⟩⟩
  · obtain ⟨l, h1, -, h2⟩ := C48_terms (n := 4) (ss := [['a'], ['a', 'b'], ['b'], ['b', 'b']])
      (by decide) ['A'] (k := .bivector) (by decide)
    exact ⟨l, h1, (h2 _ _).mpr ⟨[0, 3], rfl, by decide, by decide, rfl⟩,
      (h2 _ _).mpr ⟨[1, 2], rfl, by decide, by decide, rfl⟩⟩

/-- The claim fails for twelve or more basis vectors that are numbered `1, 2, …`: the coefficients of
`e_1^e_2` and of `e_12` have the same name. -/
theorem C48_twelve_counterexample {basis : List (List Char)} (hb : ∀ b ∈ basis, '_' ∉ b)
    (hn : 12 ≤ basis.length) (name : List Char) :
    ∃ (l : List (List Char × Sym basis.length)) (x : List Char),
      makeNames (basisSuperScripts basis none) name .mv = some l ∧
      (x, .blade [⟨0, by omega⟩, ⟨1, by omega⟩]) ∈ l ∧ (x, .blade [⟨11, by omega⟩]) ∈ l := by
  have e : basisSuperScripts basis none = (List.range basis.length).map fun i => strNat (i + 1) := by
    cases basis with
    | nil => rfl
    | cons b bs =>
      rw [basisSuperScripts]
      rw [if_neg (hb b (by simp))]
  obtain ⟨l, h1, -, h2⟩ := C48_terms (n := basis.length) (ss := basisSuperScripts basis none)
    (by rw [e]; simp) name (k := .mv) (by intro r hr; exact ((C48_grades r).2.2.2.2.2.1).mp hr)
  have hg : ∀ i : Fin basis.length, script (basisSuperScripts basis none) i = strNat (i + 1) := by
    intro i
    rw [e, script_eq (by simp)]
    simp
  have h12 : strNat (0 + 1) ++ strNat (1 + 1) = strNat (11 + 1) := by decide
  refine ⟨l, addSuperscript name (strNat (11 + 1)), h1, ?_, ?_⟩
  · refine (h2 _ _).mpr ⟨_, rfl, by simp, ((C48_grades _).2.2.2.2.2.1).mpr ?_, ?_⟩
    · simp; omega
    · simp only [List.map_cons, List.map_nil, List.flatten_cons, List.flatten_nil, List.append_nil]
      rw [hg, hg, h12]
  · refine (h2 _ _).mpr ⟨_, rfl, by simp, ((C48_grades _).2.2.2.2.2.1).mpr ?_, ?_⟩
    · simp; omega
    · simp only [List.map_cons, List.map_nil, List.flatten_cons, List.flatten_nil, List.append_nil]
      rw [hg]

end GA
