import Verif.Model.BladeText
import Verif.Proofs.Dict
import Verif.Proofs.Lt
import Verif.Props.C01
import Verif.Props.C48
import Verif.Props.C56

/-!
# C75: names of basis blades

`bladeText`, `baseText` and `noWedgeText` are the texts of basis blades `e_1^e_2`, bases `e_1*e_2` and
blades without wedges `e_12`; `basesDict` is `Ga.bases_dict`.  `names i` is the name of basis vector `i`.
A blade is given by its strictly increasing list of indices; the empty list is the scalar `1`.
-/

set_option linter.unusedSectionVars false
set_option maxRecDepth 10000

namespace GA
variable {n : ℕ}

theorem joinedText_split {op : Char} {names : Fin n → List Char} (ho : ∀ i, op ∉ names i)
    {I : List (Fin n)} (hI : I ≠ []) : splitOn op (joinedText op names I) = I.map names := by
  match I, hI with
  | [i], _ => exact splitOn_of_not_mem (ho i)
  | i :: j :: I, _ =>
    rw [joinedText]
    · exact splitOn_joinWith (by simp) (by
        intro w hw
        obtain ⟨k, -, rfl⟩ := List.mem_map.mp hw
        exact ho k)
    · simp
    · simp

theorem joinedText_inj {op : Char} {names : Fin n → List Char} (hi : Function.Injective names)
    (ho : ∀ i, op ∉ names i) (h1 : ∀ i, names i ≠ ['1']) (hop : op ≠ '1') :
    Function.Injective (joinedText op names) := by
  have hs : splitOn op ['1'] = [['1']] := splitOn_of_not_mem (by simpa using hop)
  have key : ∀ I : List (Fin n), I ≠ [] → joinedText op names I ≠ ['1'] := by
    intro I hI e
    have := joinedText_split ho hI
    rw [e, hs] at this
    match I, hI with
    | [i], _ => exact h1 i (by simpa using this.symm)
    | i :: j :: I, _ => simp at this
  intro I J h
  by_cases hI : I = []
  · by_cases hJ : J = []
    · rw [hI, hJ]
    · subst hI; exact absurd h.symm (key J hJ)
  · by_cases hJ : J = []
    · subst hJ; exact absurd h (key I hI)
    · have h2 := joinedText_split ho hI
      rw [h, joinedText_split ho hJ] at h2
      exact (List.map_injective_iff.mpr hi) h2.symm

/-- C75: if the basis vectors have different names, none of them `1` or with a `^`, then different
blades have different texts, and splitting the text at `^` gives the names of the basis vectors. -/
theorem C75_wedge {names : Fin n → List Char} (hi : Function.Injective names)
    (ho : ∀ i, '^' ∉ names i) (h1 : ∀ i, names i ≠ ['1']) :
    Function.Injective (bladeText names) ∧ bladeText names [] = ['1'] ∧
      ∀ I ≠ [], splitOn '^' (bladeText names I) = I.map names :=
  ⟨joinedText_inj hi ho h1 (by decide), rfl, fun _ hI => joinedText_split ho hI⟩

/-- C75: the same for the bases `e_1*e_2`. -/
theorem C75_base {names : Fin n → List Char} (hi : Function.Injective names)
    (ho : ∀ i, '*' ∉ names i) (h1 : ∀ i, names i ≠ ['1']) :
    Function.Injective (baseText names) ∧ baseText names [] = ['1'] ∧
      ∀ I ≠ [], splitOn '*' (baseText names I) = I.map names :=
  ⟨joinedText_inj hi ho h1 (by decide), rfl, fun _ hI => joinedText_split ho hI⟩

theorem splitName_iff {s r t : List Char} :
    splitName s = some (r, t) ↔ s = r ++ '_' :: t ∧ '_' ∉ r ∧ '_' ∉ t := by
  constructor
  · intro h
    unfold splitName at h
    split at h
    · rename_i r' t' hs
      simp only [Option.some.injEq, Prod.mk.injEq] at h
      obtain ⟨rfl, rfl⟩ := h
      refine ⟨?_, ?_, ?_⟩
      · have := joinWith_splitOn '_' s
        rw [hs] at this
        exact this.symm
      · intro h; exact mem_splitOn (by rw [hs]; simp) h rfl
      · intro h; exact mem_splitOn (by rw [hs]; simp) h rfl
    · simp at h
  · rintro ⟨rfl, hr, ht⟩
    unfold splitName
    rw [splitOn_append hr, splitOn_of_not_mem ht]

theorem allSame_iff {l : List (List Char)} : allSame l = true ↔ ∃ r, ∀ x ∈ l, x = r := by
  cases l with
  | nil => simp [allSame]
  | cons x l =>
    rw [allSame, List.all_eq_true]
    constructor
    · intro h
      refine ⟨x, ?_⟩
      intro y hy
      rcases List.mem_cons.mp hy with rfl | hy
      · rfl
      · exact eq_of_beq (h y hy)
    · rintro ⟨r, h⟩ y hy
      rw [h y (by simp [hy]), h x (by simp)]
      simp

theorem noWedgeText_long {names : Fin n → List Char} {I : List (Fin n)} (hI : 2 ≤ I.length) :
    noWedgeText names I = (I.mapM fun i => splitName (names i)).bind fun l =>
      if allSame (l.map Prod.fst) then
        some (((l.map Prod.fst).headD []) ++ '_' :: (l.map Prod.snd).flatten)
      else none := by
  match I, hI with
  | i :: j :: I, _ =>
    rw [noWedgeText]
    · rfl
    · simp
    · simp

theorem noWedgeText_eq {names : Fin n → List Char} {root : List Char} {sub : Fin n → List Char}
    {I : List (Fin n)} (h : ∀ i ∈ I, names i = root ++ '_' :: sub i ∧ '_' ∉ root ∧ '_' ∉ sub i)
    (hI : I ≠ []) : noWedgeText names I = some (root ++ '_' :: (I.map sub).flatten) := by
  match I, hI with
  | [i], _ => simp [noWedgeText, (h i (by simp)).1]
  | i :: j :: I, _ =>
    rw [noWedgeText_long (by simp)]
    rw [mapM_eq_some_map (h := fun i => (root, sub i)) (fun i hi => splitName_iff.mpr (h i hi))]
    have : allSame ((List.map (fun i => (root, sub i)) (i :: j :: I)).map Prod.fst) = true :=
      allSame_iff.mpr ⟨root, by simp⟩
    simp only [Option.bind_some]
    rw [if_pos this]
    simp [List.map_map, Function.comp_def]

theorem mapM_eq_some_mem {α β : Type*} {f : α → Option β} {l : List α} {m : List β}
    (h : l.mapM f = some m) : List.Forall₂ (fun a b => f a = some b) l m := by
  induction l generalizing m with
  | nil => simp at h; subst h; exact .nil
  | cons a l ih =>
    rw [List.mapM_cons] at h
    cases ha : f a with
    | none => rw [ha] at h; simp at h
    | some b =>
      cases hl : l.mapM f with
      | none => rw [ha, hl] at h; simp at h
      | some m' =>
        rw [ha, hl] at h
        simp only [Option.bind_eq_bind, Option.bind_some, Option.pure_def, Option.some.injEq] at h
        subst h
        exact .cons ha (ih hl)

/-- C75: a blade of two or more basis vectors can be printed without wedges exactly if the names of its
vectors are a common root, one underscore and a subscript (else `ValueError`). -/
theorem C75_no_wedge_returns_iff (names : Fin n → List Char) {I : List (Fin n)} (hI : 2 ≤ I.length) :
    (∃ s, noWedgeText names I = some s) ↔ ∃ (root : List Char) (sub : Fin n → List Char),
      ∀ i ∈ I, names i = root ++ '_' :: sub i ∧ '_' ∉ root ∧ '_' ∉ sub i := by
  constructor
  · rintro ⟨s, h⟩
    rw [noWedgeText_long hI] at h
    cases hm : I.mapM fun i => splitName (names i) with
    | none => rw [hm] at h; simp at h
    | some m =>
      rw [hm] at h
      simp only [Option.bind_some] at h
      split_ifs at h with hs
      obtain ⟨r, hr⟩ := allSame_iff.mp hs
      have hf := mapM_eq_some_mem hm
      refine ⟨r, fun i => ((splitName (names i)).getD ([], [])).2, ?_⟩
      have : ∀ i ∈ I, ∃ p ∈ m, splitName (names i) = some p := by
        clear hm hs h hr hI
        induction hf with
        | nil => simp
        | cons hab _ ih =>
          intro i hi
          rcases List.mem_cons.mp hi with rfl | hi
          · exact ⟨_, by simp, hab⟩
          · obtain ⟨p, hp, e⟩ := ih i hi
            exact ⟨p, by simp [hp], e⟩
      intro i hi
      obtain ⟨p, hp, e⟩ := this i hi
      have h1 : p.1 = r := hr _ (List.mem_map.mpr ⟨p, hp, rfl⟩)
      simp only [e, Option.getD_some]
      rw [← h1]
      exact splitName_iff.mp e
  · rintro ⟨root, sub, h⟩
    refine ⟨_, noWedgeText_eq h ?_⟩
    rintro rfl
    simp at hI

/-- No value is empty or begins another one. -/
def IsPrefixCode (f : Fin n → List Char) : Prop :=
  (∀ i, f i ≠ []) ∧ ∀ i j, f i <+: f j → i = j

theorem IsPrefixCode.inj {f : Fin n → List Char} (h : IsPrefixCode f) {I J : List (Fin n)}
    (e : (I.map f).flatten = (J.map f).flatten) : I = J := by
  have hs : ∀ i : Fin n, script (List.ofFn f) i = f i := by
    intro i
    rw [script_eq (by simp)]
    simp
  have hp : PrefixFree n (List.ofFn f) := by
    refine ⟨fun i => ?_, fun i j => ?_⟩
    · rw [hs]; exact h.1 i
    · rw [hs, hs]; exact h.2 i j
  refine hp.inj ?_
  have : script (n := n) (List.ofFn f) = f := funext hs
  rw [this]
  exact e

/-- C75: with a common root, and subscripts none of which begins another one, all blades are printed
without wedges, as the root, an underscore and the joined subscripts, and different blades have
different texts.  Missing for the full claim: other subscripts, for which it is false
(`C75_twelve_counterexample`). -/
theorem C75_no_wedge_partial {names : Fin n → List Char} {root : List Char} {sub : Fin n → List Char}
    (h : ∀ i, names i = root ++ '_' :: sub i ∧ '_' ∉ root ∧ '_' ∉ sub i) (hp : IsPrefixCode sub) :
    noWedgeText names [] = some ['1'] ∧
    (∀ I ≠ [], noWedgeText names I = some (root ++ '_' :: (I.map sub).flatten)) ∧
    Function.Injective (noWedgeText names) := by
  have h2 : ∀ I ≠ [], noWedgeText names I = some (root ++ '_' :: (I.map sub).flatten) :=
    fun I hI => noWedgeText_eq (fun i _ => h i) hI
  have key : ∀ I ≠ [], noWedgeText names I ≠ some ['1'] := by
    intro I hI e
    rw [h2 I hI, Option.some.injEq] at e
    have : '_' ∈ ['1'] := by rw [← e]; simp
    simp at this
  refine ⟨rfl, h2, fun I J e => ?_⟩
  by_cases hI : I = []
  · by_cases hJ : J = []
    · rw [hI, hJ]
    · subst hI; exact absurd e.symm (key J hJ)
  · by_cases hJ : J = []
    · subst hJ; exact absurd e (key I hI)
    · rw [h2 I hI, h2 J hJ, Option.some.injEq] at e
      have := List.append_cancel_left e
      exact hp.inj (List.cons.inj this).2

/-- The name of a blade in `bases_dict`: the prefix and the digits of the names of its vectors. -/
def dictName (pfx : List Char) (names : Fin n → List Char) (I : List (Fin n)) : List Char :=
  pfx ++ (I.map fun i => (names i).filter Char.isDigit).flatten

theorem filter_joinWith {op : Char} (hop : op.isDigit = false) : ∀ l : List (List Char),
    (joinWith op l).filter Char.isDigit = (l.map fun w => w.filter Char.isDigit).flatten
  | [] => rfl
  | [w] => by simp [joinWith]
  | w :: w' :: l => by
    rw [joinWith, List.filter_append, List.filter_cons_of_neg (by simp [hop]),
      filter_joinWith hop (w' :: l)]
    · simp
    · simp

theorem filter_bladeText (names : Fin n → List Char) {I : List (Fin n)} (hI : I ≠ []) :
    (bladeText names I).filter Char.isDigit = (I.map fun i => (names i).filter Char.isDigit).flatten := by
  match I, hI with
  | [i], _ => simp [bladeText, joinedText]
  | i :: j :: I, _ =>
    rw [bladeText, joinedText]
    · rw [filter_joinWith (by decide), List.map_map]
      rfl
    · simp
    · simp

theorem flat_indexes_cons (n : ℕ) : ∃ l, flat (indexes n) = [] :: l ∧ [] ∉ l ∧ l.length = 2 ^ n - 1 ∧
    l.Nodup ∧ ∀ I : List (Fin n), I ∈ l ↔ I ≠ [] ∧ I.Pairwise (· < ·) := by
  have hnd := nodup_flat_indexes n
  have hlen := (C01_blades_flat n).2.1
  rw [flat_blades, List.length_map] at hlen
  have h0 : ∃ l, flat (indexes n) = [] :: l := by
    rw [flat, indexes, List.range_succ_eq_map, List.map_cons, List.flatten_cons, combinations]
    exact ⟨_, rfl⟩
  obtain ⟨l, hl⟩ := h0
  rw [hl] at hnd hlen
  rw [List.nodup_cons] at hnd
  refine ⟨l, hl, hnd.1, ?_, hnd.2, fun I => ?_⟩
  · rw [List.length_cons] at hlen; omega
  · have := mem_flat_indexes (n := n) (l := I)
    rw [hl, List.mem_cons] at this
    constructor
    · intro h
      exact ⟨fun e => hnd.1 (e ▸ h), this.mp (Or.inr h)⟩
    · rintro ⟨h1, h2⟩
      exact (this.mpr h2).resolve_left h1

theorem dictGet_foldl_mem {K V : Type*} [DecidableEq K] (items : List (K × V)) (d : Dict K V) {k : K} {v : V}
    (h : Dict.get? (items.foldl (fun d kv => Dict.set d kv.1 kv.2) d) k = some v) :
    (k, v) ∈ items ∨ Dict.get? d k = some v := by
  induction items generalizing d with
  | nil => exact Or.inr h
  | cons kv items ih =>
    rw [List.foldl_cons] at h
    rcases ih _ h with h | h
    · exact Or.inl (by simp [h])
    · rw [Dict.get?_set] at h
      split_ifs at h with hk
      · left
        simp only [Option.some.injEq] at h
        subst h hk
        simp
      · exact Or.inr h

theorem basesDict_eq {wedge : Bool} {names : Fin n → List Char} {pfx : List Char}
    {key : List (Fin n) → List Char}
    (h : ∀ I ≠ [], I.Pairwise (· < ·) →
      ∃ s, symText wedge names I = some s ∧ pfx ++ s.filter Char.isDigit = key I) :
    basesDict wedge names pfx =
      some (Dict.ofItems ((flat (indexes n)).tail.map fun I => (key I, I))) := by
  obtain ⟨l, hl, -, -, -, hm⟩ := flat_indexes_cons n
  unfold basesDict
  rw [hl]
  simp only [List.tail_cons]
  rw [mapM_eq_some_map (h := key)]
  · simp only [Option.bind_eq_bind, Option.bind_some, Option.pure_def, Option.some.injEq]
    congr 1
    clear hm hl
    induction l with
    | nil => rfl
    | cons a l ih => simp [ih]
  · intro I hI
    obtain ⟨h1, h2⟩ := (hm I).mp hI
    obtain ⟨s, hs, hk⟩ := h I h1 h2
    rw [hs]
    simp [hk]

theorem basesDict_spec {wedge : Bool} {names : Fin n → List Char} {pfx : List Char}
    {key : List (Fin n) → List Char}
    (h : ∀ I ≠ [], I.Pairwise (· < ·) →
      ∃ s, symText wedge names I = some s ∧ pfx ++ s.filter Char.isDigit = key I) :
    ∃ d, basesDict wedge names pfx = some d ∧
      (∀ k I, d.get? k = some I → I ≠ [] ∧ I.Pairwise (· < ·) ∧ k = key I) ∧
      ((∀ I ≠ [], I.Pairwise (· < ·) → d.get? (key I) = some I) ↔
        ∀ I J, I ≠ [] → J ≠ [] → I.Pairwise (· < ·) → J.Pairwise (· < ·) → key I = key J → I = J) ∧
      ((∀ I J, I ≠ [] → J ≠ [] → I.Pairwise (· < ·) → J.Pairwise (· < ·) → key I = key J → I = J) →
        d.length = 2 ^ n - 1) := by
  obtain ⟨l, hl, -, hlen, hnd, hm⟩ := flat_indexes_cons n
  refine ⟨_, basesDict_eq h, ?_, ?_, ?_⟩
  · intro k I hk
    rw [hl, Dict.ofItems] at hk
    rcases dictGet_foldl_mem _ _ hk with h1 | h1
    · obtain ⟨J, hJ, e⟩ := List.mem_map.mp h1
      simp only [Prod.mk.injEq] at e
      obtain ⟨rfl, rfl⟩ := e
      exact ⟨((hm J).mp hJ).1, ((hm J).mp hJ).2, rfl⟩
    · simp [Dict.get?] at h1
  · constructor
    · intro hg I J h1 h2 h3 h4 e
      have := hg I h1 h3
      rw [e, hg J h2 h4, Option.some.injEq] at this
      exact this.symm
    · intro hinj I h1 h2
      rw [hl, List.tail_cons, Dict.get?_ofItems]
      · exact List.mem_map.mpr ⟨I, (hm I).mpr ⟨h1, h2⟩, rfl⟩
      · rw [List.map_map]
        refine hnd.map_on fun A hA B hB e => ?_
        obtain ⟨a1, a2⟩ := (hm A).mp hA
        obtain ⟨b1, b2⟩ := (hm B).mp hB
        exact hinj A B a1 b1 a2 b2 e
  · intro hinj
    rw [hl, List.tail_cons, Dict.ofItems_nodup]
    · rw [List.length_map, hlen]
    · rw [List.map_map]
      refine hnd.map_on fun A hA B hB e => ?_
      obtain ⟨a1, a2⟩ := (hm A).mp hA
      obtain ⟨b1, b2⟩ := (hm B).mp hB
      exact hinj A B a1 b1 a2 b2 e

theorem symText_key (names : Fin n → List Char) (pfx : List Char) : ∀ I ≠ [], I.Pairwise (· < ·) →
    ∃ s, symText true names I = some s ∧ pfx ++ s.filter Char.isDigit = dictName pfx names I :=
  fun I hI _ => ⟨bladeText names I, rfl, by rw [filter_bladeText names hI]; rfl⟩

/-- C75: `bases_dict` with wedges always returns; each entry is a blade other than the scalar, under its
own name; and every blade is found under its name exactly if the names are different. -/
theorem C75_bases_dict_iff (names : Fin n → List Char) (pfx : List Char) :
    ∃ d, basesDict true names pfx = some d ∧
      (∀ k I, d.get? k = some I → I ≠ [] ∧ I.Pairwise (· < ·) ∧ k = dictName pfx names I) ∧
      ((∀ I ≠ [], I.Pairwise (· < ·) → d.get? (dictName pfx names I) = some I) ↔
        ∀ I J, I ≠ [] → J ≠ [] → I.Pairwise (· < ·) → J.Pairwise (· < ·) →
          dictName pfx names I = dictName pfx names J → I = J) := by
  obtain ⟨d, h1, h2, h3, -⟩ := basesDict_spec (symText_key names pfx)
  exact ⟨d, h1, h2, h3⟩

/-- C75: if the digits in the name of no basis vector begin (or equal) those of another one, and no name
is without digits, then `bases_dict` has all `2^n - 1` blades, each under its name.  Missing for the full
claim: other names, for which it is false (`C75_twelve_counterexample`, `C75_letters_counterexample`). -/
theorem C75_bases_dict_partial {names : Fin n → List Char} (pfx : List Char)
    (hp : IsPrefixCode fun i => (names i).filter Char.isDigit) :
    ∃ d, basesDict true names pfx = some d ∧ d.length = 2 ^ n - 1 ∧
      ∀ I ≠ [], I.Pairwise (· < ·) → d.get? (dictName pfx names I) = some I := by
  obtain ⟨d, h1, -, h3, h4⟩ := basesDict_spec (symText_key names pfx)
  have hinj : ∀ I J : List (Fin n), I ≠ [] → J ≠ [] → I.Pairwise (· < ·) → J.Pairwise (· < ·) →
      dictName pfx names I = dictName pfx names J → I = J :=
    fun I J _ _ _ _ e => hp.inj (List.append_cancel_left e)
  exact ⟨d, h1, h4 hinj, h3.mpr hinj⟩

/-- C75: without wedges and with two or more basis vectors, `bases_dict` returns exactly if the names of
the basis vectors are a common root, one underscore and a subscript. -/
theorem C75_bases_dict_no_wedge_iff (names : Fin n → List Char) (pfx : List Char) (hn : 2 ≤ n) :
    (∃ d, basesDict false names pfx = some d) ↔ ∃ (root : List Char) (sub : Fin n → List Char),
      ∀ i, names i = root ++ '_' :: sub i ∧ '_' ∉ root ∧ '_' ∉ sub i := by
  constructor
  · rintro ⟨d, h⟩
    unfold basesDict at h
    cases hm : (flat (indexes n)).tail.mapM fun I => do
        let s ← symText false names I
        return pfx ++ s.filter Char.isDigit with
    | none => simp only [hm] at h; simp at h
    | some m =>
      have hf := mapM_eq_some_mem hm
      obtain ⟨l, hl, -, -, -, hmem⟩ := flat_indexes_cons n
      rw [hl, List.tail_cons] at hf
      have hI : List.finRange n ∈ l := by
        rw [hmem]
        refine ⟨?_, List.pairwise_lt_finRange n⟩
        intro e
        have := congrArg List.length e
        simp at this
        omega
      have : ∀ I ∈ l, ∃ s, symText false names I = some s := by
        clear hm h hl hmem hI
        induction hf with
        | nil => simp
        | cons hab _ ih =>
          intro I hI
          rcases List.mem_cons.mp hI with rfl | hI
          · cases hs : symText false names I with
            | none => rw [hs] at hab; simp at hab
            | some s => exact ⟨s, rfl⟩
          · exact ih I hI
      obtain ⟨s, hs⟩ := this _ hI
      rw [symText, if_neg (by simp)] at hs
      obtain ⟨r, sub, hr⟩ := (C75_no_wedge_returns_iff names (by simpa using hn)).mp ⟨s, hs⟩
      exact ⟨r, sub, fun i => hr i (List.mem_finRange i)⟩
  · rintro ⟨r, sub, h⟩
    refine ⟨_, basesDict_eq (key := fun I =>
      pfx ++ (r ++ '_' :: (I.map sub).flatten).filter Char.isDigit) fun I hI _ => ?_⟩
    exact ⟨_, noWedgeText_eq (fun i _ => h i) hI, rfl⟩

/-- C75: … and it has all `2^n - 1` blades, each under the prefix, the digits of the root and the digits
of the subscripts, if the digits of no subscript begin those of another one. -/
theorem C75_bases_dict_no_wedge_partial {names : Fin n → List Char} {root : List Char}
    {sub : Fin n → List Char} (pfx : List Char)
    (h : ∀ i, names i = root ++ '_' :: sub i ∧ '_' ∉ root ∧ '_' ∉ sub i)
    (hp : IsPrefixCode fun i => (sub i).filter Char.isDigit) :
    ∃ d, basesDict false names pfx = some d ∧ d.length = 2 ^ n - 1 ∧
      ∀ I ≠ [], I.Pairwise (· < ·) →
        d.get? (dictName (pfx ++ root.filter Char.isDigit) sub I) = some I := by
  have hk : ∀ I ≠ [], I.Pairwise (· < ·) → ∃ s, symText false names I = some s ∧
      pfx ++ s.filter Char.isDigit = dictName (pfx ++ root.filter Char.isDigit) sub I := by
    intro I hI _
    refine ⟨_, noWedgeText_eq (fun i _ => h i) hI, ?_⟩
    rw [List.filter_append, List.filter_cons_of_neg (by decide), List.filter_flatten, List.map_map,
      dictName, List.append_assoc]
    rfl
  obtain ⟨d, h1, -, h3, h4⟩ := basesDict_spec hk
  have hinj : ∀ I J : List (Fin n), I ≠ [] → J ≠ [] → I.Pairwise (· < ·) → J.Pairwise (· < ·) →
      dictName (pfx ++ root.filter Char.isDigit) sub I =
        dictName (pfx ++ root.filter Char.isDigit) sub J → I = J :=
    fun I J _ _ _ _ e => hp.inj (List.append_cancel_left e)
  exact ⟨d, h1, h4 hinj, h3.mpr hinj⟩

/-- The names `e_1, e_2, …, e_n`, as `Ga('e*1|2|…')` gives them. -/
def numberNames (n : ℕ) (i : Fin n) : List Char := 'e' :: '_' :: strNat (i.val + 1)

theorem filter_strNat (i : ℕ) : (strNat i).filter Char.isDigit = strNat i :=
  List.filter_eq_self.mpr fun _ hc => isDigit_strNat hc

/-- C75: up to nine basis vectors `e_1, e_2, …` meet the hypotheses of all theorems above. -/
theorem C75_numbered (hn : n ≤ 9) :
    Function.Injective (numberNames n) ∧ (∀ i, '^' ∉ numberNames n i ∧ '*' ∉ numberNames n i) ∧
    (∀ i, numberNames n i ≠ ['1']) ∧ IsPrefixCode (fun i : Fin n => strNat (i.val + 1)) ∧
    (∀ i, (numberNames n i).filter Char.isDigit = strNat (i.val + 1)) ∧
    ∀ i, numberNames n i = ['e'] ++ '_' :: strNat (i.val + 1) ∧ '_' ∉ ['e'] ∧
      '_' ∉ strNat (i.val + 1) := by
  have h9 : ∀ i : Fin 9, (strNat (i.val + 1)).length = 1 := by decide
  refine ⟨?_, ?_, ?_, ?_, ?_, ?_⟩
  · intro i j e
    simp only [numberNames, List.cons.injEq, true_and] at e
    have := strNat_inj e
    exact Fin.ext (by omega)
  · intro i
    simp only [numberNames, List.mem_cons, not_or]
    exact ⟨⟨by decide, by decide, not_mem_strNat (by decide) _⟩,
      by decide, by decide, not_mem_strNat (by decide) _⟩
  · intro i
    simp [numberNames]
  · refine ⟨fun i => strNat_ne_nil _, fun i j h => ?_⟩
    have e := h.eq_of_length ((h9 ⟨i, by omega⟩).trans (h9 ⟨j, by omega⟩).symm)
    have := strNat_inj e
    exact Fin.ext (by omega)
  · intro i
    rw [numberNames, List.filter_cons_of_neg (by decide), List.filter_cons_of_neg (by decide),
      filter_strNat]
  · intro i
    exact ⟨rfl, by decide, not_mem_strNat (by decide) _⟩

/-- The texts for three basis vectors, and the dictionary. -/
example : bladeText (numberNames 3) [0, 2] = "e_1^e_3".toList ∧
    baseText (numberNames 3) [0, 2] = "e_1*e_3".toList ∧
    noWedgeText (numberNames 3) [0, 2] = some "e_13".toList ∧
    basesDict true (numberNames 3) = some [("e1".toList, [0]), ("e2".toList, [1]), ("e3".toList, [2]),
      ("e12".toList, [0, 1]), ("e13".toList, [0, 2]), ("e23".toList, [1, 2]),
      ("e123".toList, [0, 1, 2])] := by decide +kernel

/-- The claim fails for twelve or more basis vectors `e_1, e_2, …`: without wedges `e_1^e_2` is printed
as `e_12`, like the twelfth basis vector, and `bases_dict` does not give every blade. -/
theorem C75_twelve_counterexample (hn : 12 ≤ n) (pfx : List Char) :
    noWedgeText (numberNames n) [⟨0, by omega⟩, ⟨1, by omega⟩] =
      noWedgeText (numberNames n) [⟨11, by omega⟩] ∧
    (∀ d, basesDict true (numberNames n) pfx = some d →
      ¬ ∀ I ≠ [], I.Pairwise (· < ·) → d.get? (dictName pfx (numberNames n) I) = some I) := by
  constructor
  · rw [noWedgeText_eq (root := ['e']) (sub := fun i : Fin n => strNat (i.val + 1)) _ (by simp),
      noWedgeText_eq (root := ['e']) (sub := fun i : Fin n => strNat (i.val + 1)) _ (by simp)]
    · have : strNat 1 ++ strNat 2 = strNat 12 := by decide +kernel
      simp [this]
    · intro i _
      exact ⟨rfl, by decide, not_mem_strNat (by decide) _⟩
    · intro i _
      exact ⟨rfl, by decide, not_mem_strNat (by decide) _⟩
  · intro d hd hall
    obtain ⟨d', hd', -, hiff⟩ := C75_bases_dict_iff (numberNames n) pfx
    rw [hd, Option.some.injEq] at hd'
    subst hd'
    refine absurd (hiff.mp hall [⟨0, by omega⟩, ⟨1, by omega⟩] [⟨11, by omega⟩] (by simp) (by simp)
      (by simp) (by simp) ?_) (by simp)
    · have h12 : strNat 1 ++ strNat 2 = strNat 12 := by decide +kernel
      simp only [dictName, numberNames, List.map_cons, List.map_nil]
      simp [filter_strNat, h12]

/-- The claim fails for subscripts without digits: for `e_x, e_y, e_z` all blades have the name `e`, and
`bases_dict` has the pseudoscalar only. -/
theorem C75_letters_counterexample :
    basesDict true (fun i : Fin 3 => ["e_x".toList, "e_y".toList, "e_z".toList].getD i []) =
      some [(['e'], [0, 1, 2])] := by decide +kernel

/-- Names that cannot be printed without wedges: no underscore, or different roots. -/
example : noWedgeText (fun i : Fin 2 => [['a'], ['b']].getD i []) [0, 1] = none ∧
    noWedgeText (fun i : Fin 2 => ["a_1".toList, "b_1".toList].getD i []) [0, 1] = none := by
  decide +kernel

end GA
