import Verif.Spec.Lt
import Verif.Proofs.Outer
import Verif.Proofs.Flags

/-! Linear transformations: application, composition, sums. -/

set_option linter.unusedSectionVars false

namespace GA
variable {n : ℕ} {R : Type*} [CommRing R] [DecidableEq R]

namespace Dict
variable {K V : Type*} [DecidableEq K]

theorem mem_of_get? {d : Dict K V} {k : K} {v : V} (h : d.get? k = some v) : (k, v) ∈ d := by
  induction d with
  | nil => simp [get?] at h
  | cons p d ih =>
    obtain ⟨k', v'⟩ := p
    simp only [get?] at h
    split_ifs at h with e
    · cases h; subst e; simp
    · exact List.mem_cons_of_mem _ (ih h)

theorem get?_of_mem {d : Dict K V} (hnd : (d.map Prod.fst).Nodup) {k : K} {v : V} (h : (k, v) ∈ d) :
    d.get? k = some v := by
  induction d with
  | nil => simp at h
  | cons p d ih =>
    obtain ⟨k', v'⟩ := p
    rw [List.map_cons, List.nodup_cons] at hnd
    simp only [get?]
    rcases List.mem_cons.mp h with h | h
    · cases h; simp
    · rw [if_neg, ih hnd.2 h]
      rintro rfl
      exact hnd.1 (List.mem_map.mpr ⟨_, h, rfl⟩)

theorem get?_map (f : K → V → V) (d : Dict K V) (k : K) :
    get? (d.map fun p => (p.1, f p.1 p.2)) k = (d.get? k).map (f k) := by
  induction d with
  | nil => rfl
  | cons p d ih =>
    obtain ⟨k', v'⟩ := p
    simp only [List.map_cons, get?]
    split_ifs with e
    · subst e; rfl
    · exact ih

theorem set_of_not_mem (d : Dict K V) (k : K) (v : V) (h : k ∉ d.map Prod.fst) :
    d.set k v = d ++ [(k, v)] := by
  induction d with
  | nil => rfl
  | cons p d ih =>
    obtain ⟨k', v'⟩ := p
    simp only [List.map_cons, List.mem_cons, not_or] at h
    rw [set, if_neg (Ne.symm h.1), ih h.2, List.cons_append]

theorem ofItems_nodup (items : List (K × V)) (hnd : (items.map Prod.fst).Nodup) :
    ofItems items = items := by
  have key : ∀ (l acc : List (K × V)), ((acc ++ l).map Prod.fst).Nodup →
      l.foldl (fun d kv => Dict.set d kv.1 kv.2) acc = acc ++ l := by
    intro l
    induction l with
    | nil => intro acc _; simp
    | cons p l ih =>
      intro acc h
      rw [List.foldl_cons, set_of_not_mem, ih]
      · simp
      · simpa using h
      · simp only [List.map_append, List.map_cons, List.nodup_append] at h
        intro hm
        exact h.2.2 _ hm _ (by simp) rfl
  exact key items [] (by simpa using hnd)

theorem keys_set (d : Dict K V) (k : K) (v : V) (hk : k ∈ d.map Prod.fst) :
    (d.set k v).map Prod.fst = d.map Prod.fst := by
  induction d with
  | nil => simp at hk
  | cons p d ih =>
    obtain ⟨k', v'⟩ := p
    simp only [set]
    split_ifs with e
    · subst e; rfl
    · simp only [List.map_cons, List.mem_cons] at hk ⊢
      rw [ih (hk.resolve_left (fun h => e h.symm))]

theorem get?_isSome {d : Dict K V} {k : K} : (∃ v, d.get? k = some v) ↔ k ∈ d.map Prod.fst := by
  constructor
  · rintro ⟨v, h⟩
    exact List.mem_map_of_mem (f := Prod.fst) (mem_of_get? h)
  · intro h
    induction d with
    | nil => simp at h
    | cons p d ih =>
      obtain ⟨k', v'⟩ := p
      simp only [get?]
      split_ifs with e
      · exact ⟨_, rfl⟩
      · simp only [List.map_cons, List.mem_cons] at h
        exact ih (h.resolve_left (fun h => e h.symm))

end Dict

/-- The symbol of a basis vector. -/
def IsV (s : Sym n) : Prop := ∃ j : Fin n, s = .blade [j]

theorem IsV.isBl {s : Sym n} (h : IsV s) : IsBl s := by
  obtain ⟨j, rfl⟩ := h; exact ⟨[j], rfl, List.pairwise_singleton _ _⟩

theorem fwd_eq : (indexesToBlades n).fwd = (flat (indexes n)).map fun l => (l, Sym.blade l) := by
  rw [indexesToBlades, BiMap.ofItems, flat_blades, zip_map_self]
  exact Dict.ofItems_nodup _ (by
    rw [List.map_map]
    exact (List.map_id _).symm ▸ nodup_flat_indexes n)

theorem mvDict_get? (L : Lt R n) {l : List (Fin n)} (hl : l.Pairwise (· < ·)) :
    L.mvDict.get? (.blade l) =
      some (l.foldl (fun E i => wedge E (subsE [(1, .blade [i])] L)) (scalarE 1)) := by
  rw [Lt.mvDict, fwd_eq, List.map_map, Dict.get?_ofItems]
  · rw [List.mem_map]
    exact ⟨l, mem_flat_indexes.mpr hl, rfl⟩
  · rw [List.map_map]
    exact (nodup_flat_indexes n).map mkBlade_inj

theorem coeff_append (A B : Expr R n) (l : List (Fin n)) : coeff (A ++ B) l = coeff A l + coeff B l := by
  simp [coeff]

section half
variable [Invertible (2 : R)] {g : Matrix (Fin n) (Fin n) R}

theorem den_isV {E : Expr R n} (hE : AllSyms IsV E) :
    den g E = Spec.vec g (fun j => coeff E [j]) := by
  induction E with
  | nil =>
    rw [den_nil]
    exact (map_zero (CliffordAlgebra.ι (Spec.Q g))).symm
  | cons t E ih =>
    obtain ⟨c, s⟩ := t
    obtain ⟨⟨i, hi⟩, h2⟩ := allSyms_cons.mp hE
    simp only at hi
    subst hi
    rw [den_eq_lin, lin_cons, ← den_eq_lin, ih h2]
    have : (fun j => coeff ((c, Sym.blade [i]) :: E) [j]) =
        c • Pi.single i (1 : R) + fun j => coeff E [j] := by
      funext j
      have := coeff_append [(c, Sym.blade [i])] E [j]
      rw [List.singleton_append] at this
      rw [this]
      simp [coeff, Pi.single_apply, eq_comm]
    rw [this, Spec.vec_add, Spec.vec_smul]
    simp [symDen, Spec.blade_singleton, Spec.e]

theorem Lt.WF.image {L : Lt R n} (hL : L.WF) (i : Fin n) :
    ∃ E, L.get? (.blade [i]) = some E ∧ AllSyms IsV E ∧
      den g E = Spec.vec g (L.mat.col i) := by
  obtain ⟨E, hE⟩ := hL.total i
  have h := (hL.vals _ (Dict.mem_of_get? hE)).2.1
  refine ⟨E, hE, h, ?_⟩
  rw [den_isV h]
  congr 1
  funext j
  simp [Lt.mat, hE, Matrix.col_apply]

/-- Substitution is the linear extension of a dictionary. -/
theorem subsE_spec {P Q : Sym n → Prop} {E : Expr R n} {d : Dict (Sym n) (Expr R n)}
    (f : Spec.Cl g →ₗ[R] Spec.Cl g) (hE : AllSyms P E)
    (h : ∀ s, P s → ∃ v, d.get? s = some v ∧ AllSyms Q v ∧ den g v = f (symDen g s)) :
    AllSyms Q (subsE E d) ∧ den g (subsE E d) = f (den g E) := by
  constructor
  · refine allSyms_flatMap fun t ht => ?_
    obtain ⟨v, h1, h2, -⟩ := h t.2 (hE t ht)
    rw [h1]
    exact h2.smulE _
  · rw [den_eq_lin, den_eq_lin, map_lin]
    refine lin_flatMap _ _ _ _ fun t ht => ?_
    obtain ⟨v, h1, -, h3⟩ := h t.2 (hE t ht)
    rw [h1]
    simp only [lin_smulE]
    rw [← h3]; rfl

theorem Lt.WF.subs {L : Lt R n} (hL : L.WF) {E : Expr R n} (hE : AllSyms IsV E) :
    AllSyms IsV (subsE E L) ∧ den g (subsE E L) = Spec.outer g L.mat (den g E) := by
  refine subsE_spec (P := IsV) _ hE ?_
  rintro s ⟨i, rfl⟩
  obtain ⟨v, h1, h2, h3⟩ := hL.image (g := g) i
  refine ⟨v, h1, h2, ?_⟩
  rw [h3, symDen, Spec.blade_singleton, Spec.e, Spec.outer_vec]
  simp

theorem Lt.WF.mvDict {L : Lt R n} (hL : L.WF) {l : List (Fin n)} (hl : l.Pairwise (· < ·)) :
    ∃ v, L.mvDict.get? (.blade l) = some v ∧ AllSyms IsBl v ∧
      den g v = Spec.outer g L.mat (Spec.blade g l) := by
  refine ⟨_, mvDict_get? L hl, ?_⟩
  rw [Spec.outer_blade]
  have key : ∀ (l : List (Fin n)) (acc : Expr R n), Valid acc →
      Valid (l.foldl (fun E i => wedge E (subsE [(1, .blade [i])] L)) acc) ∧
      den g (l.foldl (fun E i => wedge E (subsE [(1, .blade [i])] L)) acc) =
        Spec.wedge g (den g acc) (Spec.wedgeL g (l.map fun i => L.mat.col i)) := by
    intro l
    induction l with
    | nil => intro acc h; exact ⟨h, (Spec.wedge_one _).symm⟩
    | cons i l ih =>
      intro acc h
      have h1 := hL.subs (g := g) (E := [(1, .blade [i])])
        (by intro t ht; rw [List.mem_singleton] at ht; subst ht; exact ⟨i, rfl⟩)
      have hv : Valid (subsE [((1 : R), Sym.blade [i])] L) := h1.1.mono fun s hs => hs.isBl
      have h2 := ih _ (wedge_valid h hv)
      refine ⟨h2.1, ?_⟩
      rw [List.foldl_cons, h2.2, den_wedge g h hv, h1.2, List.map_cons, Spec.wedgeL_cons,
        Spec.wedge_assoc]
      congr 2
      rw [den_eq_lin, lin_cons, lin_nil, one_smul, add_zero, symDen, Spec.blade_singleton, Spec.e,
        Spec.outer_vec]
      simp
  have h := key l (scalarE 1) (valid_scalarE 1)
  refine ⟨h.1, ?_⟩
  rw [h.2, den_scalarE, map_one, Spec.one_wedge]

theorem Lt.WF.subsMv {L : Lt R n} (hL : L.WF) {E : Expr R n} (hE : Valid E) :
    Valid (subsE E L.mvDict) ∧ den g (subsE E L.mvDict) = Spec.outer g L.mat (den g E) := by
  refine subsE_spec (P := IsBl) (Q := IsBl) _ hE ?_
  rintro s ⟨l, rfl, hl⟩
  exact hL.mvDict hl

/-- Application of a transformation is the outermorphism of its matrix. -/
theorem Lt.WF.call (hs : g.IsSymm) {L : Lt R n} (hL : L.WF) {A : Mv R n} (hA : A.WF g)
    (hb : A.isBladeRep = true ∨ isOrtho g = true) :
    Rep g (L.call g A) (Spec.outer g L.mat (A.val g)) := by
  have hv := hA.valid hb
  rw [Lt.call]
  split_ifs with h
  · have h1 := ((isVector_iff hs hA).mp h).2
    have h2 := canon_bl_len (g := g) ⟨hA.1, hA.2.1⟩ hv h1
    have h3 : AllSyms IsV A.obj := by
      intro t ht
      obtain ⟨l, hl, hlt⟩ := hv t ht
      have := h2 t ht
      rw [hl] at this
      obtain ⟨j, rfl⟩ := List.length_eq_one_iff.mp (this : l.length = 1)
      exact ⟨j, hl⟩
    have h4 := hL.subs (g := g) h3
    exact (Rep.ofExpr (h4.1.mono fun s hs => hs.isBl)).congr h4.2
  · have h4 := hL.subsMv (g := g) hv
    exact (Rep.ofExpr h4.1).congr h4.2

theorem Rep.call (hs : g.IsSymm) {L : Lt R n} (hL : L.WF) {A : Mv R n} {x : Spec.Cl g}
    (hA : Rep g A x) : Rep g (L.call g A) (Spec.outer g L.mat x) := by
  have := hL.call hs hA.wf (Or.inl hA.flag)
  rwa [hA.val] at this

/-! ### Values of transformations -/

/-- A value of a well-formed transformation. -/
def GoodVal (E : Expr R n) : Prop := AllSyms IsV E ∧ (E = [] ∨ expand E ≠ [])

theorem isV_of_den {E : Expr R n} (hE : Valid E) {v : Fin n → R} (h : den g E = Spec.vec g v) :
    AllSyms IsV (expand E) := by
  have hv := (valid_iff.mp hE).expand
  have h2 := canon_bl_len (g := g) (canon_expand (fun s hs => isBl_ne_error hs) hE) hv (k := 1)
    (by
      intro r hr
      rw [den_expand, h]
      exact Spec.homogeneous_vec v r hr)
  intro t ht
  obtain ⟨l, hl, hlt⟩ := hv t ht
  have := h2 t ht
  rw [hl] at this
  obtain ⟨j, rfl⟩ := List.length_eq_one_iff.mp (this : l.length = 1)
  exact ⟨j, hl⟩

theorem expand_good (E : Expr R n) (hE : Valid E) : expand E = [] ∨ expand (expand E) ≠ [] := by
  by_cases h : expand E = []
  · exact Or.inl h
  · refine Or.inr ?_
    rw [Ne, expand_eq_nil (g := (0 : Matrix (Fin n) (Fin n) R)) hE.expand, den_expand,
      ← expand_eq_nil hE]
    exact h

theorem coeff_of_den {E : Expr R n} (hE : AllSyms IsV E) {v : Fin n → R}
    (h : den g E = Spec.vec g v) (j : Fin n) : coeff E [j] = v j := by
  rw [den_isV hE] at h
  have h2 := congrArg (Spec.toExt g) h
  rw [Spec.toExt_vec, Spec.toExt_vec] at h2
  exact congrFun (ExteriorAlgebra.ι_leftInverse.injective h2) j

theorem goodVal_expand {E : Expr R n} (hE : Valid E) {v : Fin n → R} (h : den g E = Spec.vec g v) :
    GoodVal (expand E) ∧ ∀ j, coeff (expand E) [j] = v j :=
  ⟨⟨isV_of_den hE h, expand_good E hE⟩,
    coeff_of_den (isV_of_den hE h) (by rw [den_expand, h])⟩

theorem Lt.WF.of {L : Lt R n} (hk : ∀ p ∈ L, IsV p.1) (hnd : (L.map Prod.fst).Nodup)
    (h : ∀ i : Fin n, ∃ E, L.get? (.blade [i]) = some E ∧ GoodVal E) : L.WF := by
  refine ⟨fun i => ⟨_, (h i).choose_spec.1⟩, fun p hp => ?_, hnd⟩
  obtain ⟨i, hi⟩ := hk p hp
  obtain ⟨E, h1, h2⟩ := h i
  have : L.get? (.blade [i]) = some p.2 := Dict.get?_of_mem hnd (by rw [← hi]; exact hp)
  rw [this] at h1
  cases h1
  exact ⟨⟨i, hi⟩, h2⟩

theorem Lt.WF.good {L : Lt R n} (hL : L.WF) {i : Fin n} {E : Expr R n}
    (h : L.get? (.blade [i]) = some E) : GoodVal E := (hL.vals _ (Dict.mem_of_get? h)).2

theorem Lt.mat_apply {L : Lt R n} {i : Fin n} {E : Expr R n} (h : L.get? (.blade [i]) = some E)
    (j : Fin n) : L.mat j i = coeff E [j] := by simp [Lt.mat, h]

/-! ### collect -/

theorem lin_collect {M : Type*} [AddCommGroup M] [Module R M] (φ : Sym n → M) (A : Expr R n)
    {nc : List (Sym n)} (hnc : nc.Nodup) : lin φ (collect A nc) = lin φ A := by
  rw [collect, lin_expand, ← lin_linearExpand φ A]
  generalize linearExpand A = l
  induction l with
  | nil =>
    have : (nc.flatMap fun x => ([] : Expr R n).filter fun t => decide (t.2 = x)) = [] := by simp
    rw [this]; simp
  | cons t l ih =>
    have h1 : lin φ (nc.flatMap fun x => (t :: l).filter fun t => decide (t.2 = x)) =
        (if t.2 ∈ nc then t.1 • φ t.2 else 0) +
          lin φ (nc.flatMap fun x => l.filter fun t => decide (t.2 = x)) := by
      clear ih
      induction nc with
      | nil => simp
      | cons x nc ih =>
        rw [List.nodup_cons] at hnc
        rw [List.flatMap_cons, List.flatMap_cons, lin_append, lin_append, ih hnc.2, List.filter_cons]
        by_cases e : t.2 = x
        · subst e
          simp [hnc.1]
          abel
        · simp [e]
          abel
    rw [lin_append, h1, List.filter_cons, lin_cons, ← ih, lin_append]
    by_cases e : t.2 ∈ nc
    · simp [e]
      abel
    · simp [e]
      abel

theorem basis_nodup : (basis n).Nodup := by
  rw [basis]
  refine (List.nodup_finRange n).map fun i j h => ?_
  simpa using h

theorem collect_valid {A : Expr R n} (hA : Valid A) (nc : List (Sym n)) : Valid (collect A nc) := by
  have hl : AllSyms IsBl (linearExpand A) := (valid_iff.mp hA).linearExpand isBl_one
  refine AllSyms.expand (P := IsBl) ?_
  intro t ht
  rcases List.mem_append.mp ht with ht | ht
  · obtain ⟨x, -, ht⟩ := List.mem_flatMap.mp ht
    exact hl t (List.mem_of_mem_filter ht)
  · exact hl t (List.mem_of_mem_filter ht)

theorem collect_good {A : Expr R n} (hA : Valid A) {v : Fin n → R} (h : den g A = Spec.vec g v) :
    GoodVal (collect A (basis n)) ∧ ∀ j, coeff (collect A (basis n)) [j] = v j := by
  have hl : AllSyms IsBl (linearExpand A) := (valid_iff.mp hA).linearExpand isBl_one
  rw [collect]
  refine goodVal_expand (g := g) ?_ ?_
  · intro t ht
    rcases List.mem_append.mp ht with ht | ht
    · obtain ⟨x, -, ht⟩ := List.mem_flatMap.mp ht
      exact hl t (List.mem_of_mem_filter ht)
    · exact hl t (List.mem_of_mem_filter ht)
  · have := lin_collect (symDen g) A basis_nodup
    rw [collect, lin_expand] at this
    rw [den_eq_lin, this, ← h]; rfl

/-! ### Sums -/

theorem GoodVal.valid {E : Expr R n} (h : GoodVal E) : Valid E := h.1.mono fun _ hs => hs.isBl

theorem GoodVal.den {E : Expr R n} (h : GoodVal E) (g : Matrix (Fin n) (Fin n) R) :
    den g E = Spec.vec g (fun j => coeff E [j]) := den_isV h.1

theorem Dict.mem_set {K V : Type*} [DecidableEq K] {d : Dict K V} {k : K} {v : V} {p : K × V}
    (h : p ∈ d.set k v) : p ∈ d ∨ p = (k, v) := by
  induction d with
  | nil => exact Or.inr (List.mem_singleton.mp h)
  | cons q d ih =>
    obtain ⟨k', v'⟩ := q
    simp only [Dict.set] at h
    split_ifs at h with e
    · rcases List.mem_cons.mp h with h | h
      · exact Or.inr h
      · exact Or.inl (List.mem_cons_of_mem _ h)
    · rcases List.mem_cons.mp h with h | h
      · exact Or.inl (h ▸ List.mem_cons_self)
      · exact (ih h).imp_left (List.mem_cons_of_mem _)

theorem Lt.WF.set {L : Lt R n} (hL : L.WF) (i : Fin n) {E : Expr R n} (hE : GoodVal E) :
    Lt.WF (Dict.set L (.blade [i]) E) := by
  refine ⟨fun j => ?_, fun p hp => ?_, ?_⟩
  · rw [Dict.get?_set]
    split_ifs
    · exact ⟨_, rfl⟩
    · exact hL.total j
  · rcases Dict.mem_set hp with h | rfl
    · exact hL.vals p h
    · exact ⟨⟨i, rfl⟩, hE⟩
  · rw [Dict.keys_set]
    · exact hL.nodup
    · exact Dict.get?_isSome.mp (hL.total i)

theorem Lt.fold_spec (f : Expr R n → Expr R n → Expr R n) (h₀ : Expr R n → Expr R n) (ε : R)
    (hf : ∀ v w, GoodVal v → GoodVal w → GoodVal (f v w) ∧
      ∀ j, coeff (f v w) [j] = coeff v [j] + ε * coeff w [j])
    (L' : Lt R n) (hk : ∀ p ∈ L', IsV p.1 ∧ GoodVal p.2) (hnd : (L'.map Prod.fst).Nodup)
    (L : Lt R n) (hL : L.WF) :
    let S : Lt R n := L'.foldl (fun d kv => match d.get? kv.1 with
      | some v => d.set kv.1 (f v kv.2)
      | none => d.set kv.1 (h₀ kv.2)) L
    S.WF ∧ ∀ i j, S.mat j i = L.mat j i + ε * coeff ((L'.get? (.blade [i])).getD []) [j] := by
  induction L' generalizing L with
  | nil =>
    refine ⟨hL, fun i j => ?_⟩
    simp [Dict.get?, coeff]
  | cons p L' ih =>
    obtain ⟨k, w⟩ := p
    obtain ⟨⟨i0, hi0⟩, hw⟩ := hk (k, w) (by simp)
    simp only at hi0 hw
    subst hi0
    rw [List.map_cons, List.nodup_cons] at hnd
    obtain ⟨v, hv⟩ := hL.total i0
    have hvw := hf v w (hL.good hv) hw
    have hL2 := hL.set i0 hvw.1
    have h := ih (fun p hp => hk p (List.mem_cons_of_mem _ hp)) hnd.2 _ hL2
    simp only [List.foldl_cons, hv]
    refine ⟨h.1, fun i j => ?_⟩
    rw [h.2 i j]
    simp only [Dict.get?]
    by_cases e : i0 = i
    · subst e
      have hn : Dict.get? L' (.blade [i0]) = none := by
        by_contra hne
        obtain ⟨v', hv'⟩ := Option.ne_none_iff_exists'.mp hne
        exact hnd.1 (Dict.get?_isSome.mp ⟨v', hv'⟩)
      rw [Lt.mat_apply (by rw [Dict.get?_set, if_pos rfl]), Lt.mat_apply hv, hn, hvw.2 j]
      simp [coeff]
    · have e' : Sym.blade [i0] ≠ Sym.blade [i] := by simpa using e
      obtain ⟨v', hv'⟩ := hL.total i
      rw [Lt.mat_apply (by rw [Dict.get?_set, if_neg e']; exact hv'), Lt.mat_apply hv', if_neg e']

theorem Lt.WF.add {L L' : Lt R n} (hL : L.WF) (hL' : L'.WF) :
    (L.add L').WF ∧ (L.add L').mat = L.mat + L'.mat := by
  have h := Lt.fold_spec (fun v w => collect (addE v w) (basis n)) id 1
    (by
      intro v w hv hw
      have h := collect_good (g := (0 : Matrix (Fin n) (Fin n) R)) (valid_addE hv.valid hw.valid)
        (v := (fun j => coeff v [j]) + fun j => coeff w [j])
        (by rw [den_addE, hv.den, hw.den, Spec.vec_add])
      exact ⟨h.1, fun j => by rw [h.2 j]; simp⟩)
    L' (fun p hp => ⟨(hL'.vals p hp).1, (hL'.vals p hp).2⟩) hL'.nodup L hL
  refine ⟨h.1, ?_⟩
  ext j i
  rw [Matrix.add_apply]
  refine (h.2 i j).trans ?_
  simp [Lt.mat]

theorem Lt.WF.sub {L L' : Lt R n} (hL : L.WF) (hL' : L'.WF) :
    (L.sub L').WF ∧ (L.sub L').mat = L.mat - L'.mat := by
  have h := Lt.fold_spec (fun v w => collect (subE v w) (basis n)) negE (-1)
    (by
      intro v w hv hw
      have h := collect_good (g := (0 : Matrix (Fin n) (Fin n) R)) (valid_subE hv.valid hw.valid)
        (v := (fun j => coeff v [j]) + (-1 : R) • fun j => coeff w [j])
        (by rw [den_subE, hv.den, hw.den, Spec.vec_add, Spec.vec_smul, neg_one_smul, sub_eq_add_neg])
      exact ⟨h.1, fun j => by rw [h.2 j]; simp⟩)
    L' (fun p hp => ⟨(hL'.vals p hp).1, (hL'.vals p hp).2⟩) hL'.nodup L hL
  refine ⟨h.1, ?_⟩
  ext j i
  rw [Matrix.sub_apply]
  refine (h.2 i j).trans ?_
  simp [Lt.mat, sub_eq_add_neg]

/-! ### Products -/

theorem Lt.map_spec {L : Lt R n} (hL : L.WF) (F : Sym n → Expr R n → Expr R n)
    (M : Matrix (Fin n) (Fin n) R)
    (h : ∀ i E, L.get? (.blade [i]) = some E →
      GoodVal (F (.blade [i]) E) ∧ ∀ j, coeff (F (.blade [i]) E) [j] = M j i) :
    Lt.WF (L.map fun p => (p.1, F p.1 p.2)) ∧ Lt.mat (L.map fun p => (p.1, F p.1 p.2)) = M := by
  have hg : ∀ i : Fin n, ∃ E, Dict.get? (L.map fun p => (p.1, F p.1 p.2)) (.blade [i]) = some E ∧
      GoodVal E ∧ ∀ j, coeff E [j] = M j i := by
    intro i
    obtain ⟨E, hE⟩ := hL.total i
    exact ⟨F (.blade [i]) E, by rw [Dict.get?_map, hE]; rfl, h i E hE⟩
  constructor
  · refine Lt.WF.of ?_ ?_ fun i => ?_
    · intro p hp
      obtain ⟨q, hq, rfl⟩ := List.mem_map.mp hp
      exact (hL.vals q hq).1
    · rw [List.map_map]; exact hL.nodup
    · obtain ⟨E, h1, h2, -⟩ := hg i
      exact ⟨E, h1, h2⟩
  · ext j i
    obtain ⟨E, h1, -, h3⟩ := hg i
    rw [Lt.mat_apply h1, h3]

theorem Lt.WF.callE {L : Lt R n} (hL : L.WF) {E : Expr R n} (hE : Valid E) :
    Valid (L.callE E) ∧ den g (L.callE E) = Spec.outer g L.mat (den g E) := by
  have h := hL.subsMv (g := g) (E := (Mv.ofExpr E).obj) hE.expand
  exact ⟨h.1, by rw [Lt.callE, h.2]; congr 1; exact den_expand g E⟩

theorem Lt.WF.mul {L L' : Lt R n} (hL : L.WF) (hL' : L'.WF) :
    (L.mul L').WF ∧ (L.mul L').mat = L.mat * L'.mat := by
  refine Lt.map_spec hL' (fun k _ => collect (expand (L.callE (L'.callE [(1, k)]))) (basis n)) _ ?_
  intro i E hE
  set g : Matrix (Fin n) (Fin n) R := 0
  have hv : Valid ([((1 : R), Sym.blade [i])] : Expr R n) := valid_bladeE (List.pairwise_singleton _ _)
  have h1 := hL'.callE (g := g) hv
  have h2 := hL.callE (g := g) h1.1
  have h3 := collect_good (g := g) h2.1.expand (v := (L.mat * L'.mat).col i) (by
    rw [den_expand, h2.2, h1.2, ← Spec.outer_mul]
    have : den g ([((1 : R), Sym.blade [i])] : Expr R n) = Spec.vec g (Pi.single i 1) := by
      rw [den_eq_lin, lin_cons, lin_nil, one_smul, add_zero, symDen, Spec.blade_singleton, Spec.e]
    rw [this, Spec.outer_vec]
    simp)
  exact ⟨h3.1, fun j => by rw [h3.2 j]; rfl⟩

theorem Lt.WF.smul {L : Lt R n} (hL : L.WF) (c : R) :
    (L.smul c).WF ∧ (L.smul c).mat = c • L.mat := by
  refine Lt.map_spec hL (fun _ E => expand (smulE c E)) _ ?_
  intro i E hE
  have hg := hL.good hE
  have h := goodVal_expand (g := (0 : Matrix (Fin n) (Fin n) R)) (valid_smulE c hg.valid)
    (v := c • fun j => coeff E [j]) (by rw [den_smulE, hg.den, Spec.vec_smul])
  exact ⟨h.1, fun j => by rw [h.2 j, Matrix.smul_apply, Lt.mat_apply hE]; rfl⟩

/-! ### Constructors and `matrix` -/

theorem ofItems_basis {F : Fin n → Expr R n} {M : Matrix (Fin n) (Fin n) R}
    (h : ∀ i, GoodVal (F i) ∧ ∀ j, coeff (F i) [j] = M j i) :
    Lt.WF (Dict.ofItems ((List.finRange n).map fun i => (Sym.blade [i], F i))) ∧
      Lt.mat (Dict.ofItems ((List.finRange n).map fun i => (Sym.blade [i], F i))) = M := by
  have hnd : (((List.finRange n).map fun i => (Sym.blade [i], F i)).map Prod.fst).Nodup := by
    rw [List.map_map]; exact basis_nodup
  have hg : ∀ i, Dict.get? (Dict.ofItems ((List.finRange n).map fun i => (Sym.blade [i], F i)))
      (.blade [i]) = some (F i) := by
    intro i
    rw [Dict.get?_ofItems _ hnd]
    exact List.mem_map.mpr ⟨i, List.mem_finRange i, rfl⟩
  constructor
  · refine Lt.WF.of ?_ ?_ fun i => ⟨_, hg i, (h i).1⟩
    · rw [Dict.ofItems_nodup _ hnd]
      intro p hp
      obtain ⟨i, -, rfl⟩ := List.mem_map.mp hp
      exact ⟨i, rfl⟩
    · rw [Dict.ofItems_nodup _ hnd]; exact hnd
  · ext j i
    rw [Lt.mat_apply (hg i), (h i).2]

theorem den_vecE' (v : Fin n → R) :
    Valid (vecE v) ∧ den g (vecE v) = Spec.vec g v := by
  have h := Rep.vector (g := g) v
  refine ⟨?_, ?_⟩
  · intro t ht
    obtain ⟨i, -, rfl⟩ := List.mem_map.mp ht
    exact ⟨[i], rfl, List.pairwise_singleton _ _⟩
  · rw [← h.val, Mv.vector, ofExpr_val]

theorem Lt.ofMatrix_spec (M : Matrix (Fin n) (Fin n) R) :
    (Lt.ofMatrix M).WF ∧ (Lt.ofMatrix M).mat = M := by
  refine ofItems_basis fun i => ?_
  have h := den_vecE' (g := (0 : Matrix (Fin n) (Fin n) R)) (fun row => M row i)
  exact goodVal_expand h.1 h.2

theorem gatherE_of_nodup {E : Expr R n} (h : (E.map Prod.snd).Nodup) : gatherE E = E := by
  have key : ∀ (l acc : Expr R n), ((acc ++ l).map Prod.snd).Nodup →
      l.foldl (fun acc t => addTerm acc t.1 t.2) acc = acc ++ l := by
    intro l
    induction l with
    | nil => intro acc _; simp
    | cons t l ih =>
      intro acc h
      have h1 : addTerm acc t.1 t.2 = acc ++ [t] := by
        have hn : t.2 ∉ acc.map Prod.snd := by
          intro hm
          simp only [List.map_append, List.map_cons, List.nodup_append] at h
          exact h.2.2 _ hm _ (by simp) rfl
        clear h ih
        induction acc with
        | nil => rfl
        | cons u acc ih2 =>
          simp only [List.map_cons, List.mem_cons, not_or] at hn
          obtain ⟨c, s⟩ := u
          rw [addTerm, if_neg (fun e => hn.1 e.symm), ih2 hn.2, List.cons_append]
      rw [List.foldl_cons, h1, ih]
      · simp
      · simpa using h
  exact key E [] (by simpa using h)

theorem columnOf_good {E : Expr R n} (h : GoodVal E) :
    columnOf E = some (fun j => coeff E [j]) := by
  rw [columnOf]
  split_ifs with h0
  · subst h0; rfl
  have hne := h.2.resolve_left h0
  have hlin : linearExpand E = expand E := by
    rw [linearExpand]
    split
    · exact absurd ‹_› hne
    · exact gatherE_of_nodup (expand_nodup E)
  have hc : (fun j => coeff E [j]) = fun j => coeff (expand E) [j] := by
    funext j; rw [coeff_eq_lin, coeff_eq_lin, lin_expand]
  rw [hlin, hc]
  have key : ∀ (l : Expr R n) (init : Fin n → R), (l.map Prod.snd).Nodup → AllSyms IsV l →
      l.foldlM (fun col t => match t.2 with
        | .blade [i] => some (Function.update col i t.1)
        | _ => none) init =
        some (fun j => if Sym.blade [j] ∈ l.map Prod.snd then coeff l [j] else init j) := by
    intro l
    induction l with
    | nil => intro init _ _; simp
    | cons t l ih =>
      intro init hnd hV
      obtain ⟨c, s⟩ := t
      obtain ⟨⟨i, hi⟩, hV'⟩ := allSyms_cons.mp hV
      simp only at hi
      subst hi
      rw [List.map_cons, List.nodup_cons] at hnd
      rw [List.foldlM_cons]
      simp only [Option.bind_eq_bind, Option.bind_some]
      rw [ih _ hnd.2 hV']
      congr 1
      funext j
      have hcj : coeff ((c, Sym.blade [i]) :: l) [j] = (if i = j then c else 0) + coeff l [j] := by
        simp [coeff]
      by_cases e : j = i
      · subst e
        have hz : coeff l [j] = 0 := by
          rw [coeff_eq_lin, lin_congr _ l (fun _ => (0 : R))]
          · clear ih hnd hV hV' hcj
            induction l with
            | nil => rfl
            | cons t l ih => rw [lin_cons, smul_zero, zero_add, ih]
          · intro t ht
            rw [if_neg]
            intro e
            exact hnd.1 (List.mem_map.mpr ⟨t, ht, e⟩)
        rw [if_neg hnd.1, if_pos (by simp), hcj, hz]
        simp
      · have e' : ¬ i = j := fun h => e h.symm
        rw [hcj, if_neg e', zero_add]
        have : (Sym.blade [j] ∈ ((c, Sym.blade [i]) :: l).map Prod.snd) ↔
            Sym.blade [j] ∈ l.map Prod.snd := by simp [e]
        simp only [this, Function.update_of_ne e]
  refine (key _ _ (expand_nodup E) h.1.expand).trans ?_
  congr 1
  funext j
  split_ifs with hj
  · rfl
  · symm
    rw [coeff_eq_lin, lin_congr _ _ (fun _ => (0 : R))]
    · generalize expand E = l
      induction l with
      | nil => rfl
      | cons t l ih => rw [lin_cons, smul_zero, zero_add, ih]
    · intro t ht
      rw [if_neg]
      intro e
      exact hj (List.mem_map.mpr ⟨t, ht, e⟩)

theorem Lt.WF.matrix {L : Lt R n} (hL : L.WF) : L.matrix = some L.mat := by
  have h : (basis n).mapM (fun b => (Dict.get? L b).bind columnOf) =
      some ((List.finRange n).map fun i => L.mat.col i) := by
    rw [basis]
    have key : ∀ l : List (Fin n),
        (l.map fun i => (Sym.blade [i] : Sym n)).mapM (fun b => (Dict.get? L b).bind columnOf) =
          some (l.map fun i => L.mat.col i) := by
      intro l
      induction l with
      | nil => rfl
      | cons i l ih =>
        obtain ⟨E, hE⟩ := hL.total i
        rw [List.map_cons, List.mapM_cons, hE, ih, Option.bind_some, columnOf_good (hL.good hE)]
        simp only [Option.bind_eq_bind, Option.bind_some, List.map_cons, Option.pure_def]
        congr 2
        funext j
        rw [Matrix.col_apply, Lt.mat_apply hE]
    exact key _
  rw [Lt.matrix, h, Option.map_some]
  congr 1
  ext i j
  simp

end half

end GA
