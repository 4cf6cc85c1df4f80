import Verif.Proofs.Products
import Verif.Proofs.Reduce
import Verif.Proofs.Filtration
import Mathlib.LinearAlgebra.Matrix.Symmetric

/-! The general (non-orthogonal) code path. -/

set_option linter.unusedSectionVars false

namespace GA
variable {n : ℕ} {R : Type*} [CommRing R] [DecidableEq R]

/-- Number of basis vectors of a symbol. -/
def symLen : Sym n → ℕ
  | .blade l => l.length
  | .base l => l.length
  | .error => 0

@[simp] theorem symLen_mkBase (l : List (Fin n)) : symLen (mkBase l) = l.length := by
  rw [mkBase]; split_ifs <;> rfl

/-! ### Entries of an expanded expression -/

theorem gatherE_keys_aux (E acc : Expr R n) (h : (acc.map Prod.snd).Nodup) :
    ((E.foldl (fun acc t => addTerm acc t.1 t.2) acc).map Prod.snd).Nodup := by
  have key : ∀ (acc : Expr R n) (c : R) (s : Sym n), (addTerm acc c s).map Prod.snd =
      if s ∈ acc.map Prod.snd then acc.map Prod.snd else acc.map Prod.snd ++ [s] := by
    intro acc c s
    induction acc with
    | nil => simp [addTerm]
    | cons t acc ih =>
      obtain ⟨d, y⟩ := t
      simp only [addTerm]
      split_ifs with h1 h2 h2
      · rfl
      · exact absurd (by simp [h1]) h2
      · rw [List.map_cons, ih, if_pos]
        · rfl
        · simpa [Ne.symm h1] using h2
      · rw [List.map_cons, ih, if_neg]
        · rfl
        · intro h; exact h2 (by simp only [List.map_cons, List.mem_cons]; exact Or.inr h)
  induction E generalizing acc with
  | nil => exact h
  | cons t E ih =>
    refine ih _ ?_
    rw [key]
    split_ifs with hx
    · exact h
    · rw [List.nodup_append]
      refine ⟨h, by simp, ?_⟩
      intro a ha b hb
      rw [List.mem_singleton] at hb
      subst hb
      rintro rfl
      exact hx ha

theorem gatherE_nodup (E : Expr R n) : ((gatherE E).map Prod.snd).Nodup :=
  gatherE_keys_aux E [] (by simp)

theorem expand_nodup (E : Expr R n) : ((expand E).map Prod.snd).Nodup :=
  (gatherE_nodup E).sublist ((List.filter_sublist).map _)

theorem linearExpand_nodup (E : Expr R n) : ((linearExpand E).map Prod.snd).Nodup := by
  rw [linearExpand]
  split
  · simp
  · exact gatherE_nodup _

theorem coef_of_mem_nodup {E : Expr R n} (hn : (E.map Prod.snd).Nodup) {t : R × Sym n}
    (ht : t ∈ E) : lin (fun s => if s = t.2 then (1 : R) else 0) E = t.1 := by
  induction E with
  | nil => simp at ht
  | cons u E ih =>
    rw [List.map_cons, List.nodup_cons] at hn
    rw [lin_cons]
    rcases List.mem_cons.mp ht with rfl | ht
    · rw [lin_congr _ E (fun _ => (0 : R))]
      · have : ∀ E : Expr R n, lin (fun _ => (0 : R)) E = 0 := by
          intro E; induction E with
          | nil => rfl
          | cons t E ih => rw [lin_cons, ih]; simp
        simp [this]
      · intro u hu
        rw [if_neg]
        intro h
        exact hn.1 (h ▸ List.mem_map_of_mem hu)
    · rw [ih hn.2 ht, if_neg]
      · simp
      · intro h
        exact hn.1 (h ▸ List.mem_map_of_mem ht)

theorem mem_expand {E : Expr R n} {t : R × Sym n} (ht : t ∈ expand E) :
    t.1 = lin (fun s => if s = t.2 then (1 : R) else 0) E ∧ (t.1 ≠ 0 ∨ t.2 = .error) := by
  refine ⟨?_, by simpa using (List.mem_filter.mp ht).2⟩
  rw [← lin_expand, coef_of_mem_nodup (expand_nodup E) ht]

/-! ### Products of bases -/

section bases
variable [Invertible (2 : R)] (g : Matrix (Fin n) (Fin n) R) (hs : g.IsSymm)

include hs in
theorem ofBasisBases_spec {s t : Sym n} (h1 : IsBs s) (h2 : IsBs t) :
    AllSyms (fun u => IsBs u ∧ symLen u ≤ symLen s + symLen t) (ofBasisBases g s t) ∧
      den g (ofBasisBases g s t) = symDen g s * symDen g t := by
  obtain ⟨I, hI', rfl, hI⟩ := isBs_get h1
  obtain ⟨J, hJ', rfl, hJ⟩ := isBs_get h2
  rw [ofBasisBases, hI', hJ']
  simp only
  obtain ⟨h3, h4, h5, -⟩ := reduceBasis_spec g (Spec.e g) (fun i => Spec.e_sq g i)
    (fun i j => by rw [Spec.e_mul_e_add_swap, hs.apply i j, two_mul]) (I ++ J)
  constructor
  · intro t ht
    obtain ⟨u, hu, rfl⟩ := List.mem_map.mp ht
    simp only
    rw [lookupBase_of (h4 u hu)]
    refine ⟨⟨u.2, rfl, h4 u hu⟩, ?_⟩
    have := (h5 u hu).length_le
    simpa using this
  · rw [symDen_mkBase, symDen_mkBase, ← Spec.base_append, Spec.base, ← h3, den, List.map_map]
    congr 1
    refine List.map_congr_left fun u hu => ?_
    simp only [Function.comp_apply]
    rw [lookupBase_of (h4 u hu), symDen_mkBase, Spec.base]

/-- All symbols are bases with at most `k` vectors. -/
def BsLe (k : ℕ) (E : Expr R n) : Prop := AllSyms (fun u => IsBs u ∧ symLen u ≤ k) E

include hs in
theorem basicMul_spec {A B : Expr R n} {k l : ℕ} (hA : BsLe k A) (hB : BsLe l B) :
    BsLe (k + l) (basicMul g A B) ∧ den g (basicMul g A B) = den g A * den g B := by
  constructor
  · refine AllSyms.expand (allSyms_flatMap fun t₁ ht₁ => allSyms_flatMap fun t₂ ht₂ => ?_)
    refine AllSyms.smulE _ ((ofBasisBases_spec g hs (hA t₁ ht₁).1 (hB t₂ ht₂).1).1.mono ?_)
    intro u hu
    have := (hA t₁ ht₁).2
    have := (hB t₂ ht₂).2
    exact ⟨hu.1, by omega⟩
  · rw [basicMul, den_expand]
    exact lin_flatMap₂ (symDen g) (symDen g) (symDen g) (LinearMap.mul R (Spec.Cl g)) hA hB
      fun s t h1 h2 => (ofBasisBases_spec g hs h1.1 h2.1).2

/-! ### The expansion dictionaries -/

theorem flat_indexes_length (n : ℕ) :
    (flat (indexes n)).Pairwise fun a b => a.length ≤ b.length := by
  rw [flat, List.pairwise_flatten]
  constructor
  · intro l hl
    obtain ⟨k, -, rfl⟩ := List.mem_map.mp hl
    refine List.pairwise_of_forall_mem_list fun a ha b hb => ?_
    rw [mem_combinations] at ha hb
    omega
  · rw [indexes, List.pairwise_map]
    refine List.pairwise_lt_range.imp ?_
    intro i j hij a ha b hb
    rw [mem_combinations] at ha hb
    omega

/-- A dictionary filled by a loop over all index tuples, where each entry only depends on entries
of shorter tuples. -/
theorem foldl_dict (key : List (Fin n) → Sym n) (hk : Function.Injective key)
    (val : Dict (Sym n) (Expr R n) → List (Fin n) → Expr R n)
    (P : List (Fin n) → Expr R n → Prop)
    (hval : ∀ (d : Dict (Sym n) (Expr R n)) (idx : List (Fin n)), idx.Pairwise (· < ·) →
      (∀ m : List (Fin n), m.Pairwise (· < ·) → m.length < idx.length →
        ∃ E, d.get? (key m) = some E ∧ P m E) →
      (∀ s, (∀ m, s ≠ key m) → d.get? s = none) → P idx (val d idx)) :
    let D := (flat (indexes n)).foldl (fun d idx => Dict.set d (key idx) (val d idx)) []
    (∀ m : List (Fin n), m.Pairwise (· < ·) → ∃ E, D.get? (key m) = some E ∧ P m E) ∧
    (∀ s, (∀ m, s ≠ key m) → D.get? s = none) := by
  have main : ∀ (suf pre : List (List (Fin n))) (d : Dict (Sym n) (Expr R n)),
      flat (indexes n) = pre ++ suf →
      (∀ m ∈ pre, ∃ E, d.get? (key m) = some E ∧ P m E) →
      (∀ s, (∀ m, s ≠ key m) → d.get? s = none) →
      (∀ m ∈ pre ++ suf, ∃ E,
        (suf.foldl (fun d idx => Dict.set d (key idx) (val d idx)) d).get? (key m) = some E ∧ P m E) ∧
      (∀ s, (∀ m, s ≠ key m) →
        (suf.foldl (fun d idx => Dict.set d (key idx) (val d idx)) d).get? s = none) := by
    intro suf
    induction suf with
    | nil => intro pre d _ h1 h2; exact ⟨by simpa using h1, h2⟩
    | cons idx suf ih =>
      intro pre d hL h1 h2
      have hidx : idx.Pairwise (· < ·) := by
        rw [← mem_flat_indexes, hL]; simp
      have hP : P idx (val d idx) := by
        refine hval d idx hidx ?_ h2
        intro m hm hlen
        refine h1 m ?_
        have hmem : m ∈ pre ++ idx :: suf := by rw [← hL]; exact mem_flat_indexes.mpr hm
        rcases List.mem_append.mp hmem with h | h
        · exact h
        · exfalso
          have hp := flat_indexes_length n
          rw [hL, List.pairwise_append] at hp
          have hp2 := List.pairwise_cons.mp hp.2.1
          rcases List.mem_cons.mp h with rfl | h
          · omega
          · have := hp2.1 m h
            omega
      have := ih (pre ++ [idx]) (Dict.set d (key idx) (val d idx)) (by simpa using hL) ?_ ?_
      · simpa using this
      · intro m hm
        rw [Dict.get?_set]
        split_ifs with h
        · rw [← hk h]; exact ⟨_, rfl, hP⟩
        · refine h1 m ?_
          rcases List.mem_append.mp hm with hm | hm
          · exact hm
          · rw [List.mem_singleton] at hm
            exact absurd (by rw [hm]) h
      · intro s hs'
        rw [Dict.get?_set, if_neg (fun h => hs' idx h.symm)]
        exact h2 s hs'
  intro D
  obtain ⟨h1, h2⟩ := main (flat (indexes n)) [] [] (by simp) (by simp) (by intros; rfl)
  exact ⟨fun m hm => h1 m (by simpa using mem_flat_indexes.mpr hm), h2⟩

/-- Value stored by `bladeExpansionStep`. -/
def bladeExpansionVal (d : Dict (Sym n) (Expr R n)) (index : List (Fin n)) : Expr R n :=
  if index.length ≤ 1 then [(1, mkBlade index)]
  else
    let a := lookupBlade (index.take 1)
    let A := lookupBlade (index.drop 1)
    let Aexpand := (d.get? A).getD errorE
    expand (smulE (⅟2 : R) (subE (basicMul g [(1, a)] Aexpand)
      (smulE ((-1) ^ index.length) (basicMul g Aexpand [(1, a)]))))

theorem bladeExpansionStep_eq (d : Dict (Sym n) (Expr R n)) (index : List (Fin n)) :
    bladeExpansionStep g d index = d.set (mkBlade index) (bladeExpansionVal g d index) := by
  unfold bladeExpansionStep bladeExpansionVal
  dsimp only
  split_ifs <;> rfl

include hs in
theorem bladeExpansionDict_spec :
    (∀ m : List (Fin n), m.Pairwise (· < ·) → ∃ E, (bladeExpansionDict g).get? (.blade m) = some E ∧
      BsLe m.length E ∧ den g E = Spec.blade g m ∧
      (2 ≤ m.length → ∃ E', E = expand E')) ∧
    (∀ s, (∀ m, s ≠ .blade m) → (bladeExpansionDict g).get? s = none) := by
  have := foldl_dict (R := R) (n := n) mkBlade mkBlade_inj (bladeExpansionVal g)
    (fun m E => BsLe m.length E ∧ den g E = Spec.blade g m ∧ (2 ≤ m.length → ∃ E', E = expand E')) ?_
  · simp only [← bladeExpansionStep_eq] at this
    exact this
  · intro d idx hidx ih _
    unfold bladeExpansionVal
    split_ifs with hl
    · refine ⟨?_, ?_, fun h => by omega⟩
      · simp only [BsLe, allSyms_cons, allSyms_nil, and_true]
        refine ⟨⟨idx, ?_, hidx⟩, le_rfl⟩
        rw [mkBase, if_pos hl]; rfl
      · simp [den, mkBlade, symDen]
    · match idx, hl, hidx with
      | [], hl, _ => simp at hl
      | i :: l, hl, hidx =>
        have hl' : l.Pairwise (· < ·) := (List.pairwise_cons.mp hidx).2
        obtain ⟨E, hE, hE1, hE2, -⟩ := ih l hl' (by simp)
        simp only [List.take_succ_cons, List.take_zero, List.drop_succ_cons, List.drop_zero]
        rw [lookupBlade_of (by simp : ([i] : List (Fin n)).Pairwise (· < ·)), lookupBlade_of hl']
        simp only [mkBlade] at hE
        rw [hE, Option.getD_some]
        have ha : BsLe 1 ([(1, .blade [i])] : Expr R n) := by
          simp only [BsLe, allSyms_cons, allSyms_nil, and_true]
          exact ⟨⟨[i], by simp [mkBase], by simp⟩, le_rfl⟩
        have hda : den g ([(1, .blade [i])] : Expr R n) = Spec.e g i := by
          simp [den, symDen, Spec.blade_singleton]
        obtain ⟨h1, h2⟩ := basicMul_spec g hs ha hE1
        obtain ⟨h3, h4⟩ := basicMul_spec g hs hE1 ha
        refine ⟨?_, ?_, fun _ => ⟨_, rfl⟩⟩
        · rw [List.length_cons]
          rw [add_comm] at h1
          exact AllSyms.expand (AllSyms.smulE _ (AllSyms.subE h1 (AllSyms.smulE _ h3)))
        · rw [den_expand, den_smulE, den_subE, den_smulE, h2, h4, hE2, hda]
          apply Spec.two_cancel (R := R)
          rw [Spec.two_smul_blade_cons, smul_smul, mul_invOf_self, one_smul, List.length_cons,
            pow_succ, mul_neg_one, neg_smul, sub_neg_eq_add]

/-- In the expansion of a blade the only base with the same number of vectors is the one with the
same indices, with coefficient one. -/
theorem leading_coef {E : Expr R n} {m : List (Fin n)} (hm : m.Pairwise (· < ·))
    (hE : BsLe m.length E) (hd : den g E = Spec.blade g m) {l : List (Fin n)}
    (hlt : l.Pairwise (· < ·)) (hlen : l.length = m.length) :
    lin (fun s => if s = mkBase l then (1 : R) else 0) E = if m = l then 1 else 0 := by
  -- the grade part
  have hgr : Spec.grade g m.length (den g E) =
      lin (fun s => if symLen s = m.length then Spec.grade g m.length (symDen g s) else 0) E := by
    rw [den_eq_lin, map_lin]
    refine lin_congr _ _ _ fun u hu => ?_
    split_ifs with h
    · rfl
    · obtain ⟨⟨k, hk, -⟩, hk2⟩ := hE u hu
      rw [hk] at h hk2 ⊢
      rw [symLen_mkBase] at h hk2
      rw [symDen_mkBase, Spec.grade_base_of_lt g (by omega)]
  -- coefficient of the basis element `l`
  let φ : Spec.Cl g →ₗ[R] R := (Finsupp.lapply l.toFinset ∘ₗ
    (Pi.basisFun R (Fin n)).ExteriorAlgebra.repr.toLinearMap) ∘ₗ (Spec.toExt g).toLinearMap
  have hφ : ∀ k : List (Fin n), k.Pairwise (· < ·) →
      φ (Spec.blade g k) = if k = l then 1 else 0 := by
    intro k hk
    have h := toExt_den g (A := [(1, Sym.blade k)])
      (by intro t ht; simp at ht; subst ht; exact ⟨k, rfl, hk⟩) l.toFinset
    rw [sort_toFinset hlt] at h
    simp only [den, List.map_cons, List.map_nil, List.sum_cons, List.sum_nil, one_smul, add_zero,
      symDen, coeff, Sym.blade.injEq] at h
    exact h
  rw [← hφ m hm]
  have : Spec.blade g m = Spec.grade g m.length (den g E) := by
    rw [hd, Spec.grade_blade, if_pos rfl]
  rw [this, hgr, map_lin]
  refine lin_congr _ _ _ fun u hu => ?_
  obtain ⟨⟨k, hk, hkt⟩, hk2⟩ := hE u hu
  rw [hk] at hk2 ⊢
  rw [symLen_mkBase] at hk2 ⊢
  split_ifs with h3 h4 h4
  · rw [symDen_mkBase, Spec.grade_base_of_eq g h4, hφ _ hkt, mkBase_inj h3, if_pos rfl]
  · exact absurd (by rw [mkBase_inj h3, hlen]) h4
  · rw [symDen_mkBase, Spec.grade_base_of_eq g h4, hφ _ hkt, if_neg]
    intro h; exact h3 (by rw [h])
  · exact (map_zero _).symm

/-- Value stored by `baseExpansionStep`. -/
def baseExpansionVal (bx d : Dict (Sym n) (Expr R n)) (index : List (Fin n)) : Expr R n :=
  if index.length ≤ 1 then [(1, mkBase index)]
  else
    let tmp := (bx.get? (mkBlade index)).getD errorE
    let tmp := subsE tmp [(mkBase index, [(-1, mkBlade index)])]
    expand (negE (subsE tmp d))

theorem baseExpansionStep_eq (bx d : Dict (Sym n) (Expr R n)) (index : List (Fin n)) :
    baseExpansionStep bx d index = d.set (mkBase index) (baseExpansionVal bx d index) := by
  unfold baseExpansionStep baseExpansionVal
  dsimp only
  split_ifs <;> rfl

theorem subsE_flatMap (E : Expr R n) (d d' : Dict (Sym n) (Expr R n)) :
    subsE (subsE E d) d' = E.flatMap fun t => subsE (subsE [t] d) d' := by
  unfold subsE
  rw [List.flatMap_assoc]
  simp

include hs in
theorem baseExpansionDict_spec :
    (∀ m : List (Fin n), m.Pairwise (· < ·) → ∃ E, (baseExpansionDict g).get? (mkBase m) = some E ∧
      AllSyms IsBl E ∧ den g E = Spec.base g m) ∧
    (∀ s, (∀ m, s ≠ mkBase m) → (baseExpansionDict g).get? s = none) := by
  obtain ⟨hbx, -⟩ := bladeExpansionDict_spec g hs
  have := foldl_dict (R := R) (n := n) mkBase mkBase_inj (baseExpansionVal (bladeExpansionDict g))
    (fun m E => AllSyms IsBl E ∧ den g E = Spec.base g m) ?_
  · simp only [← baseExpansionStep_eq] at this
    exact this
  · intro d idx hidx ih hnone
    unfold baseExpansionVal
    split_ifs with hl
    · constructor
      · simp only [allSyms_cons, allSyms_nil, and_true, mkBase, if_pos hl]
        exact ⟨idx, rfl, hidx⟩
      · simp [den, symDen_mkBase]
    · obtain ⟨E, hE, hE1, hE2, hE3⟩ := hbx idx hidx
      obtain ⟨E', rfl⟩ := hE3 (by omega)
      simp only [mkBlade, hE, Option.getD_some]
      -- terms other than the leading one have fewer vectors
      have hshort : ∀ t ∈ expand E', t.2 ≠ mkBase idx → symLen t.2 < idx.length := by
        intro t ht hne
        obtain ⟨⟨l, hl2, hlt⟩, hle⟩ := hE1 t ht
        refine lt_of_le_of_ne hle fun hlen => ?_
        rw [hl2, symLen_mkBase] at hlen
        have h1 := leading_coef g hidx hE1 hE2 hlt hlen
        rw [lin_expand, ← hl2, ← (mem_expand ht).1] at h1
        have h2 := (mem_expand ht).2.resolve_right
          (by rw [hl2, mkBase]; split_ifs <;> simp)
        rw [if_neg] at h1
        · exact h2 h1
        · rintro rfl; exact hne hl2
      have hlead := leading_coef g hidx hE1 hE2 hidx rfl
      rw [if_pos rfl] at hlead
      have hbase : mkBase idx = .base idx := by rw [mkBase, if_neg hl]
      have hblade : d.get? (.blade idx) = none := by
        refine hnone _ fun m => ?_
        rw [mkBase]
        split_ifs with h
        · intro h'; injection h' with h'; exact hl (h' ▸ h)
        · simp
      have hterm : ∀ t ∈ expand E',
          AllSyms IsBl (subsE (subsE [t] [(mkBase idx, [(-1, .blade idx)])]) d) ∧
          lin (symDen g) (subsE (subsE [t] [(mkBase idx, [(-1, .blade idx)])]) d) =
            t.1 • (symDen g t.2 - (if t.2 = mkBase idx then (1 : R) else 0) •
              (Spec.base g idx + Spec.blade g idx)) := by
        intro t ht
        by_cases h : t.2 = mkBase idx
        · have h1 : subsE [t] [(mkBase idx, [(-1, .blade idx)])] =
              [(t.1 * (-1), Sym.blade idx)] := by
            simp [subsE, Dict.get?, h, smulE]
          rw [h1]
          have h2 : subsE [(t.1 * (-1), Sym.blade idx)] d = [(t.1 * (-1), Sym.blade idx)] := by
            simp [subsE, hblade]
          rw [h2]
          refine ⟨by simpa using ⟨idx, rfl, hidx⟩, ?_⟩
          rw [if_pos h, h, symDen_mkBase]
          simp only [lin_cons, lin_nil, add_zero, symDen, one_smul, mul_smul]
          congr 1
          rw [neg_smul, one_smul]; abel
        · have h1 : subsE [t] [(mkBase idx, [(-1, .blade idx)])] = [t] := by
            simp [subsE, Dict.get?, Ne.symm h]
          rw [h1, if_neg h, zero_smul, sub_zero]
          obtain ⟨⟨l, hl2, hlt⟩, -⟩ := hE1 t ht
          have h3 := hshort t ht h
          rw [hl2, symLen_mkBase] at h3
          obtain ⟨F, hF, hF1, hF2⟩ := ih l hlt h3
          have h4 : subsE [t] d = smulE t.1 F := by simp [subsE, hl2, hF]
          rw [h4]
          refine ⟨hF1.smulE _, ?_⟩
          rw [lin_smulE, ← den_eq_lin, hF2, hl2, symDen_mkBase]
      constructor
      · refine AllSyms.expand (AllSyms.negE ?_)
        rw [subsE_flatMap]
        exact allSyms_flatMap fun t ht => (hterm t ht).1
      · rw [den_expand, den_negE, subsE_flatMap, den_eq_lin,
          lin_flatMap (symDen g) (expand E') _
            (fun s => symDen g s - (if s = mkBase idx then (1 : R) else 0) •
              (Spec.base g idx + Spec.blade g idx)) (fun t ht => (hterm t ht).2)]
        have hsplit : lin (fun s => symDen g s - (if s = mkBase idx then (1 : R) else 0) •
            (Spec.base g idx + Spec.blade g idx)) (expand E') =
            den g (expand E') -
              lin (fun s => if s = mkBase idx then (1 : R) else 0) (expand E') •
              (Spec.base g idx + Spec.blade g idx) := by
          rw [den_eq_lin]
          generalize expand E' = F
          induction F with
          | nil => simp
          | cons t F ih =>
            rw [lin_cons, lin_cons, lin_cons, ih, smul_sub, add_smul, smul_eq_mul, mul_smul]
            abel
        rw [hsplit, hlead, hE2, one_smul]
        abel

/-! ### Conversions between the representations -/

/-- `nc_subs` with a dictionary whose entries have the same meaning as their keys. -/
theorem ncSubs_spec {d : Dict (Sym n) (Expr R n)} {P Q : Sym n → Prop} (h1 : Q (.blade []))
    (hd : ∀ s, P s → (∃ E, d.get? s = some E ∧ AllSyms Q E ∧ den g E = symDen g s) ∨
      (d.get? s = none ∧ Q s)) {E : Expr R n} (hE : AllSyms P E) :
    AllSyms Q (ncSubs E d) ∧ den g (ncSubs E d) = den g E := by
  have hterm : ∀ t ∈ E, AllSyms Q (if t.2 = .blade [] then [t]
      else match d.get? t.2 with
        | some v => smulE t.1 v
        | none => [t]) ∧ lin (symDen g) (if t.2 = .blade [] then [t]
      else match d.get? t.2 with
        | some v => smulE t.1 v
        | none => [t]) = t.1 • symDen g t.2 := by
    intro t ht
    split_ifs with h
    · simpa [h] using h1
    · rcases hd t.2 (hE t ht) with ⟨F, hF, hF1, hF2⟩ | ⟨hF, hF1⟩
      · rw [hF]
        exact ⟨hF1.smulE _, by rw [lin_smulE, ← den_eq_lin, hF2]⟩
      · rw [hF]
        simpa using hF1
  exact ⟨allSyms_flatMap fun t ht => (hterm t ht).1,
    lin_flatMap _ _ _ (symDen g) fun t ht => (hterm t ht).2⟩

theorem isBs_ne_blade {s : Sym n} (h : IsBs s) (hb : ¬ IsBl s) : ∀ m, s ≠ .blade m := by
  rintro m rfl
  obtain ⟨l, hl, hlt⟩ := h
  rw [mkBase] at hl
  split_ifs at hl with h
  injection hl with hl
  exact hb ⟨m, rfl, hl ▸ hlt⟩

theorem isBl_ne_base {s : Sym n} (h : IsBl s) (hb : ¬ IsBs s) : ∀ m, s ≠ mkBase m := by
  rintro m rfl
  obtain ⟨l, hl, hlt⟩ := h
  rw [mkBase] at hl
  split_ifs at hl with h
  injection hl with hl
  exact hb ⟨m, rfl, hl ▸ hlt⟩

include hs in
/-- Blade to base representation. -/
theorem toBase_spec {A : Expr R n} (hA : AllSyms IsAny A) :
    AllSyms IsBs (ncSubs (expand A) (bladeExpansionDict g)) ∧
      den g (ncSubs (expand A) (bladeExpansionDict g)) = den g A := by
  obtain ⟨h1, h2⟩ := bladeExpansionDict_spec g hs
  have := ncSubs_spec g (P := IsAny) (Q := IsBs) (d := bladeExpansionDict g) isBs_one ?_ hA.expand
  · rwa [den_expand] at this
  · intro s hs'
    by_cases hb : IsBl s
    · obtain ⟨m, rfl, hm⟩ := hb
      obtain ⟨E, hE, hE1, hE2, -⟩ := h1 m hm
      exact Or.inl ⟨E, hE, hE1.mono fun _ h => h.1, hE2⟩
    · have hB := hs'.resolve_left hb
      exact Or.inr ⟨h2 s (isBs_ne_blade hB hb), hB⟩

include hs in
/-- Base to blade representation. -/
theorem toBlade_spec {A : Expr R n} (hA : AllSyms IsAny A) :
    AllSyms IsBl (ncSubs (expand A) (baseExpansionDict g)) ∧
      den g (ncSubs (expand A) (baseExpansionDict g)) = den g A := by
  obtain ⟨h1, h2⟩ := baseExpansionDict_spec g hs
  have := ncSubs_spec g (P := IsAny) (Q := IsBl) (d := baseExpansionDict g) isBl_one ?_ hA.expand
  · rwa [den_expand] at this
  · intro s hs'
    by_cases hb : IsBs s
    · obtain ⟨m, rfl, hm⟩ := hb
      obtain ⟨E, hE, hE1, hE2⟩ := h1 m hm
      exact Or.inl ⟨E, hE, hE1, by rw [hE2, symDen_mkBase]⟩
    · have hB := hs'.resolve_right hb
      exact Or.inr ⟨h2 s (isBl_ne_base hB hb), hB⟩

/-! ### The geometric product -/

include hs in
theorem gpBladesNonOrtho_spec {s t : Sym n} (h1 : IsAny s) (h2 : IsAny t) :
    AllSyms IsBl (gpBladesNonOrtho g s t) ∧
      den g (gpBladesNonOrtho g s t) = symDen g s * symDen g t := by
  have hd : ∀ s : Sym n, den g [(1, s)] = symDen g s := fun s => by simp [den]
  obtain ⟨a1, a2⟩ := toBase_spec g hs (A := [(1, s)]) (by simpa using h1)
  obtain ⟨b1, b2⟩ := toBase_spec g hs (A := [(1, t)]) (by simpa using h2)
  have hle : ∀ {E : Expr R n}, AllSyms IsBs E → BsLe n E := fun h u hu => by
    refine ⟨h u hu, ?_⟩
    obtain ⟨l, hl, hlt⟩ := h u hu
    rw [hl, symLen_mkBase]
    exact length_le_of_lt hlt
  obtain ⟨c1, c2⟩ := basicMul_spec g hs (hle a1) (hle b1)
  obtain ⟨d1, d2⟩ := toBlade_spec g hs (c1.mono fun _ h => Or.inr h.1)
  refine ⟨d1, ?_⟩
  rw [gpBladesNonOrtho, d2, c2, a2, b2, hd, hd]

/-- The symbols that the geometric product accepts: in the orthogonal case blades, otherwise
blades and bases. -/
def MulSym (s : Sym n) : Prop := if isOrtho g then IsBl s else IsAny s

theorem isBl_mulSym {s : Sym n} (h : IsBl s) : MulSym g s := by
  rw [MulSym]; split_ifs
  · exact h
  · exact Or.inl h

include hs in
theorem gpBlades_spec {s t : Sym n} (h1 : MulSym g s) (h2 : MulSym g t) :
    AllSyms IsBl (gpBlades g s t) ∧ den g (gpBlades g s t) = symDen g s * symDen g t := by
  rw [gpBlades]
  rw [MulSym] at h1 h2
  split_ifs at * with h
  · exact gpBladesOrtho_spec g (isOrtho_symm hs h) h1 h2
  · exact gpBladesNonOrtho_spec g hs h1 h2

include hs in
theorem mul_spec {A B : Expr R n} (hA : AllSyms (MulSym g) A) (hB : AllSyms (MulSym g) B) :
    Valid (mul g A B) ∧ den g (mul g A B) = den g A * den g B := by
  have h1 := isBl_mulSym g (n := n) isBl_one
  exact ⟨allSyms_uas hA hB h1 h1 fun s t hs' ht => (gpBlades_spec g hs hs' ht).1,
    lin_uas (symDen g) (symDen g) (symDen g) (LinearMap.mul R (Spec.Cl g)) hA hB h1 h1
      fun s t hs' ht => (gpBlades_spec g hs hs' ht).2⟩

include hs in
theorem mul_valid {A B : Expr R n} (hA : Valid A) (hB : Valid B) : Valid (mul g A B) :=
  (mul_spec g hs ((valid_iff.mp hA).mono fun _ => isBl_mulSym g)
    ((valid_iff.mp hB).mono fun _ => isBl_mulSym g)).1

include hs in
theorem den_mul {A B : Expr R n} (hA : Valid A) (hB : Valid B) :
    den g (mul g A B) = den g A * den g B :=
  (mul_spec g hs ((valid_iff.mp hA).mono fun _ => isBl_mulSym g)
    ((valid_iff.mp hB).mono fun _ => isBl_mulSym g)).2

end bases

end GA
