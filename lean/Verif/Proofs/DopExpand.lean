import Verif.Model.DopExpand
import Verif.Proofs.Dop
import Verif.Proofs.Coef

/-! Expansion of multivector operators by basis blades. -/

set_option linter.unusedSectionVars false

namespace GA
variable {n : ℕ} {K : Type*} [Field K] [DecidableEq K] [Invertible (2 : K)]

section opS
variable {g : Matrix (Fin n) (Fin n) K}

theorem gradedProduct_smul_left (f : ℕ → ℕ → Option ℕ) (c : K) (x z : Spec.Cl g) :
    Spec.gradedProduct g f (c • x) z = c • Spec.gradedProduct g f x z := by
  simp only [Spec.gradedProduct, Finset.smul_sum]
  refine Finset.sum_congr rfl fun r _ => Finset.sum_congr rfl fun s _ => ?_
  cases f r s with
  | none => simp
  | some t => simp only [map_smul, smul_mul_assoc]

theorem gradedProduct_smul_right (f : ℕ → ℕ → Option ℕ) (c : K) (x z : Spec.Cl g) :
    Spec.gradedProduct g f x (c • z) = c • Spec.gradedProduct g f x z := by
  simp only [Spec.gradedProduct, Finset.smul_sum]
  refine Finset.sum_congr rfl fun r _ => Finset.sum_congr rfl fun s _ => ?_
  cases f r s with
  | none => simp
  | some t => simp only [map_smul, mul_smul_comm]

theorem opS_smul_left (op : ProdOp) (c : K) (x z : Spec.Cl g) :
    opS g op (c • x) z = c • opS g op x z := by
  cases op
  · exact smul_mul_assoc c x z
  · exact Spec.smul_wedge c x z
  all_goals exact gradedProduct_smul_left _ c x z

theorem opS_smul_right (op : ProdOp) (c : K) (x z : Spec.Cl g) :
    opS g op x (c • z) = c • opS g op x z := by
  cases op
  · exact mul_smul_comm c x z
  · exact Spec.wedge_smul c x z
  all_goals exact gradedProduct_smul_right _ c x z

theorem opS_lin (op : ProdOp) (E : Expr K n) (z : Spec.Cl g) :
    opS g op (den g E) z = (E.map fun t => t.1 • opS g op (symDen g t.2) z).sum := by
  induction E with
  | nil => exact opS_zero_left op z
  | cons t E ih =>
    rw [den_eq_lin, lin_cons, opS_add_left, opS_smul_left, ← den_eq_lin, ih, List.map_cons,
      List.sum_cons]

end opS

section
variable {X : Fields (Fin n) K n} {D : Fin n → Derivation ℤ K K}
  {Γ : Fin n → Matrix (Fin n) (Fin n) K}

/-- The action of a term of a scalar operator on elements of the Clifford algebra. -/
noncomputable def cact (X : Fields (Fin n) K n) (D : Fin n → Derivation ℤ K K)
    (Γ : Fin n → Matrix (Fin n) (Fin n) K) (c : K) (p : Pdop (Fin n)) : Spec.Cl X.g → Spec.Cl X.g :=
  fun F => c • p.call (basicDiff (grd X D Γ)) F

theorem cmeaning (h : Env X D Γ) :
    Meaning (fun _ : K => True) (fun c => decide (c = 0)) (· + ·) (cact X D Γ) where
  good_add := fun _ _ => trivial
  add := fun _ _ p => by funext F; exact add_smul _ _ _
  zero := fun _ hz p => by
    funext F; rw [of_decide_eq_true hz]; exact zero_smul _ _
  eqv := by
    intro p q hp _ hpq a
    funext F
    rw [cact, cact, Pdop.call_perm (grd X D Γ) h.flat (Pdop.eqv_perm hp hpq)]

/-- The action of a scalar operator on elements of the Clifford algebra. -/
noncomputable def cactS (X : Fields (Fin n) K n) (D : Fin n → Derivation ℤ K K)
    (Γ : Fin n → Matrix (Fin n) (Fin n) K) (s : Sdop K (Fin n)) : Spec.Cl X.g → Spec.Cl X.g :=
  tsum (cact X D Γ) s

theorem Sdop.callMv_rep (h : Env X D Γ) (s : Sdop K (Fin n)) {F : Mv K n} {x : Spec.Cl X.g}
    (hF : Rep X.g F x) : Rep X.g (s.callMv X F) (cactS X D Γ s x) := by
  have := foldl_add_rep h.symm s (fun t => (t.2.call (Mv.diffN X) F).smul t.1)
    (fun t => cact X D Γ t.1 t.2 x)
    (fun t _ => Rep.smul t.1 (GA.callMv_rep h.symm h.diff h.idx h.conn t.2 hF))
    (Rep.scalarMv (g := X.g) 0)
  refine this.congr ?_
  rw [map_zero, zero_add, cactS]
  clear this
  induction s with
  | nil => rfl
  | cons t l ih => rw [List.map_cons, List.sum_cons, ih, tsum_cons]; rfl

/-- The action of a multivector times a scalar operator. -/
noncomputable def eact (X : Fields (Fin n) K n) (D : Fin n → Derivation ℤ K K)
    (Γ : Fin n → Matrix (Fin n) (Fin n) K) (op : ProdOp) (side : Bool) (m : Spec.Cl X.g)
    (s : Sdop K (Fin n)) : Spec.Cl X.g → Spec.Cl X.g := fun F =>
  if side = false then opS X.g op m (cactS X D Γ s F) else opS X.g op (cactS X D Γ s F) m

/-- `Dop([(sdop, mv), …])` is the sum of the multivectors times the scalar operators. -/
theorem Dop.ofSdops_spec (h : Env X D Γ) (b : Bool) {l : List (Sdop K (Fin n) × Mv K n)}
    (hl : ∀ t ∈ l, t.1.WF ∧ GoodMv X.g t.2) :
    (Dop.ofSdops X l b).Good X ∧ (Dop.ofSdops X l b).cmpflg = b ∧
      ∀ op, (Dop.ofSdops X l b).actS X D Γ op =
        (l.map fun t => eact X D Γ op b (t.2.val X.g) t.1).sum := by
  have h1 : TWF (GoodMv X.g) (l.flatMap fun t => t.1.map fun c => (t.2.smul c.1, c.2)) := by
    intro u hu
    obtain ⟨t, ht, hu⟩ := List.mem_flatMap.mp hu
    obtain ⟨c, hc, rfl⟩ := List.mem_map.mp hu
    exact ⟨(Rep.smul c.1 (hl t ht).2.rep).good, (hl t ht).1 c hc⟩
  refine ⟨(GA.consolidate_spec (mmeaning h .geo b) h1).1, rfl, fun op => ?_⟩
  refine (GA.consolidate_spec (mmeaning h op b) h1).2.trans ?_
  clear h1
  induction l with
  | nil => rfl
  | cons t l ih =>
    rw [List.flatMap_cons, tsum_append, ih fun u hu => hl u (by simp [hu]), List.map_cons,
      List.sum_cons]
    congr 1
    have hm := (hl t (by simp)).2.rep
    generalize t.1 = s
    funext F
    have key : ∀ s : Sdop K (Fin n),
        tsum (mact X D Γ op b) (s.map fun c => (t.2.smul c.1, c.2)) F =
          eact X D Γ op b (t.2.val X.g) s F := by
      intro s
      induction s with
      | nil =>
        rw [eact]
        cases b
        · exact (opS_zero_right op _).symm
        · exact (opS_zero_left op _).symm
      | cons c s ihs =>
        rw [List.map_cons, tsum_cons, Pi.add_apply, ihs, mact, (Rep.smul c.1 hm).val, eact, eact]
        cases b
        · exact (congrArg (· + _) ((opS_smul_left op _ _ _).trans (opS_smul_right op _ _ _).symm)).trans
            (opS_add_right op _ _ _).symm
        · exact (congrArg (· + _) ((opS_smul_right op _ _ _).trans (opS_smul_left op _ _ _).symm)).trans
            (opS_add_left op _ _ _).symm
    exact key s

/-- The action of a list of scalar operators and symbols. -/
noncomputable def esum (X : Fields (Fin n) K n) (D : Fin n → Derivation ℤ K K)
    (Γ : Fin n → Matrix (Fin n) (Fin n) K) (op : ProdOp) (side : Bool)
    (l : List (Sdop K (Fin n) × Sym n)) : Spec.Cl X.g → Spec.Cl X.g :=
  (l.map fun t => eact X D Γ op side (symDen X.g t.2) t.1).sum

theorem eact_add (op : ProdOp) (side : Bool) (m : Spec.Cl X.g) {s t u : Sdop K (Fin n)}
    (he : cactS X D Γ u = cactS X D Γ s + cactS X D Γ t) :
    eact X D Γ op side m u = eact X D Γ op side m s + eact X D Γ op side m t := by
  funext F
  rw [Pi.add_apply, eact, eact, eact, he]
  cases side
  · exact opS_add_right op _ _ _
  · exact opS_add_left op _ _ _

/-- What the loop keeps. -/
structure ExpInv (l : List (Sdop K (Fin n) × Sym n)) : Prop where
  wf : ∀ t ∈ l, t.1.WF
  nodup : (l.map Prod.snd).Nodup
  valid : ∀ t ∈ l, ∃ I : List (Fin n), t.2 = .blade I ∧ I.Pairwise (· < ·)

theorem addBase_snd (l : List (Sdop K (Fin n) × Sym n)) (c : K) (b : Sym n) (p : Pdop (Fin n)) :
    (addBase l c b p).map Prod.snd =
      if b ∈ l.map Prod.snd then l.map Prod.snd else l.map Prod.snd ++ [b] := by
  induction l with
  | nil => rfl
  | cons t l ih =>
    rw [addBase]
    by_cases hb : t.2 = b
    · simp [hb]
    · rw [if_neg hb, List.map_cons, ih]
      have : b ≠ t.2 := fun e => hb e.symm
      by_cases hm : b ∈ l.map Prod.snd
      · rw [if_pos hm, if_pos (by simp only [List.map_cons, List.mem_cons]; exact Or.inr hm), List.map_cons]
      · rw [if_neg hm, if_neg (by simp only [List.map_cons, List.mem_cons]; exact fun h => h.elim this hm),
          List.map_cons, List.cons_append]

theorem addBase_spec (h : Env X D Γ) {l : List (Sdop K (Fin n) × Sym n)} (hl : ExpInv l) (c : K)
    {b : Sym n} (hb : ∃ I : List (Fin n), b = .blade I ∧ I.Pairwise (· < ·)) {p : Pdop (Fin n)}
    (hp : p.WF) :
    ExpInv (addBase l c b p) ∧ ∀ op side, esum X D Γ op side (addBase l c b p) =
      esum X D Γ op side l + eact X D Γ op side (symDen X.g b) [(c, p)] := by
  have hw : Sdop.WF [(c, p)] := by simpa [Sdop.WF] using hp
  have hadd : ∀ {s : Sdop K (Fin n)}, s.WF → (Sdop.add s [(c, p)]).WF ∧
      cactS X D Γ (Sdop.add s [(c, p)]) = cactS X D Γ s + cactS X D Γ [(c, p)] := by
    intro s hs
    have := merge_spec (cmeaning h) (zero := (0 : K)) trivial
      (fun p => by funext F; exact zero_smul _ _) (twf_iff.mpr hs) (twf_iff.mpr hw)
    exact ⟨twf_iff.mp this.1, this.2⟩
  have key : (∀ t ∈ addBase l c b p, t.1.WF) ∧ ∀ op side, esum X D Γ op side (addBase l c b p) =
      esum X D Γ op side l + eact X D Γ op side (symDen X.g b) [(c, p)] := by
    replace hl := hl.wf
    induction l with
    | nil =>
      refine ⟨fun t ht => ?_, fun op side => ?_⟩
      · rw [addBase, List.mem_singleton] at ht; subst ht; exact hw
      · exact (add_comm _ _)
    | cons t l ih =>
      have ih := ih (fun u hu => hl u (by simp [hu]))
      rw [addBase]
      by_cases hb : t.2 = b
      · rw [if_pos hb]
        have := hadd (hl t (by simp))
        refine ⟨fun u hu => ?_, fun op side => ?_⟩
        · rcases List.mem_cons.mp hu with rfl | hu
          · exact this.1
          · exact hl u (by simp [hu])
        · rw [esum, esum, List.map_cons, List.map_cons, List.sum_cons, List.sum_cons,
            eact_add op side _ this.2, hb]
          abel
      · rw [if_neg hb]
        refine ⟨fun u hu => ?_, fun op side => ?_⟩
        · rcases List.mem_cons.mp hu with rfl | hu
          · exact hl u (by simp)
          · exact ih.1 u hu
        · have := ih.2 op side
          rw [esum] at this ⊢
          rw [List.map_cons, List.sum_cons, this, esum, esum, List.map_cons, List.sum_cons, add_assoc]
  refine ⟨⟨key.1, ?_, ?_⟩, key.2⟩
  · rw [addBase_snd]
    split_ifs with hm
    · exact hl.nodup
    · rw [List.nodup_append]
      exact ⟨hl.nodup, by simp, by simpa using fun a x ha e => hm (by
        rw [← e]; exact List.mem_map.mpr ⟨_, ha, rfl⟩)⟩
  · intro t ht
    have : t.2 ∈ (addBase l c b p).map Prod.snd := List.mem_map_of_mem ht
    rw [addBase_snd] at this
    have h3 : ∀ s ∈ l.map Prod.snd, ∃ I : List (Fin n), s = .blade I ∧ I.Pairwise (· < ·) := by
      intro s hs
      obtain ⟨u, hu, rfl⟩ := List.mem_map.mp hs
      exact hl.valid u hu
    split_ifs at this with hm
    · exact h3 _ this
    · rcases List.mem_append.mp this with h4 | h4
      · exact h3 _ h4
      · rw [List.mem_singleton.mp h4]; exact hb

theorem addBases_spec (h : Env X D Γ) {p : Pdop (Fin n)} (hp : p.WF) (E : Expr K n) (hE : Valid E)
    {l : List (Sdop K (Fin n) × Sym n)} (hl : ExpInv l) :
    ExpInv (E.foldl (fun acc u => addBase acc u.1 u.2 p) l) ∧ ∀ op side,
      esum X D Γ op side (E.foldl (fun acc u => addBase acc u.1 u.2 p) l) =
        esum X D Γ op side l +
          (E.map fun u => eact X D Γ op side (symDen X.g u.2) [(u.1, p)]).sum := by
  induction E generalizing l with
  | nil => exact ⟨hl, fun op side => by simp⟩
  | cons u E ih =>
    have h1 := addBase_spec h hl u.1 (hE u (by simp)) hp
    have h2 := ih (fun t ht => hE t (by simp [ht])) h1.1
    refine ⟨h2.1, fun op side => ?_⟩
    rw [List.foldl_cons, h2.2, h1.2, List.map_cons, List.sum_cons, add_assoc]

theorem eact_single (op : ProdOp) (side : Bool) (m : Spec.Cl X.g) (c : K) (p : Pdop (Fin n))
    (F : Spec.Cl X.g) : eact X D Γ op side m [(c, p)] F =
      if side = false then c • opS X.g op m (p.call (basicDiff (grd X D Γ)) F)
      else c • opS X.g op (p.call (basicDiff (grd X D Γ)) F) m := by
  have e : cactS X D Γ [(c, p)] F = c • p.call (basicDiff (grd X D Γ)) F := add_zero _
  rw [eact, e]
  cases side
  · exact opS_smul_right op _ _ _
  · exact opS_smul_left op _ _ _

theorem opS_lin_right {g : Matrix (Fin n) (Fin n) K} (op : ProdOp) (E : Expr K n) (z : Spec.Cl g) :
    opS g op z (den g E) = (E.map fun t => t.1 • opS g op z (symDen g t.2)).sum := by
  induction E with
  | nil => exact opS_zero_right op z
  | cons t E ih =>
    rw [den_eq_lin, lin_cons, opS_add_right, opS_smul_right, ← den_eq_lin, ih, List.map_cons,
      List.sum_cons]

theorem eact_lin (op : ProdOp) (side : Bool) {A : Mv K n} {E : Expr K n}
    (hE : den X.g E = A.val X.g) (p : Pdop (Fin n)) :
    (E.map fun u => eact X D Γ op side (symDen X.g u.2) [(u.1, p)]).sum = mact X D Γ op side A p := by
  funext F
  have : ((E.map fun u => eact X D Γ op side (symDen X.g u.2) [(u.1, p)]).sum) F =
      (E.map fun u => eact X D Γ op side (symDen X.g u.2) [(u.1, p)] F).sum := by
    clear hE
    induction E with
    | nil => rfl
    | cons t E ih => rw [List.map_cons, List.sum_cons, Pi.add_apply, ih]; rfl
  rw [this, mact, ← hE]
  cases side
  · rw [if_pos rfl, opS_lin]
    congr 1
    exact List.map_congr_left fun t _ => (eact_single _ _ _ _ _ _).trans (if_pos rfl)
  · rw [if_neg (by simp), opS_lin_right]
    congr 1
    exact List.map_congr_left fun t _ => (eact_single _ _ _ _ _ _).trans (if_neg (by simp))

theorem Dop.expandLoop_spec (h : Env X D Γ) {d : Dop (Fin n) K n} (hd : d.Good X) :
    ExpInv (d.expandLoop X) ∧ ∀ op,
      esum X D Γ op d.cmpflg (d.expandLoop X) = d.actS X D Γ op := by
  have key : ∀ (ts : List (Mv K n × Pdop (Fin n))) (l : List (Sdop K (Fin n) × Sym n)),
      TWF (GoodMv X.g) ts → ExpInv l →
      ExpInv (ts.foldl (fun acc t =>
        if t.1.isScalar X.g then addBase acc t.1.scalar (.blade []) t.2
        else (linearExpand t.1.obj).foldl (fun acc u => addBase acc u.1 u.2 t.2) acc) l) ∧
      ∀ op side, esum X D Γ op side (ts.foldl (fun acc t =>
        if t.1.isScalar X.g then addBase acc t.1.scalar (.blade []) t.2
        else (linearExpand t.1.obj).foldl (fun acc u => addBase acc u.1 u.2 t.2) acc) l) =
        esum X D Γ op side l + tsum (mact X D Γ op side) ts := by
    intro ts
    induction ts with
    | nil => exact fun l _ hl => ⟨hl, fun _ _ => (add_zero _).symm⟩
    | cons t ts ih =>
      intro l hts hl
      rw [twf_cons] at hts
      have hr := hts.1.1.rep
      have step : ExpInv (if t.1.isScalar X.g then addBase l t.1.scalar (.blade []) t.2
          else (linearExpand t.1.obj).foldl (fun acc u => addBase acc u.1 u.2 t.2) l) ∧
        ∀ op side, esum X D Γ op side (if t.1.isScalar X.g then addBase l t.1.scalar (.blade []) t.2
          else (linearExpand t.1.obj).foldl (fun acc u => addBase acc u.1 u.2 t.2) l) =
          esum X D Γ op side l + mact X D Γ op side t.1 t.2 := by
        by_cases hsc : t.1.isScalar X.g = true
        · rw [if_pos hsc]
          have h1 := addBase_spec h hl t.1.scalar (b := .blade []) ⟨[], rfl, List.Pairwise.nil⟩ hts.1.2
          refine ⟨h1.1, fun op side => ?_⟩
          rw [h1.2, ← eact_lin (E := [(t.1.scalar, .blade [])]) op side]
          · simp
          · obtain ⟨c, hc⟩ := (isScalar_iff h.symm hts.1.1.1).mp hsc
            have : t.1.scalar = c := hr.scalar_of (by rw [hc, grade_zero_algebraMap])
            rw [this, hc, Algebra.algebraMap_eq_smul_one]
            simp [den, symDen]
        · rw [if_neg hsc]
          have h1 := addBases_spec h hts.1.2 (linearExpand t.1.obj) (valid_linearExpand hr.valid) hl
          refine ⟨h1.1, fun op side => ?_⟩
          rw [h1.2, eact_lin op side]
          rw [den_linearExpand]; exact hr.den
      have h2 := ih _ hts.2 step.1
      refine ⟨h2.1, fun op side => ?_⟩
      rw [List.foldl_cons, h2.2, step.2, tsum_cons, add_assoc]
  have := key d.terms [] hd ⟨by simp, by simp, by simp⟩
  exact ⟨this.1, fun op => (this.2 op d.cmpflg).trans (zero_add _)⟩

/-- The order of the basis blades. -/
theorem blades_sorted {l : List (Sym n)} (hn : l.Nodup) (hm : ∀ s ∈ l, s ∈ flat (blades n))
    (hp : l.Pairwise fun s t => bladeIndex s ≤ bladeIndex t) : l.Sublist (flat (blades n)) := by
  have : l = (flat (blades n)).filter fun s => decide (s ∈ l) := by
    refine List.Perm.eq_of_pairwise (le := fun s t : Sym n => bladeIndex s ≤ bladeIndex t) ?_ hp ?_ ?_
    · intro a b ha _ h1 h2
      exact bladeIndex_inj (hm a ha) (le_antisymm h1 h2)
    · exact pairwise_bladeIndex List.filter_sublist
    · rw [List.perm_ext_iff_of_nodup hn ((nodup_flat_blades n).filter _)]
      intro s
      rw [List.mem_filter, decide_eq_true_eq]
      exact ⟨fun hs => ⟨hm s hs, hs⟩, fun hs => hs.2⟩
  rw [this]
  exact List.filter_sublist

/-- The expansion: scalar operators and distinct basis blades in order, with the same action. -/
theorem Dop.mvExpand_spec (h : Env X D Γ) {d : Dop (Fin n) K n} (hd : d.Good X) :
    ∃ l : List (Sdop K (Fin n) × List (Fin n)),
      d.mvExpand X = some (l.map fun t => (t.1, Sym.blade t.2)) ∧ (∀ t ∈ l, t.1.WF) ∧
      (l.map Prod.snd).Sublist (flat (indexes n)) ∧
      ∀ op, (l.map fun t => eact X D Γ op d.cmpflg (Spec.blade X.g t.2) t.1).sum = d.actS X D Γ op := by
  obtain ⟨h1, h2⟩ := Dop.expandLoop_spec h hd
  set L := d.expandLoop X with hL
  set S := L.insertionSort fun t u => bladeIndex t.2 ≤ bladeIndex u.2 with hS
  have hperm : S.Perm L := List.perm_insertionSort _ _
  have hmem : ∀ t ∈ L, t.2 ∈ flat (blades n) := fun t ht => mem_flat_blades.mpr (h1.valid t ht)
  have hsome : d.mvExpand X = some S := by
    rw [Dop.mvExpand, ← hL]
    exact if_pos (List.all_eq_true.mpr fun t ht => decide_eq_true (hmem t ht))
  have hsort : (S.map Prod.snd).Sublist (flat (blades n)) := by
    refine blades_sorted ((hperm.map _).nodup_iff.mpr h1.nodup) ?_ ?_
    · intro s hs
      obtain ⟨t, ht, rfl⟩ := List.mem_map.mp hs
      exact hmem t (hperm.mem_iff.mp ht)
    · rw [List.pairwise_map]
      have : Std.Total fun t u : Sdop K (Fin n) × Sym n => bladeIndex t.2 ≤ bladeIndex u.2 :=
        ⟨fun a b => le_total _ _⟩
      have : IsTrans (Sdop K (Fin n) × Sym n) fun t u => bladeIndex t.2 ≤ bladeIndex u.2 :=
        ⟨fun a b c h1 h2 => le_trans h1 h2⟩
      exact List.pairwise_insertionSort _ _
  have hx : ∃ l : List (Sdop K (Fin n) × List (Fin n)), S = l.map fun t => (t.1, Sym.blade t.2) := by
    have hv : ∀ t ∈ S, ∃ I : List (Fin n), t.2 = .blade I := fun t ht => by
      obtain ⟨I, hI, -⟩ := h1.valid t (hperm.mem_iff.mp ht)
      exact ⟨I, hI⟩
    clear_value S
    clear hperm hsome hsort hS
    induction S with
    | nil => exact ⟨[], rfl⟩
    | cons t S ih =>
      obtain ⟨l, rfl⟩ := ih fun u hu => hv u (by simp [hu])
      obtain ⟨I, hI⟩ := hv t (by simp)
      exact ⟨(t.1, I) :: l, by rw [List.map_cons, ← hI]⟩
  obtain ⟨l, hl⟩ := hx
  refine ⟨l, by rw [hsome, hl], ?_, ?_, fun op => ?_⟩
  · intro t ht
    exact h1.wf (t.1, Sym.blade t.2) (hperm.mem_iff.mp (by rw [hl]; exact List.mem_map.mpr ⟨t, ht, rfl⟩))
  · rw [hl, List.map_map, flat_blades] at hsort
    have e : (Prod.snd ∘ fun t : Sdop K (Fin n) × List (Fin n) => (t.1, (Sym.blade t.2 : Sym n))) =
        mkBlade ∘ Prod.snd := rfl
    rw [e, ← List.map_map] at hsort
    obtain ⟨l', h3, h4⟩ := List.sublist_map_iff.mp hsort
    have : l.map Prod.snd = l' := (List.map_injective_iff.mpr fun _ _ h => by injection h) h4
    rw [this]; exact h3
  · rw [← h2 op, esum]
    have := ((hperm.map fun t => eact X D Γ op d.cmpflg (symDen X.g t.2) t.1).sum_eq)
    rw [← this, hl, List.map_map]
    rfl

end
end GA
