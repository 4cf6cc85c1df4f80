import Verif.Proofs.Dop

/-! Operators acting on scalar fields: only the derivatives of functions have to commute. -/

set_option linter.unusedSectionVars false

namespace GA
variable {n : ℕ} {K : Type*} [Field K] [DecidableEq K] [Invertible (2 : K)]

/-- What the proofs need of an algebra with coordinates `Fin n`. -/
structure EnvS (X : Fields (Fin n) K n) (D : Fin n → Derivation ℤ K K)
    (Γ : Fin n → Matrix (Fin n) (Fin n) K) : Prop where
  symm : X.g.IsSymm
  diff : ∀ i, X.D i = D i
  idx : ∀ i, X.idx i = some i
  conn : IsConnection X.g X.conn Γ
  compat : ∀ i, Spec.Compatible X.g (D i) (Γ i)
  comm : ∀ i j f, D i (D j f) = D j (D i f)

variable {X : Fields (Fin n) K n} {D : Fin n → Derivation ℤ K K}
  {Γ : Fin n → Matrix (Fin n) (Fin n) K}

theorem call_algebraMap (g : Matrix (Fin n) (Fin n) K) (p : Pdop (Fin n)) (f : K) :
    p.call (basicDiff fun i => Spec.deriv g (D i) (Γ i)) (algebraMap K (Spec.Cl g) f) =
      algebraMap K _ (p.call (basicDiff fun i => D i) f) := by
  induction p generalizing f with
  | nil => rfl
  | cons t p ih =>
    have e : ∀ k : ℕ, (Spec.deriv g (D t.1) (Γ t.1))^[k] (algebraMap K (Spec.Cl g) f) =
        algebraMap K _ ((D t.1)^[k] f) := by
      intro k
      induction k with
      | zero => rfl
      | succ k ih => rw [Function.iterate_succ_apply', Function.iterate_succ_apply', ih, Spec.deriv_algebraMap]
    have := ih ((D t.1)^[t.2] f)
    rw [← e] at this
    exact this

theorem callScalar_rep (h : EnvS X D Γ) (p : Pdop (Fin n)) (x : K) :
    Rep X.g (p.call (Mv.diffN X) (Mv.scalarMv x)) (algebraMap K _ (p.call (basicDiff fun i => D i) x)) :=
  (callMv_rep h.symm h.diff h.idx h.conn p (Rep.scalarMv x)).congr (call_algebraMap X.g p x)

/-- The operator of a term on scalar fields, on the right (`side = false`) or on the left (`side = true`). -/
noncomputable def kact (X : Fields (Fin n) K n) (D : Fin n → Derivation ℤ K K)
    (_Γ : Fin n → Matrix (Fin n) (Fin n) K) (op : ProdOp) (side : Bool) (A : Mv K n)
    (p : Pdop (Fin n)) : K → Spec.Cl X.g := fun f =>
  if side = false then opS X.g op (A.val X.g) (algebraMap K _ (p.call (basicDiff fun i => D i) f))
  else opS X.g op (algebraMap K _ (p.call (basicDiff fun i => D i) f)) (A.val X.g)

theorem kmeaning (h : EnvS X D Γ) (op : ProdOp) (side : Bool) :
    Meaning (GoodMv X.g) (Mv.eqZero X.g) (Mv.add X.g) (kact X D Γ op side) where
  good_add := fun ha hb => (Rep.add h.symm ha.rep hb.rep).good
  add := by
    intro a b ha hb p
    funext F
    rw [Pi.add_apply, kact, kact, kact, (Rep.add h.symm ha.rep hb.rep).val]
    cases side
    · exact opS_add_left op _ _ _
    · exact opS_add_right op _ _ _
  zero := by
    intro a ha hz p
    funext F
    rw [kact, (eqZero_iff h.symm ha.rep).mp hz]
    cases side
    · exact opS_zero_left op _
    · exact opS_zero_right op _
  eqv := by
    intro p q hp _ hpq a
    funext F
    rw [kact, kact, Pdop.call_perm (fun i => D i) h.comm (Pdop.eqv_perm hp hpq)]

theorem kact_diff (h : EnvS X D Γ) (op : ProdOp) (side : Bool) (i : Fin n) {A : Mv K n}
    (hA : GoodMv X.g A) {p : Pdop (Fin n)} (hp : p.WF) :
    (fun F => grd X D Γ i (kact X D Γ op side A p F)) =
      kact X D Γ op side (A.diffN X i 1) p + kact X D Γ op side A (p.diff i 1) := by
  funext F
  have h1 := diffN_rep h.symm h.diff h.idx h.conn i 1 hA.rep
  rw [Pi.add_apply, kact, kact, kact, Pdop.call_diff (fun i => D i) h.comm hp, h1.val]
  cases side
  · refine (opS_deriv h.symm (h.compat i) op _ _).trans ?_
    rw [Spec.deriv_algebraMap]; rfl
  · refine (opS_deriv h.symm (h.compat i) op _ _).trans ?_
    rw [Spec.deriv_algebraMap, add_comm]; rfl

/-- The action of an operator on scalar fields. -/
noncomputable def Dop.actK (X : Fields (Fin n) K n) (D : Fin n → Derivation ℤ K K)
    (Γ : Fin n → Matrix (Fin n) (Fin n) K) (op : ProdOp) (d : Dop (Fin n) K n) :
    K → Spec.Cl X.g := tsum (kact X D Γ op d.cmpflg) d.terms

theorem Dop.consolidate_specK (h : EnvS X D Γ) {d : Dop (Fin n) K n} (hd : d.Good X) :
    (d.consolidate X).Good X ∧ (d.consolidate X).cmpflg = d.cmpflg ∧
      ∀ op, (d.consolidate X).actK X D Γ op = d.actK X D Γ op :=
  ⟨(GA.consolidate_spec (kmeaning h .geo d.cmpflg) hd).1, rfl, fun op =>
    (GA.consolidate_spec (kmeaning h op d.cmpflg) hd).2⟩

theorem kact_zero (X : Fields (Fin n) K n) (D : Fin n → Derivation ℤ K K)
    (Γ : Fin n → Matrix (Fin n) (Fin n) K) (op : ProdOp) (side : Bool) (p : Pdop (Fin n)) :
    kact X D Γ op side Mv.zero p = 0 := by
  funext F
  rw [kact, (Rep.zero (g := X.g)).val]
  cases side
  · exact opS_zero_left op _
  · exact opS_zero_right op _

theorem Dop.add_specK (h : EnvS X D Γ) {d e : Dop (Fin n) K n} (hd : d.Good X) (he : e.Good X)
    (hf : d.cmpflg = e.cmpflg) : ∃ f, d.add X e = some f ∧ f.Good X ∧ f.cmpflg = d.cmpflg ∧
      ∀ op, f.actK X D Γ op = d.actK X D Γ op + e.actK X D Γ op := by
  refine ⟨⟨mergeTerms (Mv.eqZero X.g) (Mv.add X.g) Mv.zero d.terms e.terms, d.cmpflg⟩, if_pos hf, ?_,
    rfl, fun op => ?_⟩
  · exact (merge_spec (kmeaning h .geo d.cmpflg) (Rep.zero (g := X.g)).good
      (kact_zero X D Γ _ _) hd he).1
  · have := (merge_spec (kmeaning h op d.cmpflg) (Rep.zero (g := X.g)).good
      (kact_zero X D Γ _ _) hd he).2
    rw [Dop.actK, Dop.actK, Dop.actK, ← hf]
    exact this

theorem Dop.diff_specK (h : EnvS X D Γ) (i : Fin n) (k : ℕ) {d : Dop (Fin n) K n} (hd : d.Good X) :
    (d.diff X i k).Good X ∧ (d.diff X i k).cmpflg = d.cmpflg ∧
      ∀ op F, (d.diff X i k).actK X D Γ op F = (grd X D Γ i)^[k] (d.actK X D Γ op F) := by
  have key := fun op => GA.diff_spec (kmeaning h op d.cmpflg) (d := Mv.diffN X) (x := i)
    (fun ha => (diffN_rep h.symm h.diff h.idx h.conn i 1 ha.rep).good)
    (δ := fun T F => grd X D Γ i (T F)) (by funext F; exact Spec.deriv_zero _ _)
    (by intro S T; funext F; exact Spec.deriv_add _ _ _ _)
    (by intro a ha p hp; exact kact_diff h op d.cmpflg i ha hp) k hd
  refine ⟨(key .geo).1, rfl, fun op F => ?_⟩
  refine (congrFun (key op).2 F).trans ?_
  rw [Dop.actK]
  generalize tsum (kact X D Γ op d.cmpflg) d.terms = T
  clear key
  induction k with
  | zero => rfl
  | succ k ih => rw [Function.iterate_succ_apply', Function.iterate_succ_apply', ih]

theorem Dop.call_specK (h : EnvS X D Γ) (p : Pdop (Fin n)) {d : Dop (Fin n) K n} (hd : d.Good X) :
    (p.call (Dop.diff X) d).Good X ∧ (p.call (Dop.diff X) d).cmpflg = d.cmpflg ∧
      ∀ op F, (p.call (Dop.diff X) d).actK X D Γ op F =
        p.call (basicDiff (grd X D Γ)) (d.actK X D Γ op F) := by
  induction p generalizing d with
  | nil => exact ⟨hd, rfl, fun _ _ => rfl⟩
  | cons t p ih =>
    have h1 := Dop.diff_specK h t.1 t.2 hd
    have h2 := ih h1.1
    refine ⟨h2.1, h2.2.1.trans h1.2.1, fun op F => ?_⟩
    have := h2.2.2 op F
    rw [h1.2.2 op F] at this
    exact this

/-- Application of an operator to a multivector. -/
theorem Dop.apply_rightK (h : EnvS X D Γ) (op : ProdOp) {d : Dop (Fin n) K n} (hd : d.Good X)
    (hf : d.cmpflg = false) (x : K) :
    ∃ G, d.mulMv X op (Mv.scalarMv x) = .inl G ∧ Rep X.g G (d.actK X D Γ op x) := by
  refine ⟨_, by rw [Dop.mulMv, if_pos hf], ?_⟩
  have := foldl_add_rep h.symm d.terms (fun t => Mv.mulOp X.g op t.1 (t.2.call (Mv.diffN X) (Mv.scalarMv x)))
    (fun t => opS X.g op (t.1.val X.g) (algebraMap K _ (t.2.call (basicDiff fun i => D i) x)))
    (fun t ht => mulOp_rep h.symm op (hd t ht).1.rep
      (callScalar_rep h t.2 x)) (Rep.scalarMv (g := X.g) 0)
  refine this.congr ?_
  rw [map_zero, zero_add, Dop.actK, hf]
  clear this hd
  induction d.terms with
  | nil => rfl
  | cons t l ih => rw [List.map_cons, List.sum_cons, ih, tsum_cons]; rfl

theorem Dop.apply_leftK (h : EnvS X D Γ) (op : ProdOp) {d : Dop (Fin n) K n} (hd : d.Good X)
    (hf : d.cmpflg = true) (x : K) :
    ∃ G, Dop.mvMul X op (Mv.scalarMv x) d = .inl G ∧ Rep X.g G (d.actK X D Γ op x) := by
  refine ⟨_, by rw [Dop.mvMul, if_neg (by rw [hf]; exact Bool.noConfusion)], ?_⟩
  have := foldl_add_rep h.symm d.terms (fun t => Mv.mulOp X.g op (t.2.call (Mv.diffN X) (Mv.scalarMv x)) t.1)
    (fun t => opS X.g op (algebraMap K _ (t.2.call (basicDiff fun i => D i) x)) (t.1.val X.g))
    (fun t ht => mulOp_rep h.symm op
      (callScalar_rep h t.2 x) (hd t ht).1.rep) (Rep.scalarMv (g := X.g) 0)
  refine this.congr ?_
  rw [map_zero, zero_add, Dop.actK, hf]
  clear this hd
  induction d.terms with
  | nil => rfl
  | cons t l ih => rw [List.map_cons, List.sum_cons, ih, tsum_cons]; rfl

/-- A multivector times an operator on the right. -/
theorem Dop.mvMul_specK (h : EnvS X D Γ) {op : ProdOp} (ha : op = .geo ∨ op = .outer)
    {d : Dop (Fin n) K n} (hd : d.Good X) (hf : d.cmpflg = false) {A : Mv K n} {a : Spec.Cl X.g}
    (hA : Rep X.g A a) : ∃ e, Dop.mvMul X op A d = .inr e ∧ e.Good X ∧ e.cmpflg = false ∧
      ∀ F, e.actK X D Γ op F = opS X.g op a (d.actK X D Γ op F) := by
  have g1 : Dop.Good X ⟨d.terms.map fun t => (Mv.mulOp X.g op A t.1, t.2), false⟩ := by
    intro t ht
    obtain ⟨s, hs, rfl⟩ := List.mem_map.mp ht
    exact ⟨(mulOp_rep h.symm op hA (hd s hs).1.rep).good, (hd s hs).2⟩
  have h1 := Dop.consolidate_specK h g1
  refine ⟨_, by rw [Dop.mvMul, if_pos hf], h1.1, h1.2.1, fun F => ?_⟩
  rw [h1.2.2 op, Dop.actK, Dop.actK, hf]
  have hd' : TWF (GoodMv X.g) d.terms := hd
  clear h1 g1 hd hf
  dsimp only
  generalize d.terms = l at hd'
  induction l with
  | nil => exact (opS_zero_right op _).symm
  | cons t l ih =>
    rw [twf_cons] at hd'
    rw [List.map_cons, tsum_cons, Pi.add_apply, ih hd'.2, tsum_cons, Pi.add_apply, opS_add_right]
    congr 1
    rw [kact, kact, if_pos rfl, if_pos rfl, (mulOp_rep h.symm op hA hd'.1.1.rep).val, opS_assoc ha]

/-- An operator on the left times a multivector. -/
theorem Dop.mulMv_specK (h : EnvS X D Γ) {op : ProdOp} (ha : op = .geo ∨ op = .outer)
    {d : Dop (Fin n) K n} (hd : d.Good X) (hf : d.cmpflg = true) {A : Mv K n} {a : Spec.Cl X.g}
    (hA : Rep X.g A a) : ∃ e, Dop.mulMv X op d A = .inr e ∧ e.Good X ∧ e.cmpflg = true ∧
      ∀ F, e.actK X D Γ op F = opS X.g op (d.actK X D Γ op F) a := by
  have g1 : Dop.Good X ⟨d.terms.map fun t => (Mv.mulOp X.g op t.1 A, t.2), true⟩ := by
    intro t ht
    obtain ⟨s, hs, rfl⟩ := List.mem_map.mp ht
    exact ⟨(mulOp_rep h.symm op (hd s hs).1.rep hA).good, (hd s hs).2⟩
  have h1 := Dop.consolidate_specK h g1
  refine ⟨_, by rw [Dop.mulMv, if_neg (by rw [hf]; exact Bool.noConfusion)], h1.1, h1.2.1, fun F => ?_⟩
  rw [h1.2.2 op, Dop.actK, Dop.actK, hf]
  have hd' : TWF (GoodMv X.g) d.terms := hd
  clear h1 g1 hd hf
  dsimp only
  generalize d.terms = l at hd'
  induction l with
  | nil => exact (opS_zero_left op _).symm
  | cons t l ih =>
    rw [twf_cons] at hd'
    rw [List.map_cons, tsum_cons, Pi.add_apply, ih hd'.2, tsum_cons, Pi.add_apply, opS_add_left]
    congr 1
    rw [kact, kact, if_neg (by simp), if_neg (by simp), (mulOp_rep h.symm op hd'.1.1.rep hA).val,
      opS_assoc ha]

theorem Dop.sum_specK (h : EnvS X D Γ) (op : ProdOp) {ι : Type*} (l : List ι)
    (f : ι → Mv K n ⊕ Dop (Fin n) K n) (T : ι → K → Spec.Cl X.g) (b : Bool)
    (hf : ∀ i ∈ l, ∃ e, f i = .inr e ∧ e.Good X ∧ e.cmpflg = b ∧ e.actK X D Γ op = T i)
    {d : Dop (Fin n) K n} (hd : d.Good X) (hb : d.cmpflg = b) :
    ∃ e, Dop.sum X d (l.map f) = some e ∧ e.Good X ∧ e.cmpflg = b ∧
      e.actK X D Γ op = d.actK X D Γ op + (l.map T).sum := by
  induction l generalizing d with
  | nil => exact ⟨d, rfl, hd, hb, by simp⟩
  | cons i l ih =>
    obtain ⟨e, h1, h2, h3, h4⟩ := hf i (by simp)
    obtain ⟨d', k1, k2, k3, k4⟩ := Dop.add_specK h hd h2 (hb.trans h3.symm)
    obtain ⟨e', m1, m2, m3, m4⟩ := ih (fun j hj => hf j (by simp [hj])) k2 (k3.trans hb)
    refine ⟨e', ?_, m2, m3, ?_⟩
    · rw [Dop.sum, List.map_cons, List.foldlM_cons, h1]
      simp only [k1]
      exact m1
    · rw [m4, k4, h4, List.map_cons, List.sum_cons, add_assoc]

theorem Dop.nil_actK (X : Fields (Fin n) K n) (D : Fin n → Derivation ℤ K K)
    (Γ : Fin n → Matrix (Fin n) (Fin n) K) (op : ProdOp) (b : Bool) :
    Dop.actK X D Γ op ⟨[], b⟩ = 0 := rfl

/-- Composition of operators on the right. -/
theorem Dop.mul_specK (h : EnvS X D Γ) {op : ProdOp} (ha : op = .geo ∨ op = .outer)
    {d e : Dop (Fin n) K n} (hd : d.Good X) (he : e.Good X) (hdf : d.cmpflg = false)
    (hef : e.cmpflg = false) : ∃ f, Dop.mul X op d e = some f ∧ f.Good X ∧ f.cmpflg = false ∧
      ∀ F, f.actK X D Γ op F = d.actS X D Γ op (e.actK X D Γ op F) := by
  obtain ⟨f, h1, h2, h3, h4⟩ := Dop.sum_specK h op d.terms
    (fun t => Dop.mvMul X op t.1 (t.2.call (Dop.diff X) e))
    (fun t F => mact X D Γ op false t.1 t.2 (e.actK X D Γ op F)) false (by
      intro t ht
      have k1 := Dop.call_specK h t.2 he
      obtain ⟨f, m1, m2, m3, m4⟩ := Dop.mvMul_specK h ha k1.1 (k1.2.1.trans hef) (hd t ht).1.rep
      refine ⟨f, m1, m2, m3, ?_⟩
      funext F
      rw [m4, k1.2.2, mact, if_pos rfl]) (Dop.nil_good X false) rfl
  have h5 := Dop.consolidate_specK h h2
  refine ⟨f.consolidate X, ?_, h5.1, h5.2.1.trans h3, fun F => ?_⟩
  · rw [Dop.mul, if_pos (hdf.trans hef.symm), if_pos hdf, h1]; rfl
  · have e1 : d.actS X D Γ op = tsum (mact X D Γ op false) d.terms := by rw [Dop.actS, hdf]
    rw [h5.2.2, h4, Dop.nil_actK, zero_add, e1, sum_apply', tsum, sum_apply', List.map_map,
      List.map_map]
    rfl

/-- Composition of operators on the left. -/
theorem Dop.mul_spec_leftK (h : EnvS X D Γ) {op : ProdOp} (ha : op = .geo ∨ op = .outer)
    {d e : Dop (Fin n) K n} (hd : d.Good X) (he : e.Good X) (hdf : d.cmpflg = true)
    (hef : e.cmpflg = true) : ∃ f, Dop.mul X op d e = some f ∧ f.Good X ∧ f.cmpflg = true ∧
      ∀ F, f.actK X D Γ op F = e.actS X D Γ op (d.actK X D Γ op F) := by
  obtain ⟨f, h1, h2, h3, h4⟩ := Dop.sum_specK h op e.terms
    (fun t => Dop.mulMv X op (t.2.call (Dop.diff X) d) t.1)
    (fun t F => mact X D Γ op true t.1 t.2 (d.actK X D Γ op F)) true (by
      intro t ht
      have k1 := Dop.call_specK h t.2 hd
      obtain ⟨f, m1, m2, m3, m4⟩ := Dop.mulMv_specK h ha k1.1 (k1.2.1.trans hdf) (he t ht).1.rep
      refine ⟨f, m1, m2, m3, ?_⟩
      funext F
      rw [m4, k1.2.2, mact, if_neg (by simp)]) (Dop.nil_good X true) rfl
  have h5 := Dop.consolidate_specK h h2
  refine ⟨f.consolidate X, ?_, h5.1, h5.2.1.trans h3, fun F => ?_⟩
  · rw [Dop.mul, if_pos (hdf.trans hef.symm), if_neg (by rw [hdf]; exact Bool.noConfusion), h1]; rfl
  · have e1 : e.actS X D Γ op = tsum (mact X D Γ op true) e.terms := by rw [Dop.actS, hef]
    rw [h5.2.2, h4, Dop.nil_actK, zero_add, e1, sum_apply', tsum, sum_apply', List.map_map,
      List.map_map]
    rfl

/-- Application of an operator to a multivector. -/
theorem Dop.apply_right' (h : EnvS X D Γ) (op : ProdOp) {d : Dop (Fin n) K n} (hd : d.Good X)
    (hf : d.cmpflg = false) {F : Mv K n} {x : Spec.Cl X.g} (hF : Rep X.g F x) :
    ∃ G, d.mulMv X op F = .inl G ∧ Rep X.g G (d.actS X D Γ op x) := by
  refine ⟨_, by rw [Dop.mulMv, if_pos hf], ?_⟩
  have := foldl_add_rep h.symm d.terms (fun t => Mv.mulOp X.g op t.1 (t.2.call (Mv.diffN X) F))
    (fun t => opS X.g op (t.1.val X.g) (t.2.call (basicDiff (grd X D Γ)) x))
    (fun t ht => mulOp_rep h.symm op (hd t ht).1.rep
      (callMv_rep h.symm h.diff h.idx h.conn t.2 hF)) (Rep.scalarMv (g := X.g) 0)
  refine this.congr ?_
  rw [map_zero, zero_add, Dop.actS, hf]
  clear this hd
  induction d.terms with
  | nil => rfl
  | cons t l ih => rw [List.map_cons, List.sum_cons, ih, tsum_cons]; rfl

theorem Dop.apply_left' (h : EnvS X D Γ) (op : ProdOp) {d : Dop (Fin n) K n} (hd : d.Good X)
    (hf : d.cmpflg = true) {F : Mv K n} {x : Spec.Cl X.g} (hF : Rep X.g F x) :
    ∃ G, Dop.mvMul X op F d = .inl G ∧ Rep X.g G (d.actS X D Γ op x) := by
  refine ⟨_, by rw [Dop.mvMul, if_neg (by rw [hf]; exact Bool.noConfusion)], ?_⟩
  have := foldl_add_rep h.symm d.terms (fun t => Mv.mulOp X.g op (t.2.call (Mv.diffN X) F) t.1)
    (fun t => opS X.g op (t.2.call (basicDiff (grd X D Γ)) x) (t.1.val X.g))
    (fun t ht => mulOp_rep h.symm op
      (callMv_rep h.symm h.diff h.idx h.conn t.2 hF) (hd t ht).1.rep) (Rep.scalarMv (g := X.g) 0)
  refine this.congr ?_
  rw [map_zero, zero_add, Dop.actS, hf]
  clear this hd
  induction d.terms with
  | nil => rfl
  | cons t l ih => rw [List.map_cons, List.sum_cons, ih, tsum_cons]; rfl

end GA
