import Verif.Proofs.Sdop
import Verif.Proofs.Conn

/-! Multivector differential operators. -/

set_option linter.unusedSectionVars false

namespace GA
variable {n : ℕ} {K : Type*} [Field K] [DecidableEq K] [Invertible (2 : K)]

/-- The products of the Clifford algebra. -/
noncomputable def opS (g : Matrix (Fin n) (Fin n) K) : ProdOp → Spec.Cl g → Spec.Cl g → Spec.Cl g
  | .geo => (· * ·)
  | .outer => Spec.wedge g
  | .inner => Spec.hestenesDot g
  | .left => Spec.leftContraction g
  | .right => Spec.rightContraction g

section opS
variable {g : Matrix (Fin n) (Fin n) K}

theorem gradedProduct_add_left (f : ℕ → ℕ → Option ℕ) (x y z : Spec.Cl g) :
    Spec.gradedProduct g f (x + y) z = Spec.gradedProduct g f x z + Spec.gradedProduct g f y z := by
  simp only [Spec.gradedProduct, ← Finset.sum_add_distrib]
  refine Finset.sum_congr rfl fun r _ => Finset.sum_congr rfl fun s _ => ?_
  cases f r s with
  | none => simp
  | some t => simp only [map_add, add_mul]

theorem gradedProduct_add_right (f : ℕ → ℕ → Option ℕ) (x y z : Spec.Cl g) :
    Spec.gradedProduct g f x (y + z) = Spec.gradedProduct g f x y + Spec.gradedProduct g f x z := by
  simp only [Spec.gradedProduct, ← Finset.sum_add_distrib]
  refine Finset.sum_congr rfl fun r _ => Finset.sum_congr rfl fun s _ => ?_
  cases f r s with
  | none => simp
  | some t => simp only [map_add, mul_add]

theorem opS_add_left (op : ProdOp) (x y z : Spec.Cl g) :
    opS g op (x + y) z = opS g op x z + opS g op y z := by
  cases op
  · exact add_mul x y z
  · exact Spec.add_wedge x y z
  all_goals exact gradedProduct_add_left _ x y z

theorem opS_add_right (op : ProdOp) (x y z : Spec.Cl g) :
    opS g op x (y + z) = opS g op x y + opS g op x z := by
  cases op
  · exact mul_add x y z
  · exact Spec.wedge_add x y z
  all_goals exact gradedProduct_add_right _ x y z

theorem opS_zero_left (op : ProdOp) (y : Spec.Cl g) : opS g op 0 y = 0 := by
  have := opS_add_left op (0 : Spec.Cl g) 0 y
  rw [add_zero] at this
  exact left_eq_add.mp this

theorem opS_zero_right (op : ProdOp) (x : Spec.Cl g) : opS g op x 0 = 0 := by
  have := opS_add_right op x (0 : Spec.Cl g) 0
  rw [add_zero] at this
  exact left_eq_add.mp this

theorem opS_assoc {op : ProdOp} (h : op = .geo ∨ op = .outer) (x y z : Spec.Cl g) :
    opS g op (opS g op x y) z = opS g op x (opS g op y z) := by
  rcases h with rfl | rfl
  · exact mul_assoc x y z
  · exact Spec.wedge_assoc x y z

theorem opS_deriv (hs : g.IsSymm) {D : Derivation ℤ K K} {Γ : Matrix (Fin n) (Fin n) K}
    (hc : Spec.Compatible g D Γ) (op : ProdOp) (x y : Spec.Cl g) :
    Spec.deriv g D Γ (opS g op x y) =
      opS g op (Spec.deriv g D Γ x) y + opS g op x (Spec.deriv g D Γ y) := by
  cases op
  · exact Spec.deriv_mul hs hc x y
  · exact Spec.deriv_wedge _ _ x y
  all_goals exact Spec.deriv_gradedProduct hs hc _ x y

theorem mulOp_rep (hs : g.IsSymm) (op : ProdOp) {A B : Mv K n} {x y : Spec.Cl g} (hA : Rep g A x)
    (hB : Rep g B y) : Rep g (Mv.mulOp g op A B) (opS g op x y) := by
  cases op
  · exact Rep.mul hs hA hB
  · exact Rep.wedge hs hA hB
  · exact Rep.dot hs hA hB
  · exact Rep.left hs hA hB
  · exact Rep.right hs hA hB

end opS

/-- Commuting derivatives of the basis vectors commute on all fields. -/
theorem deriv_comm {g : Matrix (Fin n) (Fin n) K} {D E : Derivation ℤ K K}
    {Γ Δ : Matrix (Fin n) (Fin n) K} (hD : ∀ f, D (E f) = E (D f))
    (hb : ∀ k, Spec.deriv g D Γ (Spec.deriv g E Δ (Spec.vec g (Pi.single k 1))) =
      Spec.deriv g E Δ (Spec.deriv g D Γ (Spec.vec g (Pi.single k 1)))) (x : Spec.Cl g) :
    Spec.deriv g D Γ (Spec.deriv g E Δ x) = Spec.deriv g E Δ (Spec.deriv g D Γ x) := by
  have hbl : ∀ l : List (Fin n), Spec.deriv g D Γ (Spec.deriv g E Δ (Spec.blade g l)) =
      Spec.deriv g E Δ (Spec.deriv g D Γ (Spec.blade g l)) := by
    intro l
    induction l with
    | nil => rw [Spec.blade_nil, Spec.deriv_one, Spec.deriv_one, Spec.deriv_zero, Spec.deriv_zero]
    | cons i l ih =>
      have e : Spec.blade g (i :: l) = Spec.wedge g (Spec.vec g (Pi.single i 1)) (Spec.blade g l) := by
        have := Spec.wedge_blade (g := g) [i] l
        rw [Spec.blade_singleton] at this
        exact this.symm
      rw [e]
      simp only [Spec.deriv_wedge, Spec.deriv_add, ih, hb]
      abel
  induction x using Spec.blade_induction g with
  | h0 => simp only [Spec.deriv_zero]
  | hadd a b ha hb => simp only [Spec.deriv_add, ha, hb]
  | hsm c l hl =>
    simp only [Spec.deriv_smul, Spec.deriv_add, hbl, hD]
    abel

/-- What the proofs need of an algebra with coordinates `Fin n`. -/
structure Env (X : Fields (Fin n) K n) (D : Fin n → Derivation ℤ K K)
    (Γ : Fin n → Matrix (Fin n) (Fin n) K) : Prop where
  symm : X.g.IsSymm
  diff : ∀ i, X.D i = D i
  idx : ∀ i, X.idx i = some i
  conn : IsConnection X.g X.conn Γ
  compat : ∀ i, Spec.Compatible X.g (D i) (Γ i)
  flat : ∀ i j x, Spec.deriv X.g (D i) (Γ i) (Spec.deriv X.g (D j) (Γ j) x) =
    Spec.deriv X.g (D j) (Γ j) (Spec.deriv X.g (D i) (Γ i) x)

/-- The derivative by coordinate `i` of elements of the Clifford algebra. -/
noncomputable abbrev grd (X : Fields (Fin n) K n) (D : Fin n → Derivation ℤ K K)
    (Γ : Fin n → Matrix (Fin n) (Fin n) K) (i : Fin n) : Spec.Cl X.g → Spec.Cl X.g :=
  Spec.deriv X.g (D i) (Γ i)

section
variable {X : Fields (Fin n) K n} {D : Fin n → Derivation ℤ K K}
  {Γ : Fin n → Matrix (Fin n) (Fin n) K}

/-- Values of derivatives, without commutation. -/
theorem diffN_rep (hs : X.g.IsSymm) (hD : ∀ i, X.D i = D i) (hi : ∀ i, X.idx i = some i)
    (hc : IsConnection X.g X.conn Γ) (i : Fin n) (k : ℕ) {A : Mv K n} {x : Spec.Cl X.g}
    (hA : Rep X.g A x) : Rep X.g (A.diffN X i k) ((grd X D Γ i)^[k] x) := by
  induction k with
  | zero => exact hA
  | succ k ih =>
    rw [Mv.diffN, Function.iterate_succ_apply', Function.iterate_succ_apply']
    rw [Mv.diffN] at ih
    rw [hD, hi] at ih ⊢
    obtain ⟨B, hB, hr⟩ := pDiff_rep hs hc (D i) i ih
    rw [hB]
    exact hr

theorem callMv_rep (hs : X.g.IsSymm) (hD : ∀ i, X.D i = D i) (hi : ∀ i, X.idx i = some i)
    (hc : IsConnection X.g X.conn Γ) (p : Pdop (Fin n)) {A : Mv K n} {x : Spec.Cl X.g}
    (hA : Rep X.g A x) :
    Rep X.g (p.call (Mv.diffN X) A) (p.call (basicDiff (grd X D Γ)) x) := by
  induction p generalizing A x with
  | nil => exact hA
  | cons t p ih => exact ih (diffN_rep hs hD hi hc t.1 t.2 hA)

theorem eqZero_iff (hs : X.g.IsSymm) {A : Mv K n} {x : Spec.Cl X.g} (hA : Rep X.g A x) :
    Mv.eqZero X.g A = true ↔ x = 0 := by
  constructor
  · intro h
    rw [Mv.eqZero, Bool.and_eq_true, decide_eq_true_eq] at h
    rw [← hA.den, h.2, den_nil]
  · intro h
    have h1 : A.isScalar X.g = true := (isScalar_iff hs hA.wf).mpr ⟨0, by rw [hA.val, h, map_zero]⟩
    have h2 : A.obj = [] := (val_eq_zero hA.wf).mp (hA.val.trans h)
    rw [Mv.eqZero, h1, h2]; rfl

/-- Coefficients in blade representation. -/
def GoodMv (g : Matrix (Fin n) (Fin n) K) (A : Mv K n) : Prop := A.WF g ∧ A.isBladeRep = true

theorem GoodMv.rep {g : Matrix (Fin n) (Fin n) K} {A : Mv K n} (h : GoodMv g A) : Rep g A (A.val g) :=
  Rep.of_wf h.1 h.2
theorem _root_.GA.Rep.good {g : Matrix (Fin n) (Fin n) K} {A : Mv K n} {x : Spec.Cl g}
    (h : Rep g A x) : GoodMv g A := ⟨h.wf, h.flag⟩

/-- The operator of a term, on the right (`side = false`) or on the left (`side = true`). -/
noncomputable def mact (X : Fields (Fin n) K n) (D : Fin n → Derivation ℤ K K)
    (Γ : Fin n → Matrix (Fin n) (Fin n) K) (op : ProdOp) (side : Bool) (A : Mv K n)
    (p : Pdop (Fin n)) : Spec.Cl X.g → Spec.Cl X.g := fun F =>
  if side = false then opS X.g op (A.val X.g) (p.call (basicDiff (grd X D Γ)) F)
  else opS X.g op (p.call (basicDiff (grd X D Γ)) F) (A.val X.g)

theorem mmeaning (h : Env X D Γ) (op : ProdOp) (side : Bool) :
    Meaning (GoodMv X.g) (Mv.eqZero X.g) (Mv.add X.g) (mact X D Γ op side) where
  good_add := fun ha hb => (Rep.add h.symm ha.rep hb.rep).good
  add := by
    intro a b ha hb p
    funext F
    rw [Pi.add_apply, mact, mact, mact, (Rep.add h.symm ha.rep hb.rep).val]
    cases side
    · exact opS_add_left op _ _ _
    · exact opS_add_right op _ _ _
  zero := by
    intro a ha hz p
    funext F
    rw [mact, (eqZero_iff h.symm ha.rep).mp hz]
    cases side
    · exact opS_zero_left op _
    · exact opS_zero_right op _
  eqv := by
    intro p q hp _ hpq a
    funext F
    rw [mact, mact, Pdop.call_perm (grd X D Γ) h.flat (Pdop.eqv_perm hp hpq)]

theorem mact_diff (h : Env X D Γ) (op : ProdOp) (side : Bool) (i : Fin n) {A : Mv K n}
    (hA : GoodMv X.g A) {p : Pdop (Fin n)} (hp : p.WF) :
    (fun F => grd X D Γ i (mact X D Γ op side A p F)) =
      mact X D Γ op side (A.diffN X i 1) p + mact X D Γ op side A (p.diff i 1) := by
  funext F
  have h1 := diffN_rep h.symm h.diff h.idx h.conn i 1 hA.rep
  rw [Pi.add_apply, mact, mact, mact, Pdop.call_diff (grd X D Γ) h.flat hp, h1.val]
  cases side
  · exact opS_deriv h.symm (h.compat i) op _ _
  · exact (opS_deriv h.symm (h.compat i) op _ _).trans (add_comm _ _)

/-- Well-formed operator. -/
def Dop.Good (X : Fields (Fin n) K n) (d : Dop (Fin n) K n) : Prop := TWF (GoodMv X.g) d.terms

/-- The action of an operator on elements of the Clifford algebra. -/
noncomputable def Dop.actS (X : Fields (Fin n) K n) (D : Fin n → Derivation ℤ K K)
    (Γ : Fin n → Matrix (Fin n) (Fin n) K) (op : ProdOp) (d : Dop (Fin n) K n) :
    Spec.Cl X.g → Spec.Cl X.g := tsum (mact X D Γ op d.cmpflg) d.terms

theorem Dop.consolidate_spec (h : Env X D Γ) {d : Dop (Fin n) K n} (hd : d.Good X) :
    (d.consolidate X).Good X ∧ (d.consolidate X).cmpflg = d.cmpflg ∧
      ∀ op, (d.consolidate X).actS X D Γ op = d.actS X D Γ op :=
  ⟨(GA.consolidate_spec (mmeaning h .geo d.cmpflg) hd).1, rfl, fun op =>
    (GA.consolidate_spec (mmeaning h op d.cmpflg) hd).2⟩

theorem mact_zero (X : Fields (Fin n) K n) (D : Fin n → Derivation ℤ K K)
    (Γ : Fin n → Matrix (Fin n) (Fin n) K) (op : ProdOp) (side : Bool) (p : Pdop (Fin n)) :
    mact X D Γ op side Mv.zero p = 0 := by
  funext F
  rw [mact, (Rep.zero (g := X.g)).val]
  cases side
  · exact opS_zero_left op _
  · exact opS_zero_right op _

theorem Dop.add_spec (h : Env X D Γ) {d e : Dop (Fin n) K n} (hd : d.Good X) (he : e.Good X)
    (hf : d.cmpflg = e.cmpflg) : ∃ f, d.add X e = some f ∧ f.Good X ∧ f.cmpflg = d.cmpflg ∧
      ∀ op, f.actS X D Γ op = d.actS X D Γ op + e.actS X D Γ op := by
  refine ⟨⟨mergeTerms (Mv.eqZero X.g) (Mv.add X.g) Mv.zero d.terms e.terms, d.cmpflg⟩, if_pos hf, ?_,
    rfl, fun op => ?_⟩
  · exact (merge_spec (mmeaning h .geo d.cmpflg) (Rep.zero (g := X.g)).good
      (mact_zero X D Γ _ _) hd he).1
  · have := (merge_spec (mmeaning h op d.cmpflg) (Rep.zero (g := X.g)).good
      (mact_zero X D Γ _ _) hd he).2
    rw [Dop.actS, Dop.actS, Dop.actS, ← hf]
    exact this

theorem Dop.diff_spec (h : Env X D Γ) (i : Fin n) (k : ℕ) {d : Dop (Fin n) K n} (hd : d.Good X) :
    (d.diff X i k).Good X ∧ (d.diff X i k).cmpflg = d.cmpflg ∧
      ∀ op F, (d.diff X i k).actS X D Γ op F = (grd X D Γ i)^[k] (d.actS X D Γ op F) := by
  have key := fun op => GA.diff_spec (mmeaning h op d.cmpflg) (d := Mv.diffN X) (x := i)
    (fun ha => (diffN_rep h.symm h.diff h.idx h.conn i 1 ha.rep).good)
    (δ := fun T F => grd X D Γ i (T F)) (by funext F; exact Spec.deriv_zero _ _)
    (by intro S T; funext F; exact Spec.deriv_add _ _ _ _)
    (by intro a ha p hp; exact mact_diff h op d.cmpflg i ha hp) k hd
  refine ⟨(key .geo).1, rfl, fun op F => ?_⟩
  refine (congrFun (key op).2 F).trans ?_
  rw [Dop.actS]
  generalize tsum (mact X D Γ op d.cmpflg) d.terms = T
  clear key
  induction k with
  | zero => rfl
  | succ k ih => rw [Function.iterate_succ_apply', Function.iterate_succ_apply', ih]

theorem Dop.call_spec (h : Env X D Γ) (p : Pdop (Fin n)) {d : Dop (Fin n) K n} (hd : d.Good X) :
    (p.call (Dop.diff X) d).Good X ∧ (p.call (Dop.diff X) d).cmpflg = d.cmpflg ∧
      ∀ op F, (p.call (Dop.diff X) d).actS X D Γ op F =
        p.call (basicDiff (grd X D Γ)) (d.actS X D Γ op F) := by
  induction p generalizing d with
  | nil => exact ⟨hd, rfl, fun _ _ => rfl⟩
  | cons t p ih =>
    have h1 := Dop.diff_spec h t.1 t.2 hd
    have h2 := ih h1.1
    refine ⟨h2.1, h2.2.1.trans h1.2.1, fun op F => ?_⟩
    have := h2.2.2 op F
    rw [h1.2.2 op F] at this
    exact this

theorem foldl_add_rep {g : Matrix (Fin n) (Fin n) K} (hs : g.IsSymm) {ι : Type*} (l : List ι)
    (f : ι → Mv K n) (x : ι → Spec.Cl g) (hf : ∀ i ∈ l, Rep g (f i) (x i)) {A : Mv K n}
    {a : Spec.Cl g} (hA : Rep g A a) :
    Rep g ((l.map f).foldl (Mv.add g) A) (a + (l.map x).sum) := by
  induction l generalizing A a with
  | nil => simpa using hA
  | cons i l ih =>
    rw [List.map_cons, List.map_cons, List.foldl_cons, List.sum_cons, ← add_assoc]
    exact ih (fun j hj => hf j (by simp [hj])) (Rep.add hs hA (hf i (by simp)))

/-- Application of an operator to a multivector. -/
theorem Dop.apply_right (h : Env X D Γ) (op : ProdOp) {d : Dop (Fin n) K n} (hd : d.Good X)
    (hf : d.cmpflg = false) {F : Mv K n} {x : Spec.Cl X.g} (hF : Rep X.g F x) :
    ∃ G, d.mulMv X op F = .inl G ∧ Rep X.g G (d.actS X D Γ op x) := by
  refine ⟨_, by rw [Dop.mulMv, if_pos hf], ?_⟩
  have := foldl_add_rep h.symm d.terms (fun t => Mv.mulOp X.g op t.1 (t.2.call (Mv.diffN X) F))
    (fun t => opS X.g op (t.1.val X.g) (t.2.call (basicDiff (grd X D Γ)) x))
    (fun t ht => mulOp_rep h.symm op (hd t ht).1.rep
      (callMv_rep h.symm h.diff h.idx h.conn t.2 hF)) (Rep.scalarMv (g := X.g) 0)
  refine this.congr ?_
  rw [map_zero, zero_add, Dop.actS, hf]
  clear this hd
  induction d.terms with
  | nil => rfl
  | cons t l ih => rw [List.map_cons, List.sum_cons, ih, tsum_cons]; rfl

theorem Dop.apply_left (h : Env X D Γ) (op : ProdOp) {d : Dop (Fin n) K n} (hd : d.Good X)
    (hf : d.cmpflg = true) {F : Mv K n} {x : Spec.Cl X.g} (hF : Rep X.g F x) :
    ∃ G, Dop.mvMul X op F d = .inl G ∧ Rep X.g G (d.actS X D Γ op x) := by
  refine ⟨_, by rw [Dop.mvMul, if_neg (by rw [hf]; exact Bool.noConfusion)], ?_⟩
  have := foldl_add_rep h.symm d.terms (fun t => Mv.mulOp X.g op (t.2.call (Mv.diffN X) F) t.1)
    (fun t => opS X.g op (t.2.call (basicDiff (grd X D Γ)) x) (t.1.val X.g))
    (fun t ht => mulOp_rep h.symm op
      (callMv_rep h.symm h.diff h.idx h.conn t.2 hF) (hd t ht).1.rep) (Rep.scalarMv (g := X.g) 0)
  refine this.congr ?_
  rw [map_zero, zero_add, Dop.actS, hf]
  clear this hd
  induction d.terms with
  | nil => rfl
  | cons t l ih => rw [List.map_cons, List.sum_cons, ih, tsum_cons]; rfl

/-- A multivector times an operator on the right. -/
theorem Dop.mvMul_spec (h : Env X D Γ) {op : ProdOp} (ha : op = .geo ∨ op = .outer)
    {d : Dop (Fin n) K n} (hd : d.Good X) (hf : d.cmpflg = false) {A : Mv K n} {a : Spec.Cl X.g}
    (hA : Rep X.g A a) : ∃ e, Dop.mvMul X op A d = .inr e ∧ e.Good X ∧ e.cmpflg = false ∧
      ∀ F, e.actS X D Γ op F = opS X.g op a (d.actS X D Γ op F) := by
  have g1 : Dop.Good X ⟨d.terms.map fun t => (Mv.mulOp X.g op A t.1, t.2), false⟩ := by
    intro t ht
    obtain ⟨s, hs, rfl⟩ := List.mem_map.mp ht
    exact ⟨(mulOp_rep h.symm op hA (hd s hs).1.rep).good, (hd s hs).2⟩
  have h1 := Dop.consolidate_spec h g1
  refine ⟨_, by rw [Dop.mvMul, if_pos hf], h1.1, h1.2.1, fun F => ?_⟩
  rw [h1.2.2 op, Dop.actS, Dop.actS, hf]
  have hd' : TWF (GoodMv X.g) d.terms := hd
  clear h1 g1 hd hf
  dsimp only
  generalize d.terms = l at hd'
  induction l with
  | nil => exact (opS_zero_right op _).symm
  | cons t l ih =>
    rw [twf_cons] at hd'
    rw [List.map_cons, tsum_cons, Pi.add_apply, ih hd'.2, tsum_cons, Pi.add_apply, opS_add_right]
    congr 1
    rw [mact, mact, if_pos rfl, if_pos rfl, (mulOp_rep h.symm op hA hd'.1.1.rep).val, opS_assoc ha]

/-- An operator on the left times a multivector. -/
theorem Dop.mulMv_spec (h : Env X D Γ) {op : ProdOp} (ha : op = .geo ∨ op = .outer)
    {d : Dop (Fin n) K n} (hd : d.Good X) (hf : d.cmpflg = true) {A : Mv K n} {a : Spec.Cl X.g}
    (hA : Rep X.g A a) : ∃ e, Dop.mulMv X op d A = .inr e ∧ e.Good X ∧ e.cmpflg = true ∧
      ∀ F, e.actS X D Γ op F = opS X.g op (d.actS X D Γ op F) a := by
  have g1 : Dop.Good X ⟨d.terms.map fun t => (Mv.mulOp X.g op t.1 A, t.2), true⟩ := by
    intro t ht
    obtain ⟨s, hs, rfl⟩ := List.mem_map.mp ht
    exact ⟨(mulOp_rep h.symm op (hd s hs).1.rep hA).good, (hd s hs).2⟩
  have h1 := Dop.consolidate_spec h g1
  refine ⟨_, by rw [Dop.mulMv, if_neg (by rw [hf]; exact Bool.noConfusion)], h1.1, h1.2.1, fun F => ?_⟩
  rw [h1.2.2 op, Dop.actS, Dop.actS, hf]
  have hd' : TWF (GoodMv X.g) d.terms := hd
  clear h1 g1 hd hf
  dsimp only
  generalize d.terms = l at hd'
  induction l with
  | nil => exact (opS_zero_left op _).symm
  | cons t l ih =>
    rw [twf_cons] at hd'
    rw [List.map_cons, tsum_cons, Pi.add_apply, ih hd'.2, tsum_cons, Pi.add_apply, opS_add_left]
    congr 1
    rw [mact, mact, if_neg (by simp), if_neg (by simp), (mulOp_rep h.symm op hd'.1.1.rep hA).val,
      opS_assoc ha]

theorem Dop.sum_spec (h : Env X D Γ) (op : ProdOp) {ι : Type*} (l : List ι)
    (f : ι → Mv K n ⊕ Dop (Fin n) K n) (T : ι → Spec.Cl X.g → Spec.Cl X.g) (b : Bool)
    (hf : ∀ i ∈ l, ∃ e, f i = .inr e ∧ e.Good X ∧ e.cmpflg = b ∧ e.actS X D Γ op = T i)
    {d : Dop (Fin n) K n} (hd : d.Good X) (hb : d.cmpflg = b) :
    ∃ e, Dop.sum X d (l.map f) = some e ∧ e.Good X ∧ e.cmpflg = b ∧
      e.actS X D Γ op = d.actS X D Γ op + (l.map T).sum := by
  induction l generalizing d with
  | nil => exact ⟨d, rfl, hd, hb, by simp⟩
  | cons i l ih =>
    obtain ⟨e, h1, h2, h3, h4⟩ := hf i (by simp)
    obtain ⟨d', k1, k2, k3, k4⟩ := Dop.add_spec h hd h2 (hb.trans h3.symm)
    obtain ⟨e', m1, m2, m3, m4⟩ := ih (fun j hj => hf j (by simp [hj])) k2 (k3.trans hb)
    refine ⟨e', ?_, m2, m3, ?_⟩
    · rw [Dop.sum, List.map_cons, List.foldlM_cons, h1]
      simp only [k1]
      exact m1
    · rw [m4, k4, h4, List.map_cons, List.sum_cons, add_assoc]

theorem Dop.nil_good (X : Fields (Fin n) K n) (b : Bool) : Dop.Good X ⟨[], b⟩ := TWF.nil
theorem Dop.nil_act (X : Fields (Fin n) K n) (D : Fin n → Derivation ℤ K K)
    (Γ : Fin n → Matrix (Fin n) (Fin n) K) (op : ProdOp) (b : Bool) :
    Dop.actS X D Γ op ⟨[], b⟩ = 0 := rfl

theorem sum_apply' {α M : Type*} [AddCommMonoid M] (l : List (α → M)) (a : α) :
    l.sum a = (l.map fun f => f a).sum := by
  induction l with
  | nil => rfl
  | cons f l ih => rw [List.sum_cons, Pi.add_apply, ih, List.map_cons, List.sum_cons]

/-- Composition of operators on the right. -/
theorem Dop.mul_spec (h : Env X D Γ) {op : ProdOp} (ha : op = .geo ∨ op = .outer)
    {d e : Dop (Fin n) K n} (hd : d.Good X) (he : e.Good X) (hdf : d.cmpflg = false)
    (hef : e.cmpflg = false) : ∃ f, Dop.mul X op d e = some f ∧ f.Good X ∧ f.cmpflg = false ∧
      ∀ F, f.actS X D Γ op F = d.actS X D Γ op (e.actS X D Γ op F) := by
  obtain ⟨f, h1, h2, h3, h4⟩ := Dop.sum_spec h op d.terms
    (fun t => Dop.mvMul X op t.1 (t.2.call (Dop.diff X) e))
    (fun t F => mact X D Γ op false t.1 t.2 (e.actS X D Γ op F)) false (by
      intro t ht
      have k1 := Dop.call_spec h t.2 he
      obtain ⟨f, m1, m2, m3, m4⟩ := Dop.mvMul_spec h ha k1.1 (k1.2.1.trans hef) (hd t ht).1.rep
      refine ⟨f, m1, m2, m3, ?_⟩
      funext F
      rw [m4, k1.2.2, mact, if_pos rfl]) (Dop.nil_good X false) rfl
  have h5 := Dop.consolidate_spec h h2
  refine ⟨f.consolidate X, ?_, h5.1, h5.2.1.trans h3, fun F => ?_⟩
  · rw [Dop.mul, if_pos (hdf.trans hef.symm), if_pos hdf, h1]; rfl
  · have e1 : d.actS X D Γ op = tsum (mact X D Γ op false) d.terms := by rw [Dop.actS, hdf]
    rw [h5.2.2, h4, Dop.nil_act, zero_add, e1, sum_apply', tsum, sum_apply', List.map_map,
      List.map_map]
    rfl

/-- Composition of operators on the left. -/
theorem Dop.mul_spec_left (h : Env X D Γ) {op : ProdOp} (ha : op = .geo ∨ op = .outer)
    {d e : Dop (Fin n) K n} (hd : d.Good X) (he : e.Good X) (hdf : d.cmpflg = true)
    (hef : e.cmpflg = true) : ∃ f, Dop.mul X op d e = some f ∧ f.Good X ∧ f.cmpflg = true ∧
      ∀ F, f.actS X D Γ op F = e.actS X D Γ op (d.actS X D Γ op F) := by
  obtain ⟨f, h1, h2, h3, h4⟩ := Dop.sum_spec h op e.terms
    (fun t => Dop.mulMv X op (t.2.call (Dop.diff X) d) t.1)
    (fun t F => mact X D Γ op true t.1 t.2 (d.actS X D Γ op F)) true (by
      intro t ht
      have k1 := Dop.call_spec h t.2 hd
      obtain ⟨f, m1, m2, m3, m4⟩ := Dop.mulMv_spec h ha k1.1 (k1.2.1.trans hdf) (he t ht).1.rep
      refine ⟨f, m1, m2, m3, ?_⟩
      funext F
      rw [m4, k1.2.2, mact, if_neg (by simp)]) (Dop.nil_good X true) rfl
  have h5 := Dop.consolidate_spec h h2
  refine ⟨f.consolidate X, ?_, h5.1, h5.2.1.trans h3, fun F => ?_⟩
  · rw [Dop.mul, if_pos (hdf.trans hef.symm), if_neg (by rw [hdf]; exact Bool.noConfusion), h1]; rfl
  · have e1 : e.actS X D Γ op = tsum (mact X D Γ op true) e.terms := by rw [Dop.actS, hef]
    rw [h5.2.2, h4, Dop.nil_act, zero_add, e1, sum_apply', tsum, sum_apply', List.map_map,
      List.map_map]
    rfl

theorem Dop.neg_spec {d : Dop (Fin n) K n} (hd : d.Good X) :
    d.neg.Good X ∧ d.neg.cmpflg = d.cmpflg ∧ ∀ op, d.neg.actS X D Γ op = - d.actS X D Γ op := by
  refine ⟨fun t ht => ?_, rfl, fun op => ?_⟩
  · obtain ⟨s, hs, rfl⟩ := List.mem_map.mp ht
    exact ⟨(Rep.neg (hd s hs).1.rep).good, (hd s hs).2⟩
  · rw [Dop.actS, Dop.actS, Dop.neg]
    dsimp only
    have hd' : TWF (GoodMv X.g) d.terms := hd
    clear hd
    generalize d.terms = l at hd'
    induction l with
    | nil => simp
    | cons t l ih =>
      rw [twf_cons] at hd'
      rw [List.map_cons, tsum_cons, ih hd'.2, tsum_cons, neg_add]
      congr 1
      funext F
      have hl : ∀ x y : Spec.Cl X.g, opS X.g op (-x) y = - opS X.g op x y := by
        intro x y
        have := opS_add_left op (-x) x y
        rw [neg_add_cancel, opS_zero_left] at this
        exact (neg_eq_of_add_eq_zero_left this.symm).symm
      have hr : ∀ x y : Spec.Cl X.g, opS X.g op x (-y) = - opS X.g op x y := by
        intro x y
        have := opS_add_right op x (-y) y
        rw [neg_add_cancel, opS_zero_right] at this
        exact (neg_eq_of_add_eq_zero_left this.symm).symm
      rw [Pi.neg_apply, mact, mact, (Rep.neg hd'.1.1.rep).val]
      cases d.cmpflg
      · exact hl _ _
      · exact hr _ _

end

end GA
