import Verif.Spec.DopOperands
import Verif.Proofs.Dop
import Verif.Proofs.DopScalar
import Verif.Props.C73

/-! Binary operators of differential operators. -/

set_option linter.unusedSectionVars false

namespace GA
variable {n : ℕ} {K : Type*} [Field K] [DecidableEq K] [Invertible (2 : K)]

/-! ### Values -/

section values
variable {g : Matrix (Fin n) (Fin n) K}

theorem Operand.WF.good {o : Operand K n} (h : o.WF g) : GoodMv g o.toMv := by
  cases o with
  | scalar c => exact (Rep.scalarMv c).good
  | mv A => exact h

theorem Operand.wf_of_good {o : Operand K n} (h : GoodMv g o.toMv) : o.WF g := by
  cases o with
  | scalar c => trivial
  | mv A => exact h

/-- The value of an operand. -/
noncomputable def Operand.value (g : Matrix (Fin n) (Fin n) K) (o : Operand K n) : Spec.Cl g := o.toMv.val g

theorem Operand.value_scalar (c : K) : (Operand.scalar c : Operand K n).value g = algebraMap K _ c :=
  (Rep.scalarMv c).val

theorem Operand.value_mv (A : Mv K n) : (Operand.mv A).value g = A.val g := rfl

theorem Operand.rep {o : Operand K n} (h : o.WF g) : Rep g o.toMv (o.value g) := h.good.rep

theorem Operand.add_spec (hs : g.IsSymm) {o o' : Operand K n} (h : o.WF g) (h' : o'.WF g) :
    (o.add g o').WF g ∧ (o.add g o').value g = o.value g + o'.value g := by
  cases o with
  | scalar a =>
    cases o' with
    | scalar b => exact ⟨trivial, by rw [Operand.add, value_scalar, value_scalar, value_scalar, map_add]⟩
    | mv B =>
      have := Rep.addScalar h'.good.rep a
      exact ⟨this.good, by
        rw [value_scalar, add_comm]; exact this.val⟩
  | mv A =>
    cases o' with
    | scalar b =>
      have := Rep.addScalar h.good.rep b
      exact ⟨this.good, by rw [value_scalar]; exact this.val⟩
    | mv B =>
      have := Rep.add hs h.good.rep h'.good.rep
      exact ⟨this.good, this.val⟩

theorem subScalar_rep {A : Mv K n} {x : Spec.Cl g} (h : Rep g A x) (c : K) :
    Rep g (Mv.ofExpr (subE A.obj (scalarE c))) (x - algebraMap K _ c) :=
  (Rep.ofExpr (valid_subE h.valid (valid_scalarE c))).congr (by rw [den_subE, den_scalarE, h.den])

theorem Operand.sub_spec (hs : g.IsSymm) {o o' : Operand K n} (h : o.WF g) (h' : o'.WF g) :
    (o.sub g o').WF g ∧ (o.sub g o').value g = o.value g - o'.value g := by
  cases o with
  | scalar a =>
    cases o' with
    | scalar b => exact ⟨trivial, by rw [Operand.sub, value_scalar, value_scalar, value_scalar, map_sub]⟩
    | mv B =>
      have := Rep.scalarSub h'.good.rep a
      exact ⟨this.good, by rw [value_scalar]; exact this.val⟩
  | mv A =>
    cases o' with
    | scalar b =>
      have := subScalar_rep h.good.rep b
      exact ⟨this.good, by rw [value_scalar]; exact this.val⟩
    | mv B =>
      have := Rep.sub hs h.good.rep h'.good.rep
      exact ⟨this.good, this.val⟩

theorem Operand.mul_spec (hs : g.IsSymm) {o o' : Operand K n} (h : o.WF g) (h' : o'.WF g) :
    (o.mul g o').WF g ∧ (o.mul g o').value g = o.value g * o'.value g := by
  cases o with
  | scalar a =>
    cases o' with
    | scalar b => exact ⟨trivial, by rw [Operand.mul, value_scalar, value_scalar, value_scalar, map_mul]⟩
    | mv B =>
      have := Rep.smul a h'.good.rep
      exact ⟨this.good, by rw [value_scalar, ← Algebra.smul_def]; exact this.val⟩
  | mv A =>
    cases o' with
    | scalar b =>
      have := Rep.smul b h.good.rep
      exact ⟨this.good, by
        rw [value_scalar, ← Algebra.commutes, ← Algebra.smul_def]; exact this.val⟩
    | mv B =>
      have := Rep.mul hs h.good.rep h'.good.rep
      exact ⟨this.good, this.val⟩

theorem Operand.neg_spec {o : Operand K n} (h : o.WF g) : o.neg.WF g ∧ o.neg.value g = - o.value g := by
  cases o with
  | scalar a => exact ⟨trivial, by rw [Operand.neg, value_scalar, value_scalar, map_neg]⟩
  | mv A =>
    have := Rep.neg h.good.rep
    exact ⟨this.good, this.val⟩

end values

section
variable {X : Fields (Fin n) K n} {D : Fin n → Derivation ℤ K K}
  {Γ : Fin n → Matrix (Fin n) (Fin n) K}

theorem Operand.isZero_spec (hs : X.g.IsSymm) {o : Operand K n} (h : o.WF X.g) (hz : o.isZero X.g = true) :
    o.value X.g = 0 := by
  cases o with
  | scalar a => rw [value_scalar, of_decide_eq_true hz, map_zero]
  | mv A => exact (eqZero_iff hs h.good.rep).mp hz

theorem Operand.diff_spec (h : Env X D Γ) (i : Fin n) (k : ℕ) {o : Operand K n} (ho : o.WF X.g) :
    (o.diff X i k).WF X.g ∧ (o.diff X i k).value X.g = (grd X D Γ i)^[k] (o.value X.g) := by
  cases o with
  | scalar a =>
    refine ⟨trivial, ?_⟩
    rw [Operand.diff, value_scalar, value_scalar, basicDiff, h.diff]
    induction k generalizing a with
    | zero => rfl
    | succ k ih =>
      rw [Function.iterate_succ_apply, ih _ trivial, Function.iterate_succ_apply]
      congr 1
      exact (call_algebraMap (D := D) (Γ := Γ) X.g [(i, 1)] a).symm
  | mv A =>
    have := diffN_rep h.symm h.diff h.idx h.conn i k ho.good.rep
    exact ⟨this.good, this.val⟩

/-- The meaning of a term. -/
noncomputable def oact (X : Fields (Fin n) K n) (D : Fin n → Derivation ℤ K K)
    (Γ : Fin n → Matrix (Fin n) (Fin n) K) (o : Operand K n) (p : Pdop (Fin n)) :
    Spec.Cl X.g → Spec.Cl X.g := fun F => o.value X.g * p.call (basicDiff (grd X D Γ)) F

theorem omeaning (h : Env X D Γ) :
    Meaning (Operand.WF X.g) (Operand.isZero X.g) (Operand.add X.g) (oact X D Γ) where
  good_add := fun ha hb => (Operand.add_spec h.symm ha hb).1
  add := by
    intro a b ha hb p
    funext F
    rw [Pi.add_apply, oact, oact, oact, (Operand.add_spec h.symm ha hb).2, add_mul]
  zero := by
    intro a ha hz p
    funext F
    rw [oact, Operand.isZero_spec h.symm ha hz, zero_mul]
    rfl
  eqv := by
    intro p q hp _ hpq a
    funext F
    rw [oact, oact, Pdop.call_perm (grd X D Γ) h.flat (Pdop.eqv_perm hp hpq)]

/-- The meaning of an operand that does not act to the left. -/
noncomputable def DObj.act (X : Fields (Fin n) K n) (D : Fin n → Derivation ℤ K K)
    (Γ : Fin n → Matrix (Fin n) (Fin n) K) : DObj (Fin n) K n → Spec.Cl X.g → Spec.Cl X.g
  | .val o => fun F => o.value X.g * F
  | .pdop p => p.call (basicDiff (grd X D Γ))
  | .sdop s => tsum (oact X D Γ) s
  | .dop d => d.actS X D Γ .geo

theorem oact_nil (o : Operand K n) : oact X D Γ o [] = fun F => o.value X.g * F := rfl

/-! ### Sums -/

theorem Osdop.add_spec (h : Env X D Γ) {s t : Osdop (Fin n) K n} (hs : TWF (Operand.WF X.g) s)
    (ht : TWF (Operand.WF X.g) t) : TWF (Operand.WF X.g) (s.add X t) ∧
      tsum (oact X D Γ) (s.add X t) = tsum (oact X D Γ) s + tsum (oact X D Γ) t :=
  merge_spec (omeaning h) (zero := .scalar 0) trivial (fun p => by
    funext F; rw [oact, Operand.value_scalar, map_zero, zero_mul]; rfl) hs ht

theorem Osdop.neg_spec {s : Osdop (Fin n) K n} (hs : TWF (Operand.WF X.g) s) :
    TWF (Operand.WF X.g) s.neg ∧ tsum (oact X D Γ) s.neg = - tsum (oact X D Γ) s := by
  constructor
  · intro t ht
    obtain ⟨u, hu, rfl⟩ := List.mem_map.mp ht
    exact ⟨(Operand.neg_spec (hs u hu).1).1, (hs u hu).2⟩
  · rw [Osdop.neg]
    induction s with
    | nil => simp
    | cons t s ih =>
      rw [twf_cons] at hs
      rw [List.map_cons, tsum_cons, tsum_cons, ih hs.2, neg_add]
      congr 1
      funext F
      rw [Pi.neg_apply, oact, oact, (Operand.neg_spec hs.1.1).2, neg_mul]

theorem twf_single {o : Operand K n} (h : o.WF X.g) : TWF (V := Fin n) (Operand.WF X.g) [(o, [])] :=
  twf_cons.mpr ⟨⟨h, Pdop.wf_nil⟩, TWF.nil⟩

theorem tsum_single (o : Operand K n) : tsum (oact X D Γ) [(o, [])] = fun F => o.value X.g * F := by
  rw [tsum_cons, tsum_nil, add_zero, oact_nil]

theorem single_dop_good {o : Operand K n} (h : o.WF X.g) (b : Bool) :
    Dop.Good X (⟨[(o.toMv, [])], b⟩ : Dop (Fin n) K n) := twf_cons.mpr ⟨⟨h.good, Pdop.wf_nil⟩, TWF.nil⟩

theorem single_dop_act (o : Operand K n) (op : ProdOp) :
    Dop.actS X D Γ op ⟨[(o.toMv, [])], false⟩ = fun F => opS X.g op (o.value X.g) F := by
  rw [Dop.actS, tsum_cons, tsum_nil, add_zero]; rfl

theorem sdopAdd_spec (h : Env X D Γ) {x y z : DObj (Fin n) K n} (hx : x.WF X) (hy : y.WF X)
    (e : sdopAdd X x y = .ok z) :
    z.WF X ∧ z.Right ∧ ¬ z.IsValue ∧ z.act X D Γ = x.act X D Γ + y.act X D Γ := by
  rw [sdopAdd.eq_def] at e
  split at e
  · cases e
    have := Osdop.add_spec h hx hy
    exact ⟨this.1, trivial, id, this.2⟩
  · cases e
    have := Osdop.add_spec h hx (twf_single hy)
    exact ⟨this.1, trivial, id, this.2.trans (by rw [tsum_single]; rfl)⟩
  · cases e
    have := Osdop.add_spec h (twf_single hx) hy
    exact ⟨this.1, trivial, id, this.2.trans (by rw [tsum_single]; rfl)⟩
  · cases e

theorem dopAdd_spec (h : Env X D Γ) {x y z : DObj (Fin n) K n} (hx : x.WF X) (hy : y.WF X)
    (rx : x.Right) (ry : y.Right) (e : dopAdd X x y = .ok z) :
    z.WF X ∧ z.Right ∧ ¬ z.IsValue ∧ z.act X D Γ = x.act X D Γ + y.act X D Γ := by
  rw [dopAdd.eq_def] at e
  split at e
  · next d d' =>
    obtain ⟨f, f1, f2, f3, f4⟩ := Dop.add_spec h hx hy (rx.trans ry.symm)
    rw [f1] at e; cases e
    exact ⟨f2, f3.trans rx, id, f4 .geo⟩
  · next d o =>
    have rx' : d.cmpflg = false := rx
    obtain ⟨f, f1, f2, f3, f4⟩ := Dop.add_spec h (d := d) (e := ⟨[(o.toMv, [])], d.cmpflg⟩) hx
      (single_dop_good hy _) rfl
    rw [Dop.addMv, f1] at e; cases e
    refine ⟨f2, f3.trans rx, id, (f4 .geo).trans ?_⟩
    rw [rx', single_dop_act]; rfl
  · next o d =>
    have ry' : d.cmpflg = false := ry
    obtain ⟨f, f1, f2, f3, f4⟩ := Dop.add_spec h (d := ⟨[(o.toMv, [])], d.cmpflg⟩) (e := d)
      (single_dop_good hx _) hy rfl
    rw [Dop.mvAdd, f1] at e; cases e
    refine ⟨f2, f3.trans ry, id, (f4 .geo).trans ?_⟩
    rw [ry', single_dop_act]; rfl
  · cases e

theorem orElse_ok {α : Type*} {r s : Res α} {x : α} (h : r.orElse s = .ok x) :
    r = .ok x ∨ (r = .notImplemented ∧ s = .ok x) := by
  cases r <;> cases s <;> simp_all [Res.orElse]

theorem DObj.add_spec (h : Env X D Γ) {x y z : DObj (Fin n) K n} (hx : x.WF X) (hy : y.WF X)
    (rx : x.Right) (ry : y.Right) (e : x.add X y = .ok z) :
    z.WF X ∧ z.Right ∧ (z.IsValue ↔ x.IsValue ∧ y.IsValue) ∧
      z.act X D Γ = x.act X D Γ + y.act X D Γ := by
  rcases orElse_ok e with e | ⟨-, e⟩
  · rw [addMeth.eq_def] at e
    split at e
    · cases e
      have := Operand.add_spec h.symm hx hy
      refine ⟨this.1, trivial, by simp [DObj.IsValue], ?_⟩
      funext F
      show _ * F = _ * F + _ * F
      rw [this.2, add_mul]
    · cases e
    · cases e
    · obtain ⟨a, b, c, d⟩ := sdopAdd_spec h hx hy e
      exact ⟨a, b, ⟨fun k => absurd k c, fun k => k.1.elim⟩, d⟩
    · obtain ⟨a, b, c, d⟩ := dopAdd_spec h hx hy rx ry e
      exact ⟨a, b, ⟨fun k => absurd k c, fun k => k.1.elim⟩, d⟩
  · rw [raddMeth.eq_def] at e
    split at e
    · cases e
    · cases e
    · obtain ⟨a, b, c, d⟩ := sdopAdd_spec h hx hy e
      exact ⟨a, b, ⟨fun k => absurd k c, fun k => k.2.elim⟩, d⟩
    · obtain ⟨a, b, c, d⟩ := dopAdd_spec h hx hy rx ry e
      exact ⟨a, b, ⟨fun k => absurd k c, fun k => k.2.elim⟩, d⟩

theorem DObj.neg_spec {x y : DObj (Fin n) K n} (hx : x.WF X) (rx : x.Right) (e : x.neg = .ok y) :
    y.WF X ∧ y.Right ∧ (y.IsValue ↔ x.IsValue) ∧ y.act X D Γ = - x.act X D Γ := by
  rw [DObj.neg.eq_def] at e
  split at e
  · cases e
    have := Operand.neg_spec (g := X.g) hx
    refine ⟨this.1, trivial, by simp [DObj.IsValue], ?_⟩
    funext F
    show _ * F = - (_ * F)
    rw [this.2, neg_mul]
  · cases e
  · cases e
    have := Osdop.neg_spec (D := D) (Γ := Γ) (X := X) hx
    exact ⟨this.1, trivial, by simp [DObj.IsValue], this.2⟩
  · cases e
    obtain ⟨n1, n2, n3⟩ := Dop.neg_spec (D := D) (Γ := Γ) (X := X) hx
    exact ⟨n1, n2.trans rx, by simp [DObj.IsValue], n3 .geo⟩

theorem bind_ok {α β : Type*} {r : Res α} {f : α → Res β} {y : β} (h : r.bind f = .ok y) :
    ∃ x, r = .ok x ∧ f x = .ok y := by
  cases r with
  | notImplemented => cases h
  | raised => cases h
  | ok x => exact ⟨x, rfl, h⟩

theorem DObj.sub_spec (h : Env X D Γ) {x y z : DObj (Fin n) K n} (hx : x.WF X) (hy : y.WF X)
    (rx : x.Right) (ry : y.Right) (e : x.sub X y = .ok z) :
    z.WF X ∧ z.Right ∧ (z.IsValue ↔ x.IsValue ∧ y.IsValue) ∧
      z.act X D Γ = x.act X D Γ - y.act X D Γ := by
  rcases orElse_ok e with e | ⟨-, e⟩
  · rw [subMeth.eq_def] at e
    split at e
    · cases e
      have := Operand.sub_spec h.symm hx hy
      refine ⟨this.1, trivial, by simp [DObj.IsValue], ?_⟩
      funext F
      show _ * F = _ * F - _ * F
      rw [this.2, sub_mul]
    · cases e
    · cases e
    · obtain ⟨y', e1, e2⟩ := bind_ok e
      obtain ⟨n1, n2, n3, n4⟩ := DObj.neg_spec (D := D) (Γ := Γ) hy ry e1
      obtain ⟨a, b, c, d⟩ := sdopAdd_spec h hx n1 e2
      exact ⟨a, b, ⟨fun k => absurd k c, fun k => k.1.elim⟩, by rw [d, n4, sub_eq_add_neg]⟩
    · obtain ⟨y', e1, e2⟩ := bind_ok e
      obtain ⟨n1, n2, n3, n4⟩ := DObj.neg_spec (D := D) (Γ := Γ) hy ry e1
      obtain ⟨a, b, c, d⟩ := dopAdd_spec h hx n1 rx n2 e2
      exact ⟨a, b, ⟨fun k => absurd k c, fun k => k.1.elim⟩, by rw [d, n4, sub_eq_add_neg]⟩
  · rw [rsubMeth.eq_def] at e
    split at e
    · cases e
    · cases e
    · obtain ⟨n1, n2, n3, n4⟩ := DObj.neg_spec (D := D) (Γ := Γ) hy ry rfl
      obtain ⟨a, b, c, d⟩ := sdopAdd_spec h n1 hx e
      exact ⟨a, b, ⟨fun k => absurd k c, fun k => k.2.elim⟩, by rw [d, n4, sub_eq_add_neg, add_comm]⟩
    · obtain ⟨n1, n2, n3, n4⟩ := DObj.neg_spec (D := D) (Γ := Γ) hy ry rfl
      obtain ⟨a, b, c, d⟩ := dopAdd_spec h hx n1 rx n2 e
      exact ⟨a, b, ⟨fun k => absurd k c, fun k => k.2.elim⟩, by rw [d, n4, sub_eq_add_neg]⟩

/-! ### Derivatives -/

theorem Osdop.diff_spec (h : Env X D Γ) (i : Fin n) (k : ℕ) {s : Osdop (Fin n) K n}
    (hs : TWF (Operand.WF X.g) s) : TWF (Operand.WF X.g) (s.diff X i k) ∧
      ∀ F, tsum (oact X D Γ) (s.diff X i k) F = (grd X D Γ i)^[k] (tsum (oact X D Γ) s F) := by
  have key := GA.diff_spec (omeaning h) (d := Operand.diff X) (x := i)
    (fun ha => (Operand.diff_spec h i 1 ha).1)
    (δ := fun T F => grd X D Γ i (T F)) (by funext F; exact Spec.deriv_zero _ _)
    (by intro S T; funext F; exact Spec.deriv_add _ _ _ _)
    (by
      intro a ha p hp
      funext F
      rw [Pi.add_apply, oact, oact, oact, Pdop.call_diff (grd X D Γ) h.flat hp,
        (Operand.diff_spec h i 1 ha).2]
      exact opS_deriv h.symm (h.compat i) .geo _ _) k hs
  refine ⟨key.1, fun F => ?_⟩
  refine (congrFun key.2 F).trans ?_
  generalize tsum (oact X D Γ) s = T
  clear key
  induction k with
  | zero => rfl
  | succ k ih => rw [Function.iterate_succ_apply', Function.iterate_succ_apply', ih]

/-- The derivative of an operand: of its value, or of the operator. -/
theorem DObj.diff_spec (h : Env X D Γ) (i : Fin n) (k : ℕ) {y : DObj (Fin n) K n} (hy : y.WF X)
    (ry : y.Right) : (y.diff X i k).WF X ∧ (y.diff X i k).Right ∧ ((y.diff X i k).IsValue ↔ y.IsValue) ∧
      (∀ o, y = .val o → (y.diff X i k).act X D Γ 1 = (grd X D Γ i)^[k] (o.value X.g)) ∧
      (¬ y.IsValue → ∀ F, (y.diff X i k).act X D Γ F = (grd X D Γ i)^[k] (y.act X D Γ F)) := by
  cases y with
  | val o =>
    have := Operand.diff_spec h i k hy
    refine ⟨this.1, trivial, Iff.rfl, ?_, fun k => absurd trivial k⟩
    rintro o' ⟨⟩
    show _ * 1 = _
    rw [mul_one, this.2]
  | pdop p =>
    exact ⟨Pdop.diff_wf hy i k, trivial, Iff.rfl, by rintro o ⟨⟩,
      fun _ F => Pdop.call_diff (grd X D Γ) h.flat hy i k F⟩
  | sdop s =>
    have := Osdop.diff_spec h i k hy
    exact ⟨this.1, trivial, Iff.rfl, by rintro o ⟨⟩, fun _ => this.2⟩
  | dop d =>
    obtain ⟨d1, d2, d3⟩ := Dop.diff_spec h i k (d := d) hy
    exact ⟨d1, d2.trans ry, Iff.rfl, by rintro o ⟨⟩, fun _ => d3 .geo⟩

/-- The value of an operand, as the action on `1`. -/
theorem DObj.call_spec (h : Env X D Γ) (p : Pdop (Fin n)) {y : DObj (Fin n) K n} (hy : y.WF X)
    (ry : y.Right) : (p.call (DObj.diff X) y).WF X ∧ (p.call (DObj.diff X) y).Right ∧
      ((p.call (DObj.diff X) y).IsValue ↔ y.IsValue) ∧
      (∀ o, y = .val o → (p.call (DObj.diff X) y).act X D Γ 1 =
        p.call (basicDiff (grd X D Γ)) (o.value X.g)) ∧
      (¬ y.IsValue → ∀ F, (p.call (DObj.diff X) y).act X D Γ F =
        p.call (basicDiff (grd X D Γ)) (y.act X D Γ F)) := by
  induction p generalizing y with
  | nil =>
    refine ⟨hy, ry, Iff.rfl, ?_, fun _ _ => rfl⟩
    rintro o rfl
    exact mul_one _
  | cons t p ih =>
    obtain ⟨a, b, c, d, e⟩ := DObj.diff_spec h t.1 t.2 hy ry
    obtain ⟨a', b', c', d', e'⟩ := ih a b
    refine ⟨a', b', c'.trans c, ?_, fun hv F => (e' (fun k => hv (c.mp k)) F).trans ?_⟩
    · rintro o rfl
      refine (d' _ rfl).trans ?_
      have := d o rfl
      show Pdop.call (basicDiff (grd X D Γ)) p _ = Pdop.call (basicDiff (grd X D Γ)) p _
      congr 1
      exact (mul_one _).symm.trans this
    · rw [e hv F]; rfl

/-! ### Products -/

/-- What `z = x * y` means: the value of `x` applied to `y` if `y` is a value, the composition if `y` is an
operator. -/
structure MulSpec (X : Fields (Fin n) K n) (D : Fin n → Derivation ℤ K K)
    (Γ : Fin n → Matrix (Fin n) (Fin n) K) (T : Spec.Cl X.g → Spec.Cl X.g) (y z : DObj (Fin n) K n) :
    Prop where
  wf : z.WF X
  right : z.Right
  isValue : y.IsValue → z.IsValue
  apply : ∀ o, y = .val o → z.act X D Γ 1 = T (o.value X.g)
  comp : ¬ y.IsValue → ∀ F, z.act X D Γ F = T (y.act X D Γ F)

theorem Osdop.smul_spec (h : Env X D Γ) {o : Operand K n} (ho : o.WF X.g) {s : Osdop (Fin n) K n}
    (hs : TWF (Operand.WF X.g) s) : TWF (Operand.WF X.g) (s.smul X o) ∧
      ∀ F, tsum (oact X D Γ) (s.smul X o) F = o.value X.g * tsum (oact X D Γ) s F := by
  constructor
  · intro t ht
    obtain ⟨u, hu, rfl⟩ := List.mem_map.mp ht
    exact ⟨(Operand.mul_spec h.symm ho (hs u hu).1).1, (hs u hu).2⟩
  · intro F
    rw [Osdop.smul]
    induction s with
    | nil => simp
    | cons t s ih =>
      rw [twf_cons] at hs
      rw [List.map_cons, tsum_cons, tsum_cons, Pi.add_apply, Pi.add_apply, ih hs.2, mul_add]
      congr 1
      rw [oact, oact, (Operand.mul_spec h.symm ho hs.1.1).2, mul_assoc]

/-- The class of an operand. -/
def DObj.fam : DObj (Fin n) K n → ℕ
  | .val _ => 0
  | .sdop _ => 1
  | .dop _ => 2
  | .pdop _ => 3

/-- The class of the product of a value and an operand. -/
def DObj.mulFam : DObj (Fin n) K n → ℕ
  | .val _ => 0
  | .sdop _ => 1
  | .dop _ => 2
  | .pdop _ => 1

theorem isValue_iff {x : DObj (Fin n) K n} : x.IsValue ↔ x.fam = 0 := by
  cases x <;> simp [DObj.IsValue, DObj.fam]

theorem isValue_iff' {x : DObj (Fin n) K n} : x.IsValue ↔ x.mulFam = 0 := by
  cases x <;> simp [DObj.IsValue, DObj.mulFam]

theorem mulFam_ne (x : DObj (Fin n) K n) : x.mulFam ≠ 3 := by cases x <;> simp [DObj.mulFam]

theorem valMul_spec (h : Env X D Γ) {o : Operand K n} (ho : o.WF X.g) {y : DObj (Fin n) K n}
    (hy : y.WF X) (ry : y.Right) : ∃ z, valMul X o y = .ok z ∧
      MulSpec X D Γ (fun F => o.value X.g * F) y z ∧ z.fam = y.mulFam := by
  cases y with
  | val o' =>
    have := Operand.mul_spec h.symm ho hy
    refine ⟨_, rfl, ⟨this.1, trivial, fun _ => trivial, ?_, fun k => absurd trivial k⟩, rfl⟩
    rintro o'' ⟨⟩
    exact (mul_one _).trans this.2
  | pdop p =>
    refine ⟨_, rfl, ⟨twf_cons.mpr ⟨⟨ho, hy⟩, TWF.nil⟩, trivial, False.elim, by rintro o ⟨⟩, fun _ F => ?_⟩,
      rfl⟩
    show tsum (oact X D Γ) [(o, p)] F = _
    rw [tsum_cons, tsum_nil, add_zero]; rfl
  | sdop s =>
    have := Osdop.smul_spec h ho hy
    exact ⟨_, rfl, ⟨this.1, trivial, False.elim, by rintro o ⟨⟩, fun _ => this.2⟩, rfl⟩
  | dop d =>
    obtain ⟨e, e1, e2, e3, e4⟩ := Dop.mvMul_spec h (op := .geo) (Or.inl rfl) (d := d) hy ry ho.good.rep
    refine ⟨.dop e, ?_, ⟨e2, e3, False.elim, by rintro o ⟨⟩, fun _ => e4⟩, rfl⟩
    show Res.ok (DObj.ofSum (Dop.mvMul X .geo o.toMv d)) = _
    rw [e1]; rfl

theorem add_same (h : Env X D Γ) {x y : DObj (Fin n) K n} (hx : x.WF X) (hy : y.WF X)
    (rx : x.Right) (ry : y.Right) (hxy : x.fam = 0 ∨ x.fam = y.fam) (h3 : y.fam ≠ 3) :
    ∃ z, x.add X y = .ok z ∧ z.fam = y.fam ∧ z.WF X ∧ z.Right ∧
      z.act X D Γ = x.act X D Γ + y.act X D Γ := by
  have key : ∃ z, x.add X y = .ok z ∧ z.fam = y.fam := by
    cases x <;> cases y <;> first | (simp [DObj.fam] at hxy h3; done) | skip
    · exact ⟨_, rfl, rfl⟩
    · exact ⟨_, rfl, rfl⟩
    · next o e =>
      obtain ⟨f, f1, -⟩ := Dop.add_spec h (d := ⟨[(o.toMv, [])], e.cmpflg⟩) (e := e)
        (single_dop_good hx _) hy rfl
      refine ⟨.dop f, ?_, rfl⟩
      show Res.orElse .notImplemented (Res.ofOption ((Dop.mvAdd X o.toMv e).map DObj.dop)) = _
      rw [Dop.mvAdd, f1]; rfl
    · exact ⟨_, rfl, rfl⟩
    · next d e =>
      obtain ⟨f, f1, -⟩ := Dop.add_spec h (d := d) (e := e) hx hy (rx.trans ry.symm)
      refine ⟨.dop f, ?_, rfl⟩
      show (Res.ofOption ((Dop.add X d e).map DObj.dop)).orElse _ = _
      rw [f1]; rfl
  obtain ⟨z, z1, z2⟩ := key
  obtain ⟨a, b, -, d⟩ := DObj.add_spec h hx hy rx ry z1
  exact ⟨z, z1, z2, a, b, d⟩

theorem call_fam (p : Pdop (Fin n)) (y : DObj (Fin n) K n) : (p.call (DObj.diff X) y).fam = y.fam ∧
    (p.call (DObj.diff X) y).mulFam = y.mulFam := by
  induction p generalizing y with
  | nil => exact ⟨rfl, rfl⟩
  | cons t p ih =>
    have := ih (y.diff X t.1 t.2)
    have e : (y.diff X t.1 t.2).fam = y.fam ∧ (y.diff X t.1 t.2).mulFam = y.mulFam := by
      cases y <;> exact ⟨rfl, rfl⟩
    exact ⟨this.1.trans e.1, this.2.trans e.2⟩

/-- The part of the operator `x` that one term contributes to `x * y`. -/
noncomputable def termAct (X : Fields (Fin n) K n) (D : Fin n → Derivation ℤ K K)
    (Γ : Fin n → Matrix (Fin n) (Fin n) K) (y : DObj (Fin n) K n) (t : Operand K n × Pdop (Fin n)) :
    Spec.Cl X.g → Spec.Cl X.g := fun F =>
  match y with
  | .val o => oact X D Γ t.1 t.2 (o.value X.g) * F
  | y => oact X D Γ t.1 t.2 (y.act X D Γ F)

theorem termAct_value (o : Operand K n) (t : Operand K n × Pdop (Fin n)) (F : Spec.Cl X.g) :
    termAct X D Γ (.val o) t F = oact X D Γ t.1 t.2 (o.value X.g) * F := rfl

theorem termAct_op {y : DObj (Fin n) K n} (hy : ¬ y.IsValue) (t : Operand K n × Pdop (Fin n))
    (F : Spec.Cl X.g) : termAct X D Γ y t F = oact X D Γ t.1 t.2 (y.act X D Γ F) := by
  cases y with
  | val o => exact absurd trivial hy
  | _ => rfl

theorem act_value {z : DObj (Fin n) K n} (hz : z.IsValue) (F : Spec.Cl X.g) :
    z.act X D Γ F = z.act X D Γ 1 * F := by
  cases z with
  | val o => show _ = _ * 1 * F; rw [mul_one]; rfl
  | _ => exact hz.elim

/-- One term of `Sdop.__call__`. -/
theorem term_spec (h : Env X D Γ) {y : DObj (Fin n) K n} (hy : y.WF X) (ry : y.Right)
    {t : Operand K n × Pdop (Fin n)} (ht : t.1.WF X.g) :
    ∃ b, valMul X t.1 (t.2.call (DObj.diff X) y) = .ok b ∧ b.fam = y.mulFam ∧ b.WF X ∧ b.Right ∧
      b.act X D Γ = termAct X D Γ y t := by
  obtain ⟨c1, c2, c3, c4, c5⟩ := DObj.call_spec h t.2 hy ry
  obtain ⟨b, b1, b2, b3⟩ := valMul_spec h ht c1 c2
  have hb : b.fam = y.mulFam := b3.trans (call_fam t.2 y).2
  refine ⟨b, b1, hb, b2.wf, b2.right, ?_⟩
  funext F
  by_cases hv : y.IsValue
  · cases y with
    | val o =>
      have hbv : b.IsValue := isValue_iff.mpr hb
      have hcv := c3.mpr trivial
      rw [act_value hbv, termAct_value]
      congr 1
      generalize t.2.call (DObj.diff X) (.val o) = c at *
      cases c with
      | val o' =>
        rw [b2.apply o' rfl]
        have := c4 o rfl
        rw [oact]
        congr 1
        exact (mul_one _).symm.trans this
      | _ => exact hcv.elim
    | _ => exact hv.elim
  · rw [termAct_op hv, b2.comp (fun k => hv (c3.mp k)), c5 hv]
    rfl

theorem fold_spec (h : Env X D Γ) {y : DObj (Fin n) K n} (hy : y.WF X) (ry : y.Right)
    {s : Osdop (Fin n) K n} (hs : TWF (Operand.WF X.g) s) {a : DObj (Fin n) K n} (ha : a.WF X)
    (ra : a.Right) (fa : a.fam = 0 ∨ a.fam = y.mulFam) :
    ∃ z, s.foldl (sdopStep X y) (.ok a) = .ok z ∧
      (z.fam = a.fam ∨ z.fam = y.mulFam) ∧ (s ≠ [] → z.fam = y.mulFam) ∧ z.WF X ∧ z.Right ∧
      z.act X D Γ = a.act X D Γ + (s.map (termAct X D Γ y)).sum := by
  induction s generalizing a with
  | nil => exact ⟨a, rfl, Or.inl rfl, fun k => absurd rfl k, ha, ra, by simp⟩
  | cons t s ih =>
    rw [twf_cons] at hs
    obtain ⟨b, b1, b2, b3, b4, b5⟩ := term_spec h hy ry hs.1.1
    obtain ⟨c, c1, c2, c3, c4, c5⟩ := add_same h ha b3 ra b4 (by rwa [b2])
      (by rw [b2]; exact mulFam_ne y)
    obtain ⟨z, z1, z2, -, z3, z4, z5⟩ := ih hs.2 c3 c4 (Or.inr (c2.trans b2))
    have hz : z.fam = y.mulFam := z2.elim (fun k => k.trans (c2.trans b2)) id
    refine ⟨z, ?_, Or.inr hz, fun _ => hz, z3, z4, ?_⟩
    · rw [List.foldl_cons]
      have e : sdopStep X y (.ok a) t = .ok c := by
        show (valMul X t.1 (t.2.call (DObj.diff X) y)).bind (fun b => a.add X b) = _
        rw [b1]
        exact c1
      rw [e]
      exact z1
    · rw [z5, c5, b5, List.map_cons, List.sum_cons, add_assoc]

theorem tsum_apply (s : Osdop (Fin n) K n) (F : Spec.Cl X.g) :
    tsum (oact X D Γ) s F = (s.map fun t => oact X D Γ t.1 t.2 F).sum := by
  induction s with
  | nil => rfl
  | cons t s ih => rw [tsum_cons, Pi.add_apply, ih, List.map_cons, List.sum_cons]

theorem sum_termAct_value (o : Operand K n) (s : Osdop (Fin n) K n) :
    (s.map (termAct X D Γ (.val o))).sum 1 = tsum (oact X D Γ) s (o.value X.g) := by
  rw [tsum_apply, sum_apply', List.map_map]
  congr 1
  refine List.map_congr_left fun t _ => ?_
  exact mul_one _

theorem sum_termAct_op {y : DObj (Fin n) K n} (hy : ¬ y.IsValue) (s : Osdop (Fin n) K n)
    (F : Spec.Cl X.g) :
    (s.map (termAct X D Γ y)).sum F = tsum (oact X D Γ) s (y.act X D Γ F) := by
  rw [tsum_apply, sum_apply', List.map_map]
  congr 1
  exact List.map_congr_left fun t _ => termAct_op hy t F

theorem sdopCall_spec (h : Env X D Γ) {s : Osdop (Fin n) K n} (hs : TWF (Operand.WF X.g) s)
    {y : DObj (Fin n) K n} (hy : y.WF X) (ry : y.Right) : ∃ z, sdopCall X s y = .ok z ∧
      MulSpec X D Γ (tsum (oact X D Γ) s) y z ∧ (z.IsValue ↔ y.IsValue) := by
  by_cases he : s = []
  · subst he
    refine ⟨zeroLike y, rfl, ?_⟩
    cases y with
    | val o =>
      cases o with
      | scalar c =>
        refine ⟨⟨trivial, trivial, fun _ => trivial, ?_, fun k => absurd trivial k⟩, Iff.rfl⟩
        rintro o ⟨⟩
        show Operand.value X.g (.scalar 0) * 1 = 0
        rw [Operand.value_scalar, map_zero, zero_mul]
      | mv A =>
        refine ⟨⟨(Rep.zero (g := X.g)).good, trivial, fun _ => trivial, ?_, fun k => absurd trivial k⟩, Iff.rfl⟩
        rintro o ⟨⟩
        show Operand.value X.g (.mv Mv.zero) * 1 = 0
        rw [Operand.value_mv, (Rep.zero (g := X.g)).val, zero_mul]
    | pdop p =>
      exact ⟨⟨TWF.nil, trivial, False.elim, by rintro o ⟨⟩, fun _ _ => rfl⟩, Iff.rfl⟩
    | sdop t =>
      exact ⟨⟨TWF.nil, trivial, False.elim, by rintro o ⟨⟩, fun _ _ => rfl⟩, Iff.rfl⟩
    | dop d =>
      have e : zeroLike (.dop d) = .dop ⟨[], false⟩ := if_pos ry
      rw [e]
      exact ⟨⟨Dop.nil_good X false, rfl, False.elim, by rintro o ⟨⟩, fun _ _ => rfl⟩, Iff.rfl⟩
  · obtain ⟨z, z1, -, z2, z3, z4, z5⟩ := fold_spec h hy ry hs (a := .val (.scalar 0)) trivial trivial
      (Or.inl rfl)
    have e0 : (DObj.val (.scalar 0) : DObj (Fin n) K n).act X D Γ = 0 := by
      funext F
      show Operand.value X.g (.scalar 0) * F = 0
      rw [Operand.value_scalar, map_zero, zero_mul]
    rw [e0, zero_add] at z5
    have hv : z.IsValue ↔ y.IsValue := by rw [isValue_iff, isValue_iff', z2 he]
    refine ⟨z, ?_, ⟨z3, z4, hv.mpr, ?_, fun k F => ?_⟩, hv⟩
    · rw [sdopCall, if_neg (by simpa using he)]
      exact z1
    · rintro o rfl
      rw [z5, sum_termAct_value]
    · rw [z5, sum_termAct_op k]

theorem opS_geo' (x y : Spec.Cl X.g) : opS X.g .geo x y = x * y := rfl

theorem callVal_spec (h : Env X D Γ) (p : Pdop (Fin n)) {o : Operand K n} (ho : o.WF X.g) :
    (p.call (Operand.diff X) o).WF X.g ∧ (p.call (Operand.diff X) o).value X.g =
      p.call (basicDiff (grd X D Γ)) (o.value X.g) := by
  induction p generalizing o with
  | nil => exact ⟨ho, rfl⟩
  | cons t p ih =>
    obtain ⟨a, b⟩ := Operand.diff_spec h t.1 t.2 ho
    obtain ⟨c, d⟩ := ih a
    exact ⟨c, d.trans (by rw [b]; rfl)⟩

/-- An operator on the right and a value. -/
theorem Dop.mulVal_spec (h : Env X D Γ) (op : ProdOp) {d : Dop (Fin n) K n} (hd : d.Good X)
    (hf : d.cmpflg = false) {o : Operand K n} (ho : o.WF X.g) :
    ∃ G, d.mulVal X op o = .val (.mv G) ∧ Rep X.g G (d.actS X D Γ op (o.value X.g)) := by
  refine ⟨_, by rw [Dop.mulVal, if_pos hf], ?_⟩
  have := foldl_add_rep h.symm d.terms
    (fun t => Mv.mulOp X.g op t.1 (t.2.call (Operand.diff X) o).toMv)
    (fun t => opS X.g op (t.1.val X.g) (t.2.call (basicDiff (grd X D Γ)) (o.value X.g)))
    (fun t ht => mulOp_rep h.symm op (hd t ht).1.rep (by
      have := callVal_spec h t.2 ho
      rw [← this.2]
      exact Operand.rep this.1)) (Rep.scalarMv (g := X.g) 0)
  refine this.congr ?_
  rw [map_zero, zero_add, Dop.actS, hf]
  clear this hd
  induction d.terms with
  | nil => rfl
  | cons t l ih => rw [List.map_cons, List.sum_cons, ih, tsum_cons]; rfl

theorem dopMul_spec (h : Env X D Γ) {d : Dop (Fin n) K n} {y z : DObj (Fin n) K n} (hd : d.Good X)
    (hf : d.cmpflg = false) (hy : y.WF X) (ry : y.Right) (e : dopMul X .geo (.dop d) y = .ok z) :
    MulSpec X D Γ (d.actS X D Γ .geo) y z := by
  have none : (if d.terms.isEmpty then Res.ok (if d.cmpflg = false then DObj.val (.mv (Mv.scalarMv 0))
      else .dop ⟨[], true⟩) else .raised) = Res.ok z → ¬ y.IsValue →
      MulSpec X D Γ (d.actS X D Γ .geo) y z := by
    intro e hv
    split_ifs at e with h1
    cases e
    have h2 : d.terms = [] := by simpa using h1
    refine ⟨(Rep.scalarMv (g := X.g) 0).good, trivial, fun k => absurd k hv, ?_, fun _ F => ?_⟩
    · rintro o rfl; exact absurd trivial hv
    · show Mv.val X.g (Mv.scalarMv 0) * F = _
      rw [(Rep.scalarMv (g := X.g) 0).val, map_zero, zero_mul, Dop.actS, h2]
      rfl
  cases y with
  | val o =>
    obtain ⟨G, G1, G2⟩ := Dop.mulVal_spec h .geo hd hf (o := o) hy
    have e' : Res.ok (d.mulVal X .geo o) = Res.ok z := e
    rw [G1] at e'
    cases e'
    refine ⟨G2.good, trivial, fun _ => trivial, ?_, fun k => absurd trivial k⟩
    rintro o' ⟨⟩
    exact (mul_one _).trans G2.val
  | pdop p => exact none e id
  | sdop s => exact none e id
  | dop d' =>
    obtain ⟨f, f1, f2, f3, f4⟩ := Dop.mul_spec h (op := .geo) (Or.inl rfl) hd (e := d') hy hf ry
    have e' : Res.ofOption ((d.mul X .geo d').map DObj.dop) = Res.ok z := e
    rw [f1] at e'
    cases e'
    exact ⟨f2, f3, False.elim, by rintro o ⟨⟩, fun _ => f4⟩

theorem DObj.mul_spec (h : Env X D Γ) {x y z : DObj (Fin n) K n} (hx : x.WF X) (hy : y.WF X)
    (rx : x.Right) (ry : y.Right) (e : x.mul X y = .ok z) : MulSpec X D Γ (x.act X D Γ) y z := by
  cases x with
  | val o =>
    obtain ⟨z', z1, z2, -⟩ := valMul_spec h hx hy ry
    rw [show (DObj.val o).mul X y = valMul X o y from rfl, z1] at e
    cases e
    exact z2
  | pdop p =>
    cases e
    obtain ⟨c1, c2, c3, c4, c5⟩ := DObj.call_spec h p hy ry
    exact ⟨c1, c2, c3.mpr, c4, c5⟩
  | sdop s =>
    obtain ⟨z', z1, z2, -⟩ := sdopCall_spec h (s := s) hx hy ry
    rw [show (DObj.sdop s).mul X y = sdopCall X s y from rfl, z1] at e
    cases e
    exact z2
  | dop d => exact dopMul_spec h hx rx hy ry e

end

end GA
