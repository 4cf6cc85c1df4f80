import Verif.Proofs.DopOperands
import Verif.Props.C42

/-!
# C93: numbers, multivectors and differential operators as operands

`x + y`, `x - y`, `x * y` and `x ^ y` where each operand is a number or an expression, a multivector, a
`Pdop`, an `Sdop` or a `Dop`.
-/

set_option linter.unusedSectionVars false
set_option maxRecDepth 10000

namespace GA
variable {n : ℕ} {K : Type*} [Field K] [DecidableEq K] [Invertible (2 : K)]

section helpers
variable {X : Fields (Fin n) K n} {D : Fin n → Derivation ℤ K K}
  {Γ : Fin n → Matrix (Fin n) (Fin n) K}

/-- An operator on the right, or a value, can be applied to every value. -/
theorem apply_ok (h : Env X D Γ) {x : DObj (Fin n) K n} (hx : x.WF X) (rx : x.Right) {o : Operand K n}
    (ho : o.WF X.g) : ∃ w, x.mul X (.val o) = .ok (.val w) ∧ w.WF X.g ∧
      w.value X.g = x.act X D Γ (o.value X.g) := by
  have key : ∃ z, x.mul X (.val o) = .ok z := by
    cases x with
    | val o' => exact ⟨_, rfl⟩
    | pdop p => exact ⟨_, rfl⟩
    | sdop s =>
      obtain ⟨z, z1, -⟩ := sdopCall_spec h (s := s) hx (y := .val o) ho trivial
      exact ⟨z, z1⟩
    | dop d => exact ⟨_, rfl⟩
  obtain ⟨z, z1⟩ := key
  have m := DObj.mul_spec h hx (y := .val o) ho rx trivial z1
  have hv := m.isValue trivial
  cases z with
  | val w => exact ⟨w, z1, m.wf, (mul_one _).symm.trans (m.apply o rfl)⟩
  | _ => exact hv.elim

theorem sameValue_of (h : Env X D Γ) {o o' : Operand K n} (ho : o.WF X.g) (ho' : o'.WF X.g)
    (e : o.value X.g = o'.value X.g) : SameValue X.g (DObj.val o : DObj (Fin n) K n) (.val o') :=
  ⟨o, o', rfl, rfl, ((Operand.rep ho).eq_iff h.symm (Operand.rep ho')).mpr e⟩

end helpers

section algebra
variable {g0 : Matrix (Fin n) (Fin n) K} {D : Fin n → Derivation ℤ K K} {N : Option (Fin n → K)}
  {conn : Option (Fin n → Fin n → Expr K n)} (hs : g0.IsSymm)
  (hN : ∀ N', N = some N' → ∀ i, N' i ^ 2 = g0 i i ∨ N' i ^ 2 = - g0 i i)
  (h : connOf (fun i => D i) g0 N = some conn)
  (hf : CommutingDerivatives (Fields.ofMetric (fun i => D i) g0 N conn))

include hs hN h hf

/-- C93: `(x * y) * F = x * (y * F)` for every field `F`, if `y` is an operator or `x` a value. -/
theorem C93_mul {x y z : DObj (Fin n) K n} (hx : x.WF (Fields.ofMetric (fun i => D i) g0 N conn))
    (hy : y.WF (Fields.ofMetric (fun i => D i) g0 N conn)) (rx : x.Right) (ry : y.Right)
    (hxy : x.IsValue ∨ ¬ y.IsValue) {F : Operand K n} (hF : F.WF (currentMetric N g0))
    (e : x.mul (Fields.ofMetric (fun i => D i) g0 N conn) y = .ok z) :
    ∃ a b c, y.mul (Fields.ofMetric (fun i => D i) g0 N conn) (.val F) = .ok a ∧
      x.mul (Fields.ofMetric (fun i => D i) g0 N conn) a = .ok b ∧
      z.mul (Fields.ofMetric (fun i => D i) g0 N conn) (.val F) = .ok c ∧
      SameValue (currentMetric N g0) c b := by
  obtain ⟨Γ, hE⟩ := env_of hs hN h hf
  have m := DObj.mul_spec hE hx hy rx ry e
  obtain ⟨a, a1, a2, a3⟩ := apply_ok hE hy ry hF
  obtain ⟨b, b1, b2, b3⟩ := apply_ok hE hx rx a2
  obtain ⟨c, c1, c2, c3⟩ := apply_ok hE m.wf m.right hF
  refine ⟨_, _, _, a1, b1, c1, sameValue_of hE c2 b2 ?_⟩
  rw [c3, b3, a3]
  by_cases hv : y.IsValue
  · cases y with
    | val o =>
      rw [act_value (m.isValue trivial), m.apply o rfl]
      rcases hxy with hx' | hy'
      · rw [act_value hx', act_value hx' (DObj.act _ D Γ (.val o) _), mul_assoc]
        rfl
      · exact absurd trivial hy'
    | _ => exact hv.elim
  · exact m.comp hv _

/-- C93: `(x + y) * F = x * F + y * F` for every field `F`. -/
theorem C93_add {x y z : DObj (Fin n) K n} (hx : x.WF (Fields.ofMetric (fun i => D i) g0 N conn))
    (hy : y.WF (Fields.ofMetric (fun i => D i) g0 N conn)) (rx : x.Right) (ry : y.Right)
    {F : Operand K n} (hF : F.WF (currentMetric N g0))
    (e : x.add (Fields.ofMetric (fun i => D i) g0 N conn) y = .ok z) :
    ∃ a b c d, x.mul (Fields.ofMetric (fun i => D i) g0 N conn) (.val F) = .ok a ∧
      y.mul (Fields.ofMetric (fun i => D i) g0 N conn) (.val F) = .ok b ∧
      z.mul (Fields.ofMetric (fun i => D i) g0 N conn) (.val F) = .ok c ∧
      a.add (Fields.ofMetric (fun i => D i) g0 N conn) b = .ok d ∧
      SameValue (currentMetric N g0) c d := by
  obtain ⟨Γ, hE⟩ := env_of hs hN h hf
  obtain ⟨z1, z2, -, z3⟩ := DObj.add_spec hE hx hy rx ry e
  obtain ⟨a, a1, a2, a3⟩ := apply_ok hE hx rx hF
  obtain ⟨b, b1, b2, b3⟩ := apply_ok hE hy ry hF
  obtain ⟨c, c1, c2, c3⟩ := apply_ok hE z1 z2 hF
  have k := Operand.add_spec hE.symm a2 b2
  refine ⟨_, _, _, _, a1, b1, c1, rfl, sameValue_of hE c2 k.1 ?_⟩
  rw [c3, k.2, z3, a3, b3]
  rfl

/-- C93: `(x - y) * F = x * F - y * F` for every field `F`. -/
theorem C93_sub {x y z : DObj (Fin n) K n} (hx : x.WF (Fields.ofMetric (fun i => D i) g0 N conn))
    (hy : y.WF (Fields.ofMetric (fun i => D i) g0 N conn)) (rx : x.Right) (ry : y.Right)
    {F : Operand K n} (hF : F.WF (currentMetric N g0))
    (e : x.sub (Fields.ofMetric (fun i => D i) g0 N conn) y = .ok z) :
    ∃ a b c d, x.mul (Fields.ofMetric (fun i => D i) g0 N conn) (.val F) = .ok a ∧
      y.mul (Fields.ofMetric (fun i => D i) g0 N conn) (.val F) = .ok b ∧
      z.mul (Fields.ofMetric (fun i => D i) g0 N conn) (.val F) = .ok c ∧
      a.sub (Fields.ofMetric (fun i => D i) g0 N conn) b = .ok d ∧
      SameValue (currentMetric N g0) c d := by
  obtain ⟨Γ, hE⟩ := env_of hs hN h hf
  obtain ⟨z1, z2, -, z3⟩ := DObj.sub_spec hE hx hy rx ry e
  obtain ⟨a, a1, a2, a3⟩ := apply_ok hE hx rx hF
  obtain ⟨b, b1, b2, b3⟩ := apply_ok hE hy ry hF
  obtain ⟨c, c1, c2, c3⟩ := apply_ok hE z1 z2 hF
  have k := Operand.sub_spec hE.symm a2 b2
  refine ⟨_, _, _, _, a1, b1, c1, rfl, sameValue_of hE c2 k.1 ?_⟩
  rw [c3, k.2, z3, a3, b3]
  rfl

/-- C93: sums and differences of operands that do not act to the left are defined exactly for operands
without `Pdop` and without `Sdop` and `Dop` together; otherwise an exception is raised. -/
theorem C93_addable {x y : DObj (Fin n) K n} (hx : x.WF (Fields.ofMetric (fun i => D i) g0 N conn))
    (hy : y.WF (Fields.ofMetric (fun i => D i) g0 N conn)) (rx : x.Right) (ry : y.Right) :
    ((∃ z, x.add (Fields.ofMetric (fun i => D i) g0 N conn) y = .ok z) ↔ Addable x y) ∧
    ((∃ z, x.sub (Fields.ofMetric (fun i => D i) g0 N conn) y = .ok z) ↔ Addable x y) ∧
    (¬ Addable x y → x.add (Fields.ofMetric (fun i => D i) g0 N conn) y = .raised ∧
      x.sub (Fields.ofMetric (fun i => D i) g0 N conn) y = .raised) := by
  obtain ⟨Γ, hE⟩ := env_of hs hN h hf
  have key : (Addable x y → (∃ z, x.add (Fields.ofMetric (fun i => D i) g0 N conn) y = .ok z) ∧
      ∃ z, x.sub (Fields.ofMetric (fun i => D i) g0 N conn) y = .ok z) ∧
      (¬ Addable x y → x.add (Fields.ofMetric (fun i => D i) g0 N conn) y = .raised ∧
      x.sub (Fields.ofMetric (fun i => D i) g0 N conn) y = .raised) := by
    cases x with
    | val o =>
      cases y with
      | val o' => exact ⟨fun _ => ⟨⟨_, rfl⟩, ⟨_, rfl⟩⟩, fun k => absurd (by simp [Addable, DObj.IsPdop, DObj.IsSdop, DObj.IsDop]) k⟩
      | pdop p => exact ⟨fun k => absurd trivial k.2.1, fun _ => ⟨rfl, rfl⟩⟩
      | sdop s => exact ⟨fun _ => ⟨⟨_, rfl⟩, ⟨_, rfl⟩⟩, fun k => absurd (by simp [Addable, DObj.IsPdop, DObj.IsSdop, DObj.IsDop]) k⟩
      | dop d =>
        obtain ⟨f, f1, -⟩ := Dop.add_spec hE (d := ⟨[(o.toMv, [])], d.cmpflg⟩) (e := d)
          (single_dop_good hx _) hy rfl
        obtain ⟨n1, n2, -⟩ := Dop.neg_spec (D := D) (Γ := Γ) (d := d) hy
        obtain ⟨f', f1', -⟩ := Dop.add_spec hE (d := ⟨[(o.toMv, [])], d.neg.cmpflg⟩) (e := d.neg)
          (single_dop_good hx _) n1 rfl
        refine ⟨fun _ => ⟨⟨.dop f, ?_⟩, ⟨.dop f', ?_⟩⟩, fun k => absurd (by simp [Addable, DObj.IsPdop, DObj.IsSdop, DObj.IsDop]) k⟩
        · show Res.orElse .notImplemented (Res.ofOption ((Dop.mvAdd _ o.toMv d).map DObj.dop)) = _
          rw [Dop.mvAdd, f1]; rfl
        · show Res.orElse .notImplemented (Res.ofOption ((Dop.mvAdd _ o.toMv d.neg).map DObj.dop)) = _
          rw [Dop.mvAdd, f1']; rfl
    | pdop p => exact ⟨fun k => absurd trivial k.1, fun _ => by cases y <;> exact ⟨rfl, rfl⟩⟩
    | sdop s =>
      cases y with
      | val o' => exact ⟨fun _ => ⟨⟨_, rfl⟩, ⟨_, rfl⟩⟩, fun k => absurd (by simp [Addable, DObj.IsPdop, DObj.IsSdop, DObj.IsDop]) k⟩
      | pdop p => exact ⟨fun k => absurd trivial k.2.1, fun _ => ⟨rfl, rfl⟩⟩
      | sdop s => exact ⟨fun _ => ⟨⟨_, rfl⟩, ⟨_, rfl⟩⟩, fun k => absurd (by simp [Addable, DObj.IsPdop, DObj.IsSdop, DObj.IsDop]) k⟩
      | dop d => exact ⟨fun k => absurd ⟨trivial, trivial⟩ k.2.2.1, fun _ => ⟨rfl, rfl⟩⟩
    | dop d =>
      cases y with
      | val o =>
        obtain ⟨f, f1, -⟩ := Dop.add_spec hE (d := d) (e := ⟨[(o.toMv, [])], d.cmpflg⟩) hx
          (single_dop_good hy _) rfl
        obtain ⟨f', f1', -⟩ := Dop.add_spec hE (d := d) (e := ⟨[(o.neg.toMv, [])], d.cmpflg⟩) hx
          (single_dop_good (Operand.neg_spec hy).1 _) rfl
        refine ⟨fun _ => ⟨⟨.dop f, ?_⟩, ⟨.dop f', ?_⟩⟩, fun k => absurd (by simp [Addable, DObj.IsPdop, DObj.IsSdop, DObj.IsDop]) k⟩
        · show Res.orElse (Res.ofOption ((Dop.addMv _ d o.toMv).map DObj.dop)) _ = _
          rw [Dop.addMv, f1]; rfl
        · show Res.orElse (Res.ofOption ((Dop.addMv _ d o.neg.toMv).map DObj.dop)) _ = _
          rw [Dop.addMv, f1']; rfl
      | pdop p => exact ⟨fun k => absurd trivial k.2.1, fun _ => ⟨rfl, rfl⟩⟩
      | sdop s => exact ⟨fun k => absurd ⟨trivial, trivial⟩ k.2.2.2, fun _ => ⟨rfl, rfl⟩⟩
      | dop d' =>
        obtain ⟨f, f1, -⟩ := Dop.add_spec hE (d := d) (e := d') hx hy (rx.trans ry.symm)
        obtain ⟨n1, n2, -⟩ := Dop.neg_spec (D := D) (Γ := Γ) (d := d') hy
        obtain ⟨f', f1', -⟩ := Dop.add_spec hE (d := d) (e := d'.neg) hx n1 (rx.trans (n2.trans ry).symm)
        refine ⟨fun _ => ⟨⟨.dop f, ?_⟩, ⟨.dop f', ?_⟩⟩, fun k => absurd (by simp [Addable, DObj.IsPdop, DObj.IsSdop, DObj.IsDop]) k⟩
        · show Res.orElse (Res.ofOption ((Dop.add _ d d').map DObj.dop)) _ = _
          rw [f1]; rfl
        · show Res.orElse (Res.ofOption ((Dop.add _ d d'.neg).map DObj.dop)) _ = _
          rw [f1']; rfl
  refine ⟨⟨?_, fun k => (key.1 k).1⟩, ⟨?_, fun k => (key.1 k).2⟩, key.2⟩
  · rintro ⟨z, hz⟩
    by_contra k
    rw [(key.2 k).1] at hz
    cases hz
  · rintro ⟨z, hz⟩
    by_contra k
    rw [(key.2 k).2] at hz
    cases hz

/-- C93: a product of operands that do not act to the left raises an exception exactly if a `Dop` with
terms is multiplied by a `Pdop` or an `Sdop` on its right. -/
theorem C93_mul_defined {x y : DObj (Fin n) K n} (hx : x.WF (Fields.ofMetric (fun i => D i) g0 N conn))
    (hy : y.WF (Fields.ofMetric (fun i => D i) g0 N conn)) (rx : x.Right) (ry : y.Right) :
    (x.mul (Fields.ofMetric (fun i => D i) g0 N conn) y = .raised ∧
      (∃ d, x = .dop d ∧ d.terms ≠ []) ∧ (y.IsPdop ∨ y.IsSdop)) ∨
    ((∃ z, x.mul (Fields.ofMetric (fun i => D i) g0 N conn) y = .ok z) ∧
      ¬ ((∃ d, x = .dop d ∧ d.terms ≠ []) ∧ (y.IsPdop ∨ y.IsSdop))) := by
  obtain ⟨Γ, hE⟩ := env_of hs hN h hf
  cases x with
  | val o =>
    obtain ⟨z, z1, -⟩ := valMul_spec hE hx hy ry
    exact Or.inr ⟨⟨z, z1⟩, by rintro ⟨⟨d, ⟨⟩, -⟩, -⟩⟩
  | pdop p => exact Or.inr ⟨⟨_, rfl⟩, by rintro ⟨⟨d, ⟨⟩, -⟩, -⟩⟩
  | sdop s =>
    obtain ⟨z, z1, -⟩ := sdopCall_spec hE (s := s) hx hy ry
    exact Or.inr ⟨⟨z, z1⟩, by rintro ⟨⟨d, ⟨⟩, -⟩, -⟩⟩
  | dop d =>
    have none : ∀ y : DObj (Fin n) K n, (y.IsPdop ∨ y.IsSdop) →
        (DObj.dop d).mul (Fields.ofMetric (fun i => D i) g0 N conn) y = (if d.terms.isEmpty then
          Res.ok (if d.cmpflg = false then DObj.val (.mv (Mv.scalarMv 0)) else .dop ⟨[], true⟩)
          else .raised) := by
      rintro y hy
      cases y with
      | val o => exact (hy.elim id id).elim
      | pdop p => rfl
      | sdop s => rfl
      | dop e => exact (hy.elim id id).elim
    by_cases hk : y.IsPdop ∨ y.IsSdop
    · rw [none y hk]
      by_cases he : d.terms = []
      · rw [he]
        refine Or.inr ⟨⟨_, rfl⟩, ?_⟩
        rintro ⟨⟨d', e, h1⟩, -⟩
        cases e
        exact h1 he
      · refine Or.inl ⟨?_, ⟨d, rfl, he⟩, hk⟩
        rw [if_neg (by simpa using he)]
    · refine Or.inr ⟨?_, fun k => hk k.2⟩
      cases y with
      | val o => exact ⟨_, rfl⟩
      | pdop p => exact absurd (Or.inl trivial) hk
      | sdop s => exact absurd (Or.inr trivial) hk
      | dop e =>
        obtain ⟨f, f1, -⟩ := Dop.mul_spec hE (op := .geo) (Or.inl rfl) (d := d) (e := e) hx hy rx ry
        refine ⟨.dop f, ?_⟩
        show Res.ofOption ((Dop.mul _ .geo d e).map DObj.dop) = _
        rw [f1]; rfl

/-- C93: operators that act to the left: `F * (x * y) = (F * x) * y` for every field `F`, number or
multivector, if `x` is an operator and `y` an operator, a number or a multivector. -/
theorem C93_left {d : Dop (Fin n) K n} {y z : DObj (Fin n) K n}
    (hd : d.WF (Fields.ofMetric (fun i => D i) g0 N conn))
    (hy : y.WF (Fields.ofMetric (fun i => D i) g0 N conn)) (hdf : d.cmpflg = true)
    (hyf : y.IsValue ∨ ∃ e, y = .dop e ∧ e.cmpflg = true)
    {F : Operand K n} (hF : F.WF (currentMetric N g0))
    (e : (DObj.dop d).mul (Fields.ofMetric (fun i => D i) g0 N conn) y = .ok z) :
    ∃ a b c, (DObj.val F).mul (Fields.ofMetric (fun i => D i) g0 N conn) (.dop d) = .ok a ∧
      a.mul (Fields.ofMetric (fun i => D i) g0 N conn) y = .ok b ∧
      (DObj.val F).mul (Fields.ofMetric (fun i => D i) g0 N conn) z = .ok c ∧
      SameValue (currentMetric N g0) c b := by
  obtain ⟨Γ, hE⟩ := env_of hs hN h hf
  have hX : (Fields.ofMetric (fun i => D i) g0 N conn).g = currentMetric N g0 := rfl
  have app : ∀ {d : Dop (Fin n) K n} {F : Operand K n}, d.WF (Fields.ofMetric (fun i => D i) g0 N conn) →
      d.cmpflg = true → F.WF (currentMetric N g0) →
      ∃ G, (DObj.val F).mul (Fields.ofMetric (fun i => D i) g0 N conn) (.dop d) = .ok (.val (.mv G)) ∧
        Rep (currentMetric N g0) G (d.actS (Fields.ofMetric (fun i => D i) g0 N conn) D Γ .geo
          (F.value (currentMetric N g0))) := by
    intro d F hd hdf hF
    obtain ⟨G, G1, G2⟩ := Dop.apply_left hE .geo hd hdf (Operand.rep hF)
    refine ⟨G, ?_, G2⟩
    show Res.ok (DObj.ofSum (Dop.mvMul _ .geo F.toMv d)) = _
    rw [G1]; rfl
  obtain ⟨G, G1, G2⟩ := app hd hdf hF
  have hG : (Operand.mv G).WF (currentMetric N g0) := G2.good
  cases y with
  | val o =>
    obtain ⟨f, f1, f2, f3, f4⟩ := Dop.mulMv_spec hE (op := .geo) (Or.inl rfl) hd hdf (Operand.rep (o := o) hy)
    have e' : Res.ok (d.mulVal (Fields.ofMetric (fun i => D i) g0 N conn) .geo o) = Res.ok z := e
    rw [Dop.mulVal, if_neg (by rw [hdf]; exact Bool.noConfusion), f1] at e'
    cases e'
    obtain ⟨H, H1, H2⟩ := app f2 f3 hF
    have m := Operand.mul_spec hE.symm hG hy
    refine ⟨_, _, _, G1, rfl, H1, sameValue_of hE H2.good m.1 ?_⟩
    rw [m.2, Operand.value_mv, Operand.value_mv]
    exact H2.val.trans ((f4 _).trans (congrArg (· * _) G2.val.symm))
  | dop d' =>
    have hd' : d'.cmpflg = true := by
      rcases hyf with k | ⟨e', k, k'⟩
      · exact k.elim
      · cases k; exact k'
    obtain ⟨f, f1, f2, f3, f4⟩ := Dop.mul_spec_left hE (op := .geo) (Or.inl rfl) hd (e := d') hy hdf hd'
    have e' : Res.ofOption ((d.mul (Fields.ofMetric (fun i => D i) g0 N conn) .geo d').map DObj.dop) =
      Res.ok z := e
    rw [f1] at e'
    cases e'
    obtain ⟨H, H1, H2⟩ := app f2 f3 hF
    obtain ⟨I, I1, I2⟩ := app hy hd' hG
    refine ⟨_, _, _, G1, I1, H1, sameValue_of hE H2.good I2.good ?_⟩
    exact H2.val.trans ((f4 _).trans ((congrArg _ G2.val.symm).trans I2.val.symm))
  | pdop p =>
    rcases hyf with k | ⟨e', k, k'⟩
    · exact k.elim
    · cases k
  | sdop s =>
    rcases hyf with k | ⟨e', k, k'⟩
    · exact k.elim
    · cases k

/-- C93: `(x ^ y) ^ F = x ^ (y ^ F)` for an operator `y`, a number, multivector or operator `x` and every
field `F`, number or multivector. -/
theorem C93_outer {x : DObj (Fin n) K n} {d : Dop (Fin n) K n} {z : DObj (Fin n) K n}
    (hx : x.WF (Fields.ofMetric (fun i => D i) g0 N conn)) (rx : x.Right) (hxk : x.IsValue ∨ x.IsDop)
    (hd : d.WF (Fields.ofMetric (fun i => D i) g0 N conn)) (hdf : d.cmpflg = false)
    {F : Operand K n} (hF : F.WF (currentMetric N g0))
    (e : x.prod (Fields.ofMetric (fun i => D i) g0 N conn) .outer (.dop d) = .ok z) :
    ∃ a b c, (DObj.dop d).prod (Fields.ofMetric (fun i => D i) g0 N conn) .outer (.val F) = .ok a ∧
      x.prod (Fields.ofMetric (fun i => D i) g0 N conn) .outer a = .ok b ∧
      z.prod (Fields.ofMetric (fun i => D i) g0 N conn) .outer (.val F) = .ok c ∧
      SameValue (currentMetric N g0) c b := by
  obtain ⟨Γ, hE⟩ := env_of hs hN h hf
  have app : ∀ {d : Dop (Fin n) K n} {F : Operand K n}, d.WF (Fields.ofMetric (fun i => D i) g0 N conn) →
      d.cmpflg = false → F.WF (currentMetric N g0) →
      ∃ G, (DObj.dop d).prod (Fields.ofMetric (fun i => D i) g0 N conn) .outer (.val F) =
          .ok (.val (.mv G)) ∧
        Rep (currentMetric N g0) G (d.actS (Fields.ofMetric (fun i => D i) g0 N conn) D Γ .outer
          (F.value (currentMetric N g0))) := by
    intro d F hd hdf hF
    obtain ⟨G, G1, G2⟩ := Dop.mulVal_spec hE .outer hd hdf hF
    refine ⟨G, ?_, G2⟩
    show Res.ok (d.mulVal _ .outer F) = _
    rw [G1]
  obtain ⟨G, G1, G2⟩ := app hd hdf hF
  have hG : (Operand.mv G).WF (currentMetric N g0) := G2.good
  have wedge_val : ∀ o : Operand K n, o.WF (currentMetric N g0) → ∃ f H I,
      (DObj.val o).prod (Fields.ofMetric (fun i => D i) g0 N conn) .outer (.dop d) = .ok (.dop f) ∧
      (DObj.val o).prod (Fields.ofMetric (fun i => D i) g0 N conn) .outer (.val (.mv G)) =
        .ok (.val (.mv H)) ∧
      (DObj.dop f).prod (Fields.ofMetric (fun i => D i) g0 N conn) .outer (.val F) = .ok (.val (.mv I)) ∧
      SameValue (currentMetric N g0) (DObj.val (.mv I) : DObj (Fin n) K n) (.val (.mv H)) := by
    intro o ho
    obtain ⟨f, f1, f2, f3, f4⟩ := Dop.mvMul_spec hE (op := .outer) (Or.inr rfl) hd hdf (Operand.rep ho)
    obtain ⟨I, I1, I2⟩ := app f2 f3 hF
    have e1 : (DObj.val o).prod (Fields.ofMetric (fun i => D i) g0 N conn) .outer (.dop d) =
        .ok (.dop f) := by
      have : (DObj.val o).prod (Fields.ofMetric (fun i => D i) g0 N conn) .outer (.dop d) =
          .ok (DObj.ofSum (Dop.mvMul (Fields.ofMetric (fun i => D i) g0 N conn) .outer o.toMv d)) := by
        cases o <;> rfl
      rw [this, f1]; rfl
    have e2 : ∃ H, (DObj.val o).prod (Fields.ofMetric (fun i => D i) g0 N conn) .outer (.val (.mv G)) =
        .ok (.val (.mv H)) ∧ Rep (currentMetric N g0) H
          (Spec.wedge (currentMetric N g0) (o.value (currentMetric N g0)) (G.val (currentMetric N g0))) := by
      cases o with
      | scalar c =>
        obtain ⟨k1, k2⟩ := timesScalar_spec (g := currentMetric N g0) G2.wf c
        refine ⟨G.timesScalar c, rfl, k1,
          (ofExpr_valid (g := currentMetric N g0) (valid_smulE c G2.valid)).2, ?_⟩
        rw [k2, Operand.value_scalar, wedge_algebraMap, Algebra.smul_def]
      | mv A => exact ⟨_, rfl, Rep.wedge hE.symm ho.good.rep hG.good.rep⟩
    obtain ⟨H, H1, H2⟩ := e2
    refine ⟨f, H, I, e1, H1, I1, sameValue_of hE I2.good H2.good ?_⟩
    exact I2.val.trans ((f4 _).trans ((congrArg _ G2.val.symm).trans H2.val.symm))
  cases x with
  | val o =>
    obtain ⟨f, H, I, k1, k2, k3, k4⟩ := wedge_val o hx
    rw [k1] at e
    cases e
    exact ⟨_, _, _, G1, k2, k3, k4⟩
  | dop d' =>
    obtain ⟨f, f1, f2, f3, f4⟩ := Dop.mul_spec hE (op := .outer) (Or.inr rfl) (d := d') hx hd rx hdf
    have e' : Res.ofOption ((d'.mul (Fields.ofMetric (fun i => D i) g0 N conn) .outer d).map DObj.dop) =
      Res.ok z := e
    rw [f1] at e'
    cases e'
    obtain ⟨H, H1, H2⟩ := app f2 f3 hF
    obtain ⟨I, I1, I2⟩ := app (d := d') hx rx hG
    refine ⟨_, _, _, G1, I1, H1, sameValue_of hE H2.good I2.good ?_⟩
    exact H2.val.trans ((f4 _).trans ((congrArg _ G2.val.symm).trans I2.val.symm))
  | pdop p => exact (hxk.elim id id).elim
  | sdop s => exact (hxk.elim id id).elim

/-- C93: a number on the right of an operator counts as the scalar multivector, for each product. -/
theorem C93_number_right (op : ProdOp) (c : K) {d : Dop (Fin n) K n}
    (hd : d.WF (Fields.ofMetric (fun i => D i) g0 N conn)) (hdf : d.cmpflg = false) :
    ∃ a b, (DObj.dop d).prod (Fields.ofMetric (fun i => D i) g0 N conn) op (.val (.scalar c)) = .ok a ∧
      (DObj.dop d).prod (Fields.ofMetric (fun i => D i) g0 N conn) op (.val (.mv (Mv.scalarMv c))) = .ok b ∧
      SameValue (currentMetric N g0) a b := by
  obtain ⟨Γ, hE⟩ := env_of hs hN h hf
  obtain ⟨G, G1, G2⟩ := Dop.mulVal_spec hE op hd hdf (o := .scalar c) trivial
  obtain ⟨H, H1, H2⟩ := Dop.mulVal_spec hE op hd hdf (o := .mv (Mv.scalarMv c)) (Rep.scalarMv c).good
  refine ⟨.val (.mv G), .val (.mv H), congrArg Res.ok G1, congrArg Res.ok H1,
    sameValue_of hE G2.good H2.good ?_⟩
  exact G2.val.trans H2.val.symm

end algebra

section dispatch
variable {V : Type*} [DecidableEq V] (X : Fields V K n)

/-- C93: a number on the left of an operator counts as the scalar multivector in `*`, `^` and `|`. -/
theorem C93_number_left (c : K) (d : Dop V K n) :
    (DObj.val (.scalar c)).mul X (.dop d) = (DObj.val (.mv (Mv.scalarMv c))).mul X (.dop d) ∧
    (DObj.val (.scalar c)).prod X .outer (.dop d) =
      (DObj.val (.mv (Mv.scalarMv c))).prod X .outer (.dop d) ∧
    (DObj.val (.scalar c)).prod X .inner (.dop d) =
      (DObj.val (.mv (Mv.scalarMv c))).prod X .inner (.dop d) := ⟨rfl, rfl, rfl⟩

/-- C93 fails for `c < d` and `c > d`: with a number `c` the operator is applied to the number, with the
scalar multivector of that number the product is an operator. -/
theorem C93_contraction_counterexample (c : K) (d : Dop V K n) (hd : d.cmpflg = false) :
    (∃ A, (DObj.val (.scalar c)).prod X .left (.dop d) = .ok (.val (.mv A))) ∧
    (∃ e, (DObj.val (.mv (Mv.scalarMv c))).prod X .left (.dop d) = .ok (.dop e)) ∧
    (∃ A, (DObj.val (.scalar c)).prod X .right (.dop d) = .ok (.val (.mv A))) ∧
    (∃ e, (DObj.val (.mv (Mv.scalarMv c))).prod X .right (.dop d) = .ok (.dop e)) := by
  have k : ∀ op, ∃ A, d.mulVal X op (.scalar c) = .val (.mv A) := fun op =>
    ⟨_, by rw [Dop.mulVal, if_pos hd]⟩
  have k' : ∀ op, ∃ e, Dop.mvMul X op (Mv.scalarMv c) d = .inr e := fun op => by
    rw [Dop.mvMul, if_pos hd]; exact ⟨_, rfl⟩
  refine ⟨?_, ?_, ?_, ?_⟩
  · obtain ⟨A, e⟩ := k .right; exact ⟨A, congrArg Res.ok e⟩
  · obtain ⟨f, e⟩ := k' .left
    refine ⟨f, ?_⟩
    show Res.ok (DObj.ofSum (Dop.mvMul X .left (Mv.scalarMv c) d)) = _
    rw [e]; rfl
  · obtain ⟨A, e⟩ := k .left; exact ⟨A, congrArg Res.ok e⟩
  · obtain ⟨f, e⟩ := k' .right
    refine ⟨f, ?_⟩
    show Res.ok (DObj.ofSum (Dop.mvMul X .right (Mv.scalarMv c) d)) = _
    rw [e]; rfl

/-- C93 fails for operators that act to opposite sides: `Dop * Dop` raises an exception for them, but an
`Sdop` times a `Dop` that acts to the left is a multivector. -/
theorem C93_sides_counterexample (o : Operand K n) (v : V) (d : Dop V K n) (hd : d.cmpflg = true) :
    (∃ A, (DObj.sdop [(o, [(v, 1)])]).mul X (.dop d) = .ok (.val (.mv A))) ∧
    ∀ e : Dop V K n, e.cmpflg = false → (DObj.dop e).mul X (.dop d) = .raised := by
  constructor
  · have k : ∀ e : Dop V K n, e.cmpflg = true → ∃ A, Dop.mvMul X .geo o.toMv e = .inl A := fun e he => by
      rw [Dop.mvMul, if_neg (by rw [he]; exact Bool.noConfusion)]; exact ⟨_, rfl⟩
    have k2 : ∃ e, DObj.diff X v 1 (DObj.dop d) = DObj.dop e ∧ e.cmpflg = true := ⟨_, rfl, hd⟩
    obtain ⟨e, e1, e2⟩ := k2
    obtain ⟨A, hA⟩ := k e e2
    refine ⟨Mv.addScalar A 0, ?_⟩
    show sdopStep X (.dop d) (.ok (.val (.scalar 0))) (o, [(v, 1)]) = _
    have e3 : Pdop.call (DObj.diff X) [(v, 1)] (.dop d) = DObj.dop e := e1
    rw [sdopStep, e3]
    show DObj.add X (DObj.val (.scalar 0)) (DObj.ofSum (Dop.mvMul X .geo o.toMv e)) = _
    rw [hA]
    rfl
  · intro e he
    show Res.ofOption ((Dop.mul X .geo e d).map DObj.dop) = _
    rw [Dop.mul, if_neg (by rw [he, hd]; simp)]
    rfl

end dispatch

namespace Ex

/-- Polar coordinates: the operator `x ∂` of C42, an `Sdop` and a `Pdop` multiplied. -/
example : ∃ conn z, connOf (fun i => partialD i) polar none = some conn ∧
    (DObj.sdop [(.scalar (coord 0), [(0, 1)]), (.mv (Mv.vector ![coord 1, 1]), [])]).mul
      (Fields.ofMetric (fun i => partialD i) polar none conn) (.dop (dpol false)) = .ok z ∧
    (∃ a b c, (DObj.dop (dpol false)).mul (Fields.ofMetric (fun i => partialD i) polar none conn)
        (.val (.mv (Mv.vector ![coord 0, coord 1]))) = .ok a ∧
      (DObj.sdop [(.scalar (coord 0), [(0, 1)]), (.mv (Mv.vector ![coord 1, 1]), [])]).mul
        (Fields.ofMetric (fun i => partialD i) polar none conn) a = .ok b ∧
      z.mul (Fields.ofMetric (fun i => partialD i) polar none conn)
        (.val (.mv (Mv.vector ![coord 0, coord 1]))) = .ok c ∧ SameValue polar c b) := by
  obtain ⟨conn, h1, h2⟩ := polar_commuting
  have hs : (DObj.sdop [(.scalar (coord 0), [(0, 1)]), (.mv (Mv.vector ![coord 1, 1]), [])]).WF
      (Fields.ofMetric (fun i => partialD i) polar none conn) := by
    intro t ht
    simp only [List.mem_cons, List.not_mem_nil, or_false] at ht
    rcases ht with rfl | rfl
    · exact ⟨trivial, by simp [Pdop.WF]⟩
    · exact ⟨(Rep.vector _).good, by simp [Pdop.WF]⟩
  rcases C93_mul_defined polar_symm (by simp) h1 h2 hs (y := .dop (dpol false)) (dpol_wf _ _) trivial rfl with
    ⟨-, ⟨d, k, -⟩, -⟩ | ⟨⟨z, hz⟩, -⟩
  · cases k
  exact ⟨conn, z, h1, hz, C93_mul polar_symm (by simp) h1 h2 hs (y := .dop (dpol false)) (dpol_wf _ _)
    trivial rfl
    (Or.inr id) (Rep.vector (g := polar) _).good hz⟩

/-- Polar coordinates: a function added to the operator. -/
example : ∃ conn z, connOf (fun i => partialD i) polar none = some conn ∧
    (DObj.val (.scalar (coord 0))).add (Fields.ofMetric (fun i => partialD i) polar none conn)
      (.dop (dpol false)) = .ok z := by
  obtain ⟨conn, h1, h2⟩ := polar_commuting
  obtain ⟨z, hz⟩ := ((C93_addable polar_symm (by simp) h1 h2 (x := .val (.scalar (coord 0)))
    (y := .dop (dpol false)) trivial (dpol_wf _ _) trivial rfl).1).mpr
      (by simp [Addable, DObj.IsPdop, DObj.IsSdop, DObj.IsDop])
  exact ⟨conn, z, h1, hz⟩

/-- Polar coordinates: the same operator acting to the left, times a vector. -/
example : ∃ conn z a b c, connOf (fun i => partialD i) polar none = some conn ∧
    (DObj.dop (dpol true)).mul (Fields.ofMetric (fun i => partialD i) polar none conn)
      (.val (.mv (Mv.vector ![1, coord 1]))) = .ok z ∧
    (DObj.val (.scalar (coord 0))).mul (Fields.ofMetric (fun i => partialD i) polar none conn)
      (.dop (dpol true)) = .ok a ∧
    a.mul (Fields.ofMetric (fun i => partialD i) polar none conn)
      (.val (.mv (Mv.vector ![1, coord 1]))) = .ok b ∧
    (DObj.val (.scalar (coord 0))).mul (Fields.ofMetric (fun i => partialD i) polar none conn) z = .ok c ∧
    SameValue polar c b := by
  obtain ⟨conn, h1, h2⟩ := polar_commuting
  obtain ⟨a, b, c, k⟩ := C93_left polar_symm (by simp) h1 h2 (dpol_wf _ true)
    (y := .val (.mv (Mv.vector ![1, coord 1]))) (Rep.vector (g := polar) _).good rfl (Or.inl trivial)
    (F := .scalar (coord 0)) trivial rfl
  exact ⟨conn, _, a, b, c, h1, rfl, k⟩

end Ex

end GA
