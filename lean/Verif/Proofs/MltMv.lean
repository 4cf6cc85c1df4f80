import Verif.Spec.MltMv
import Verif.Proofs.Mlt
import Verif.Proofs.Subs
import Verif.Proofs.GaEval

/-! Values of multilinear functions with multivector values. -/

set_option linter.unusedSectionVars false

namespace GA
open MvPolynomial

section change
variable {n : ℕ} {R S : Type*} [CommRing R] [DecidableEq R] [Invertible (2 : R)]
  [CommRing S] [DecidableEq S] [Invertible (2 : S)]

/-- A homomorphism of the Clifford algebras over a homomorphism `φ` of the coefficients. -/
structure ChangeTo (φ : R →+* S) (g : Matrix (Fin n) (Fin n) R) (g' : Matrix (Fin n) (Fin n) S)
    (ψ : Spec.Cl g →+* Spec.Cl g') : Prop where
  scalar : ∀ c, ψ (algebraMap R _ c) = algebraMap S _ (φ c)
  vec : ∀ v : Fin n → R, ψ (Spec.vec g v) = Spec.vec g' fun i => φ (v i)
  grade : ∀ k x, ψ (Spec.grade g k x) = Spec.grade g' k (ψ x)
  bin : ∀ op x y, ψ (binS g op x y) = binS g' op (ψ x) (ψ y)
  subs : ∀ {A : Mv R n} {x}, Rep g A x → Rep g' (A.subs φ) (ψ x)
  den : ∀ E : Expr R n, GA.den g' (E.map fun t => (φ t.1, t.2)) = ψ (GA.den g E)

theorem exists_changeTo (φ : R →+* S) {g : Matrix (Fin n) (Fin n) R} {g' : Matrix (Fin n) (Fin n) S}
    (h : g.map φ = g') : ∃ ψ, ChangeTo φ g g' ψ := by
  subst h
  obtain ⟨Ψ⟩ := Spec.exists_change φ g
  refine ⟨Ψ.hom, Ψ.scalar, Ψ.vec, Ψ.grade, fun op x y => ?_, fun hA => hA.subs Ψ, fun E => den_map Ψ E⟩
  cases op
  · exact map_add _ _ _
  · exact map_sub _ _ _
  · exact map_mul _ _ _
  · exact Ψ.wedge _ _
  · exact Ψ.gradedProduct _ _ _
  · exact Ψ.gradedProduct _ _ _
  · exact Ψ.gradedProduct _ _ _
  · exact map_zero _
  · exact map_zero _
end change

variable {n : ℕ} {K : Type*} [Field K] [DecidableEq K] [Invertible (2 : K)]
  {g : Matrix (Fin n) (Fin n) K}

theorem liftG_eval (v : ℕ × Fin n → K) : (liftG g).map (eval v) = g := by
  ext i j; simp [liftG]

theorem liftG_bind (w : ℕ × Fin n → SlotPoly K n) :
    (liftG g).map (bind₁ w : SlotPoly K n →+* SlotPoly K n) = liftG g := by
  ext i j; simp [liftG]

/-- What a value stands for among multivectors with slot symbols. -/
noncomputable def Operand.gen (g : Matrix (Fin n) (Fin n) K) : Operand (SlotPoly K n) n → Spec.Cl (liftG g)
  | .scalar p => algebraMap _ _ p
  | .mv A => A.val (liftG g)

theorem valueAt_gen {v : ℕ → Fin n → K} {ψ : Spec.Cl (liftG g) →+* Spec.Cl g}
    (hψ : ChangeTo (eval fun ik : ℕ × Fin n => v ik.1 ik.2) (liftG g) g ψ) {x : Operand (SlotPoly K n) n}
    (hx : x.Ok g) : valueAt g v x = ψ (x.gen g) := by
  cases x with
  | scalar p => exact (hψ.scalar p).symm
  | mv A => exact (hψ.subs (Rep.of_wf hx.1 hx.2)).val

theorem valueAt_subs (v : ℕ → Fin n → K) (w : ℕ × Fin n → SlotPoly K n) (x : Operand (SlotPoly K n) n) :
    valueAt g v (x.subs (bind₁ w)) =
      valueAt g (fun i k => eval (fun ik => v ik.1 ik.2) (w (i, k))) x := by
  cases x with
  | scalar p =>
    change algebraMap K (Spec.Cl g) _ = algebraMap K (Spec.Cl g) _
    exact congrArg _ (eval_bind _ _ _)
  | mv A =>
    obtain ⟨ψ, hψ⟩ := exists_changeTo (eval fun ik : ℕ × Fin n => v ik.1 ik.2) (liftG_eval (g := g) _)
    have h1 : ∀ B : Mv (SlotPoly K n) n, (B.subs (eval fun ik => v ik.1 ik.2)).val g =
        ψ (den (liftG g) B.obj) := by
      intro B
      rw [Mv.subs, ofExpr_val]
      rw [← den_linearExpand (g := liftG g), ← hψ.den]
    change ((A.subs (bind₁ w)).subs _).val g = _
    rw [h1, valueAt, Mv.subs, Mv.subs, ofExpr_val]
    change ψ ((Mv.ofExpr _).val (liftG g)) = _
    rw [ofExpr_val, ← hψ.den, List.map_map]
    congr 2
    funext t
    exact Prod.ext (eval_bind _ _ _) rfl

theorem Operand.Ok.subs {x : Operand (SlotPoly K n) n} (hx : x.Ok g) (w : ℕ × Fin n → SlotPoly K n) :
    (x.subs (bind₁ w)).Ok g := by
  cases x with
  | scalar p => trivial
  | mv A =>
    obtain ⟨ψ, hψ⟩ := exists_changeTo _ (liftG_bind (g := g) w)
    have := hψ.subs (Rep.of_wf hx.1 hx.2)
    exact ⟨this.wf, this.flag⟩

/-- Calls. -/
theorem MltM.Means.call (hs : g.IsSymm) (ho : isOrtho g = true) {rb : List (Mv K n)}
    (h : rBasisMv g = some rb) {slots : ℕ} {T : MltM K n} {F : (ℕ → Fin n → K) → Spec.Cl g}
    (hT : T.Means g F) (hr : T.nargs ≤ slots) (w : ℕ → Fin n → SlotPoly K n) :
    (T.call g rb slots ((List.range T.nargs).map fun i => Mv.vector (w i))).Ok g ∧
    ∀ v, valueAt g v (T.call g rb slots ((List.range T.nargs).map fun i => Mv.vector (w i))) =
      F fun i k => eval (fun ik => v ik.1 ik.2) (w i k) := by
  rw [MltM.call, List.length_map, List.length_range]
  split_ifs with h0
  · exact ⟨hT.ok, fun v => by rw [hT.value]; exact hT.slots _ _ fun i hi => by omega⟩
  · cases hf : T.f with
    | some f => exact hT.function f hf w
    | none =>
      refine ⟨hT.ok.subs _, fun v => ?_⟩
      simp only []
      rw [valueAt_subs, hT.value]
      refine hT.slots _ _ fun i hi => ?_
      funext k
      congr 1
      rw [if_pos ⟨hi, by omega⟩, recip_dot hs h k (w := w i) (by
        rw [List.getD_eq_getElem?_getD, List.getElem?_map, List.getElem?_range hi]
        exact Rep.vector _), recipFactor_ortho ho, C_1, one_mul]

theorem MltM.MvValued.call {T : MltM K n} (hT : T.MvValued) (rb : List (Mv K n)) (slots : ℕ)
    (args : List (Mv (SlotPoly K n) n)) : ∃ A, T.call g rb slots args = .mv A := by
  obtain ⟨⟨A, hA⟩, hf⟩ := hT
  rw [MltM.call]
  split_ifs
  · exact ⟨A, hA⟩
  · cases h : T.f with
    | some f => exact hf f h args
    | none => exact ⟨_, by rw [hA, Operand.subs]⟩

/-- Operators on values. -/
theorem valOp_spec (hs : g.IsSymm) {op : BinOp} (ho : op.Basic) {x y z : Operand (SlotPoly K n) n}
    (hx : x.Ok g) (hy : y.Ok g) (h : valOp g op x y = some z) :
    z.Ok g ∧ ∀ v, valueAt g v z = binS g op (valueAt g v x) (valueAt g v y) := by
  have key : z.Ok g ∧ z.gen g = binS (liftG g) op (x.gen g) (y.gen g) := by
    cases x with
    | scalar p =>
      cases y with
      | scalar q =>
        cases op <;> simp only [valOp, Option.some.injEq, reduceCtorEq] at h <;> subst h <;>
          refine ⟨trivial, ?_⟩
        · exact map_add _ _ _
        · exact map_sub _ _ _
        · exact map_mul _ _ _
      | mv B =>
        cases h
        have := scalarMv_rep ho (Rep.of_wf hy.1 hy.2) p
        exact ⟨⟨this.wf, this.flag⟩, this.val⟩
    | mv A =>
      cases y with
      | scalar q =>
        cases h
        have := mvScalar_rep ho (Rep.of_wf hx.1 hx.2) q
        exact ⟨⟨this.wf, this.flag⟩, this.val⟩
      | mv B =>
        cases h
        have := onMvs_rep (liftG_symm hs) ho (Rep.of_wf hx.1 hx.2) (Rep.of_wf hy.1 hy.2)
        exact ⟨⟨this.wf, this.flag⟩, this.val⟩
  refine ⟨key.1, fun v => ?_⟩
  obtain ⟨ψ, hψ⟩ := exists_changeTo (eval fun ik : ℕ × Fin n => v ik.1 ik.2) (liftG_eval (g := g) _)
  rw [valueAt_gen hψ key.1, valueAt_gen hψ hx, valueAt_gen hψ hy, key.2, hψ.bin]

theorem valOp_isSome {op : BinOp} {x y : Operand (SlotPoly K n) n}
    (h : op = .add ∨ op = .sub ∨ op = .mul ∨ (∃ A, x = .mv A) ∨ ∃ B, y = .mv B) :
    ∃ z, valOp g op x y = some z := by
  cases x with
  | mv A => cases y <;> exact ⟨_, rfl⟩
  | scalar p =>
    cases y with
    | mv B => exact ⟨_, rfl⟩
    | scalar q =>
      rcases h with rfl | rfl | rfl | ⟨A, h⟩ | ⟨B, h⟩
      · exact ⟨_, rfl⟩
      · exact ⟨_, rfl⟩
      · exact ⟨_, rfl⟩
      · cases h
      · cases h

theorem valueAt_expand {x : Operand (SlotPoly K n) n} (hx : x.Ok g) :
    x.expand.Ok g ∧ ∀ v, valueAt g v x.expand = valueAt g v x := by
  cases x with
  | scalar p => exact ⟨trivial, fun _ => rfl⟩
  | mv A =>
    have h1 : Rep (liftG g) A.expandMv (A.val (liftG g)) := by
      rw [Mv.expandMv, Mv.subs]
      refine (Rep.ofExpr ?_).congr ?_
      · simpa using valid_linearExpand ((Rep.of_wf hx.1 hx.2).valid)
      · simp [Mv.val]
    refine ⟨⟨h1.wf, h1.flag⟩, fun v => ?_⟩
    obtain ⟨ψ, hψ⟩ := exists_changeTo (eval fun ik : ℕ × Fin n => v ik.1 ik.2) (liftG_eval (g := g) _)
    change (A.expandMv.subs _).val g = (A.subs _).val g
    rw [(hψ.subs h1).val, (hψ.subs (Rep.of_wf hx.1 hx.2)).val]

/-- The constructor keeps a value that is not a vector. -/
theorem ofValue_means (hs : g.IsSymm) {x : Operand (SlotPoly K n) n} {r : ℕ}
    {F : (ℕ → Fin n → K) → Spec.Cl g} (hx : x.Ok g) (hF : ∀ v, valueAt g v x = F v)
    (hr : ∀ v v', (∀ i < r, v i = v' i) → F v = F v') (hv : ∃ v, ¬ Spec.Homogeneous g 1 (F v)) :
    (MltM.ofValue g r x).nargs = r ∧ (MltM.ofValue g r x).Means g F := by
  have h1 : MltM.ofValue g r x = ⟨r, x, none⟩ := by
    cases x with
    | scalar p => rfl
    | mv A =>
      rw [MltM.ofValue, if_neg]
      intro h2
      obtain ⟨v, hv⟩ := hv
      refine hv fun k hk => ?_
      obtain ⟨ψ, hψ⟩ := exists_changeTo (eval fun ik : ℕ × Fin n => v ik.1 ik.2) (liftG_eval (g := g) _)
      rw [← hF, valueAt_gen hψ hx, ← hψ.grade, Operand.gen, ((isVector_iff (liftG_symm hs) hx.1).mp h2).2 k hk,
        map_zero]
  rw [h1]
  exact ⟨rfl, hx, hr, hF, fun f hf => by cases hf⟩

theorem changeTo_symm {φ : K →+* SlotPoly K n} (h : ∀ c, φ c = C c) : g.map φ = liftG g := by
  ext i j; simp [liftG, h]

theorem liftOperand_spec {A : Mv K n} (hA : A.WF g) (hb : A.isBladeRep = true) :
    (liftOperand (.mv A)).Ok g ∧ ∀ v, valueAt g v (liftOperand (.mv A)) = A.val g := by
  obtain ⟨ψ, hψ⟩ := exists_changeTo (C : K →+* SlotPoly K n) (changeTo_symm (g := g) fun _ => rfl)
  have h1 : Rep (liftG g) (A.subs C) _ := hψ.subs (Rep.of_wf hA hb)
  refine ⟨⟨h1.wf, h1.flag⟩, fun v => ?_⟩
  obtain ⟨ψ', hψ'⟩ := exists_changeTo (eval fun ik : ℕ × Fin n => v ik.1 ik.2) (liftG_eval (g := g) _)
  have h2 := (hψ'.subs h1).val
  change ((A.subs C).subs _).val g = _
  rw [h2]
  have h3 : A.val g = den g (linearExpand A.obj) := (den_linearExpand g A.obj).symm
  rw [h3, ← hψ.den, ← hψ'.den, List.map_map]
  conv_rhs => rw [← List.map_id (linearExpand A.obj)]
  congr 2
  funext t
  simp

/-- The constructor makes a function of one argument from a vector. -/
theorem ofValue_vector (hs : g.IsSymm) {A : Mv (SlotPoly K n) n} (r : ℕ) (hA : (Operand.mv A).Ok g)
    (hv : A.isVector (liftG g) = true) : (MltM.ofValue g r (.mv A)).nargs = 1 ∧
    ∀ v, valueAt g v (MltM.ofValue g r (.mv A)).fvalue =
      Spec.hestenesDot g (valueAt g v (.mv A)) (Spec.vec g (v 0)) := by
  rw [MltM.ofValue, if_pos hv]
  refine ⟨rfl, fun v => ?_⟩
  have rA := Rep.of_wf hA.1 hA.2
  obtain ⟨u, hu⟩ := Spec.homogeneous_one ((isVector_iff (liftG_symm hs) hA.1).mp hv).2
  have rd := Rep.dot (liftG_symm hs) rA (Rep.vector (g := liftG g) fun k => (X (0, k) : SlotPoly K n))
  obtain ⟨ψ, hψ⟩ := exists_changeTo (eval fun ik : ℕ × Fin n => v ik.1 ik.2) (liftG_eval (g := g) _)
  have hb : ∀ x y, ψ (Spec.hestenesDot (liftG g) x y) = Spec.hestenesDot g (ψ x) (ψ y) :=
    fun x y => hψ.bin .dot x y
  rw [valueAt_gen hψ hA, Operand.gen]
  change algebraMap K _ (eval _ (A.dot (liftG g) (slotVec K n 0)).scalar) = _
  rw [← hψ.scalar, slotVec, rd.scalar, hψ.grade, hb, hψ.vec, hu, hψ.vec]
  simp only [eval_X]
  rw [Spec.hestenesDot_vec_ip, grade_zero_algebraMap]

end GA
