import Verif.Proofs.MltMv
import Verif.Spec.Witness
import Verif.Props.C63
import Verif.Props.C42

/-!
# C104: multilinear functions with multivector values
-/

set_option linter.unusedSectionVars false
set_option maxRecDepth 10000

namespace GA
open MvPolynomial
variable {n : ℕ} {K : Type*} [Field K] [DecidableEq K] [Invertible (2 : K)]
  {g : Matrix (Fin n) (Fin n) K}

theorem meaning_eq {op : BinOp} (ho : op = .add ∨ op = .sub ∨ op = .mul ∨ op = .wedge ∨ op = .dot)
    (x y : Spec.Cl g) : op.Basic ∧ op.meaning g x y = binS g op x y := by
  rcases ho with rfl | rfl | rfl | rfl | rfl <;> exact ⟨trivial, rfl⟩

/-- C104: in an orthogonal algebra, calling a multilinear function with vectors gives its value there,
without symbols of the arguments: the result is the same whatever `u` is substituted for them. -/
theorem C104_call_partial (hs : g.IsSymm) (ho : isOrtho g = true) {rb : List (Mv K n)}
    (h : rBasisMv g = some rb) {slots : ℕ} {T : MltM K n} {F : (ℕ → Fin n → K) → Spec.Cl g}
    (hT : T.Means g F) (hr : T.nargs ≤ slots) (v u : ℕ → Fin n → K) :
    valueAt g u (T.call g rb slots (vecArgs T.nargs v)) = F v := by
  rw [vecArgs, (hT.call hs ho h hr _).2]
  simp

/-- C104: `Mlt(f)` of a Python function stands for this function. -/
theorem C104_function {r : ℕ} {f : List (Mv (SlotPoly K n) n) → Operand (SlotPoly K n) n}
    {F : (ℕ → Fin n → K) → Spec.Cl g} (hF : ∀ v v', (∀ i < r, v i = v' i) → F v = F v')
    (hf : ∀ w : ℕ → Fin n → SlotPoly K n, (f ((List.range r).map fun i => Mv.vector (w i))).Ok g ∧
      ∀ v, valueAt g v (f ((List.range r).map fun i => Mv.vector (w i))) =
        F fun i k => eval (fun ik => v ik.1 ik.2) (w i k)) :
    (MltM.ofFunction r f).nargs = r ∧ (MltM.ofFunction r f).Means g F := by
  have h1 := hf fun i k => X (i, k)
  refine ⟨rfl, h1.1, hF, fun v => ?_, fun f' hf' w => by cases hf'; exact hf w⟩
  have h2 := h1.2 v
  simp only [eval_X] at h2
  exact h2

/-- C104, sums and differences: `F + G` and `F - G` give the sum and the difference of the values, if these
are not always vectors. -/
theorem C104_sum_partial (hs : g.IsSymm) {op : BinOp} (ho : op = .add ∨ op = .sub) {S T : MltM K n}
    {F G : (ℕ → Fin n → K) → Spec.Cl g} (hS : S.Means g F) (hT : T.Means g G) (hn : S.nargs = T.nargs)
    (hv : ∃ v, ¬ Spec.Homogeneous g 1 (op.meaning g (F v) (G v))) :
    ∃ T', S.addSub g op T = some T' ∧ T'.nargs = S.nargs ∧
      T'.Means g fun v => op.meaning g (F v) (G v) := by
  have ho' : op = .add ∨ op = .sub ∨ op = .mul ∨ op = .wedge ∨ op = .dot := by
    rcases ho with h | h <;> simp [h]
  obtain ⟨z, hz⟩ := valOp_isSome (g := g) (op := op) (x := S.fvalue) (y := T.fvalue)
    (by rcases ho with h | h <;> simp [h])
  obtain ⟨h1, h2⟩ := valOp_spec hs (meaning_eq (g := g) ho' 0 0).1 hS.ok hT.ok hz
  refine ⟨_, by rw [MltM.addSub, if_pos hn, hz, Option.map_some], ?_⟩
  refine ofValue_means hs h1 (fun v => ?_) (fun v v' hvv => ?_) hv
  · rw [h2, hS.value, hT.value, (meaning_eq ho' _ _).2]
  · rw [hS.slots v v' hvv, hT.slots v v' (hn ▸ hvv)]

/-- C104: functions of different numbers of arguments cannot be added. -/
theorem C104_sum_error {op : BinOp} {S T : MltM K n} (hn : S.nargs ≠ T.nargs) :
    S.addSub g op T = none := by
  rw [MltM.addSub, if_neg hn]

/-- C104, products, in orthogonal algebras: `(F op G)(v_1, ..., v_r, ..., v_{r+s})` is
`F(v_1, ..., v_r) op G(v_{r+1}, ..., v_{r+s})` for the products `*`, `^` and `|`, if this is not always a
vector. For `^` and `|` one of the values must be a multivector. -/
theorem C104_product_partial (hs : g.IsSymm) (hg : isOrtho g = true) {rb : List (Mv K n)}
    (h : rBasisMv g = some rb) {op : BinOp} (ho : op = .mul ∨ op = .wedge ∨ op = .dot) {S T : MltM K n}
    {F G : (ℕ → Fin n → K) → Spec.Cl g} (hS : S.Means g F) (hT : T.Means g G) (slots : ℕ)
    (hv : ∃ v, ¬ Spec.Homogeneous g 1 (op.meaning g (F v) (G fun i => v (S.nargs + i))))
    (hm : op = .mul ∨ S.MvValued ∨ T.MvValued) :
    ∃ T', S.product g rb op slots T = some T' ∧ T'.nargs = S.nargs + T.nargs ∧
      T'.Means g fun v => op.meaning g (F v) (G fun i => v (S.nargs + i)) := by
  have ho' : op = .add ∨ op = .sub ∨ op = .mul ∨ op = .wedge ∨ op = .dot := by
    rcases ho with h | h | h <;> simp [h]
  have hsl : S.nargs + T.nargs ≤ incrementSlots (S.nargs + T.nargs) slots := by
    rw [incrementSlots]; split_ifs <;> omega
  have e1 : ((List.range (incrementSlots (S.nargs + T.nargs) slots)).map (slotVec K n)).take S.nargs =
      (List.range S.nargs).map fun i => Mv.vector fun k => (X (i, k) : SlotPoly K n) :=
    take_slots (by omega)
  have e2 : (((List.range (incrementSlots (S.nargs + T.nargs) slots)).map (slotVec K n)).take
      (S.nargs + T.nargs)).drop S.nargs =
      (List.range T.nargs).map fun i => Mv.vector fun k => (X (S.nargs + i, k) : SlotPoly K n) :=
    drop_slots hsl
  obtain ⟨s1, s2⟩ := hS.call hs hg h (slots := incrementSlots (S.nargs + T.nargs) slots) (by omega)
    fun i k => X (i, k)
  obtain ⟨t1, t2⟩ := hT.call hs hg h (slots := incrementSlots (S.nargs + T.nargs) slots) (by omega)
    fun i k => X (S.nargs + i, k)
  obtain ⟨z, hz⟩ := valOp_isSome (g := g) (op := op) (x := S.call g rb _ _) (y := T.call g rb _ _) (by
    rcases hm with hm | hm | hm
    · exact Or.inr (Or.inr (Or.inl hm))
    · exact Or.inr (Or.inr (Or.inr (Or.inl (hm.call _ _ _))))
    · exact Or.inr (Or.inr (Or.inr (Or.inr (hm.call _ _ _)))))
  obtain ⟨h1, h2⟩ := valOp_spec hs (meaning_eq (g := g) ho' 0 0).1 s1 t1 hz
  have hval : ∀ v, valueAt g v z = op.meaning g (F v) (G fun i => v (S.nargs + i)) := by
    intro v
    rw [h2, s2, t2, (meaning_eq ho' _ _).2]
    simp only [eval_X]
  refine ⟨_, by
    rw [MltM.product]
    rw [e1, e2, hz, Option.map_some], ?_⟩
  have hz' : (if op = .mul then z.expand else z).Ok g ∧
      ∀ v, valueAt g v (if op = .mul then z.expand else z) = valueAt g v z := by
    split_ifs
    · exact valueAt_expand h1
    · exact ⟨h1, fun _ => rfl⟩
  refine ofValue_means hs hz'.1 (fun v => by rw [hz'.2, hval]) (fun v v' hvv => ?_) hv
  rw [hS.slots v v' fun i hi => hvv i (by omega), hT.slots (fun i => v (S.nargs + i))
    (fun i => v' (S.nargs + i)) fun i hi => hvv _ (by omega)]

/-- C104: `^` and `|` of two functions whose values are expressions raise. -/
theorem C104_product_error {rb : List (Mv K n)} {op : BinOp} (ho : op = .wedge ∨ op = .dot) {S T : MltM K n}
    (slots : ℕ) (hS : S.f = none) (hT : T.f = none) {p q : SlotPoly K n} (hp : S.fvalue = .scalar p)
    (hq : T.fvalue = .scalar q) : S.product g rb op slots T = none := by
  have key : ∀ (S : MltM K n), S.f = none → ∀ p, S.fvalue = .scalar p → ∀ k args,
      ∃ p', S.call g rb k args = .scalar p' := by
    intro S hS p hp k args
    rw [MltM.call]
    split_ifs
    · exact ⟨p, hp⟩
    · rw [hS]
      exact ⟨_, by rw [hp, Operand.subs]⟩
  rw [MltM.product]
  obtain ⟨p', e1⟩ := key S hS p hp _ _
  obtain ⟨q', e2⟩ := key T hT q hq _ _
  rw [e1, e2]
  rcases ho with rfl | rfl <;> rfl

/-- C104, operands that are not multilinear functions: `F * X`, `F ^ X` and `F | X` are all `X * F`, if
this is not always a vector. -/
theorem C104_operand_partial (hs : g.IsSymm) {T : MltM K n} {F : (ℕ → Fin n → K) → Spec.Cl g}
    (hT : T.Means g F) {A : Mv K n} (hA : A.WF g) (hb : A.isBladeRep = true)
    (hv : ∃ v, ¬ Spec.Homogeneous g 1 (A.val g * F v)) :
    ∃ T', T.operand g (.mv A) = some T' ∧ T'.nargs = T.nargs ∧ T'.Means g fun v => A.val g * F v := by
  obtain ⟨z, hz⟩ := valOp_isSome (g := g) (op := .mul) (x := liftOperand (.mv A)) (y := T.fvalue) (by simp)
  obtain ⟨l1, l2⟩ := liftOperand_spec hA hb
  obtain ⟨h1, h2⟩ := valOp_spec hs (op := .mul) trivial l1 hT.ok hz
  refine ⟨_, by rw [MltM.operand, hz, Option.map_some], ?_⟩
  refine ofValue_means hs h1 (fun v => ?_) (fun v v' hvv => ?_) hv
  · rw [h2, l2, hT.value]; rfl
  · rw [hT.slots v v' hvv]

/-- C104, multiples: `F * c` for a scalar `c`. -/
theorem C104_multiple_partial (hs : g.IsSymm) {T : MltM K n} {F : (ℕ → Fin n → K) → Spec.Cl g}
    (hT : T.Means g F) (c : K) (hv : ∃ v, ¬ Spec.Homogeneous g 1 (c • F v)) :
    ∃ T', T.operand g (.scalar c) = some T' ∧ T'.nargs = T.nargs ∧ T'.Means g fun v => c • F v := by
  obtain ⟨z, hz⟩ := valOp_isSome (g := g) (op := .mul) (x := liftOperand (.scalar c)) (y := T.fvalue)
    (by simp)
  obtain ⟨h1, h2⟩ := valOp_spec hs (op := .mul) trivial (x := liftOperand (.scalar c)) trivial hT.ok hz
  refine ⟨_, by rw [MltM.operand, hz, Option.map_some], ?_⟩
  refine ofValue_means hs h1 (fun v => ?_) (fun v v' hvv => ?_) hv
  · rw [h2, hT.value, liftOperand, valueAt, eval_C, Algebra.smul_def]; rfl
  · rw [hT.slots v v' hvv]

/-! ### Examples and counterexamples -/

/-- `Mlt(lambda a: a)`. -/
noncomputable def Ex.idF (K : Type*) [Field K] [DecidableEq K] (n : ℕ) : MltM K n :=
  MltM.ofFunction 1 fun args => .mv (args.getD 0 Mv.zero)

/-- `Mlt(lambda a, b: a ^ b)`. -/
noncomputable def Ex.wedgeF (g : Matrix (Fin n) (Fin n) K) : MltM K n :=
  MltM.ofFunction 2 fun args => .mv ((args.getD 0 Mv.zero).wedge (liftG g) (args.getD 1 Mv.zero))

theorem valueAt_vector (w : Fin n → SlotPoly K n) (v : ℕ → Fin n → K) :
    (Operand.mv (Mv.vector w)).Ok g ∧ valueAt g v (.mv (Mv.vector w)) =
      Spec.vec g fun k => eval (fun ik => v ik.1 ik.2) (w k) := by
  have h := Rep.vector (g := liftG g) w
  obtain ⟨ψ, hψ⟩ := exists_changeTo (eval fun ik : ℕ × Fin n => v ik.1 ik.2) (liftG_eval (g := g) _)
  have ho : (Operand.mv (Mv.vector w)).Ok g := ⟨h.wf, h.flag⟩
  refine ⟨ho, ?_⟩
  rw [valueAt_gen hψ ho, Operand.gen, h.val, hψ.vec]

theorem Ex.idF_means : (Ex.idF K n).Means g fun v => Spec.vec g (v 0) :=
  (C104_function (r := 1) (fun v v' h => by rw [h 0 (by omega)]) fun w =>
    ⟨(valueAt_vector (w 0) 0).1, fun v => (valueAt_vector (w 0) v).2⟩).2

theorem Ex.wedgeF_means (hs : g.IsSymm) :
    (Ex.wedgeF g).Means g fun v => Spec.wedge g (Spec.vec g (v 0)) (Spec.vec g (v 1)) := by
  refine (C104_function (r := 2) (fun v v' h => by rw [h 0 (by omega), h 1 (by omega)]) fun w => ?_).2
  have hz : valOp g .wedge (.mv (Mv.vector (w 0))) (.mv (Mv.vector (w 1))) =
    some (.mv ((Mv.vector (w 0)).wedge (liftG g) (Mv.vector (w 1)))) := rfl
  obtain ⟨h1, h2⟩ := valOp_spec hs (op := .wedge) trivial (valueAt_vector (g := g) (w 0) 0).1
    (valueAt_vector (w 1) 0).1 hz
  exact ⟨h1, fun v => by
    refine (h2 v).trans ?_
    rw [(valueAt_vector (w 0) v).2, (valueAt_vector (w 1) v).2]; rfl⟩

/-- C104 is false for vector values: for `F = Mlt(lambda a: a)` the sum `F + F` gives the scalar `2 a | a`,
not the vector `2 a`. -/
theorem C104_sum_counterexample (hs : g.IsSymm) (hn : 0 < n) : ∃ T',
    (Ex.idF K n).addSub g .add (Ex.idF K n) = some T' ∧ T'.nargs = 1 ∧
    ∀ v, valueAt g v T'.fvalue = algebraMap K _ (2 * Spec.ip g (v 0) (v 0)) := by
  have hi := Ex.idF_means (K := K) (n := n) (g := g)
  have hz : valOp g .add (Ex.idF K n).fvalue (Ex.idF K n).fvalue =
    some (.mv ((slotVec K n 0).add (liftG g) (slotVec K n 0))) := rfl
  obtain ⟨h1, h2⟩ := valOp_spec hs (op := .add) trivial hi.ok hi.ok hz
  have hr : Rep (liftG g) ((slotVec K n 0).add (liftG g) (slotVec K n 0)) _ :=
    Rep.add (liftG_symm hs) (Rep.vector _) (Rep.vector _)
  have hv : ((slotVec K n 0).add (liftG g) (slotVec K n 0)).isVector (liftG g) = true := by
    rw [isVector_iff (liftG_symm hs) hr.wf, hr.val, Spec.vec, ← map_add]
    refine ⟨fun h0 => ?_, fun r hr => Spec.homogeneous_vec _ r hr⟩
    obtain ⟨ψ, hψ⟩ := exists_changeTo (eval fun _ : ℕ × Fin n => (1 : K)) (liftG_eval (g := g) _)
    have h3 := congrArg ψ h0
    rw [← Spec.vec, hψ.vec, map_zero] at h3
    have h4 := congrFun (vec_inj g (h3.trans (map_zero _).symm)) ⟨0, hn⟩
    simp at h4
    have h6 : (2 : K) = 0 := by rw [← h4]; norm_num
    exact Invertible.ne_zero (2 : K) h6
  obtain ⟨h3, h4⟩ := ofValue_vector hs 1 h1 hv
  refine ⟨MltM.ofValue g 1 _, by rw [MltM.addSub, if_pos rfl, hz, Option.map_some]; rfl, h3, fun v => ?_⟩
  rw [h4, h2, hi.value, binS, Spec.vec, ← map_add]
  change Spec.hestenesDot g (Spec.vec g _) (Spec.vec g _) = _
  rw [Spec.hestenesDot_vec_ip, two_mul]
  simp [Spec.ip]

/-- C104 is false for operands that are not multilinear functions: for `F = Mlt(lambda a, b: a ^ b)` the
products `F * A`, `F ^ A` and `F | A` with a vector `A` have the same values, which are none of
`F(a, b) * A`, `F(a, b) ^ A` and `F(a, b) | A`. -/
theorem C104_operand_counterexample : ∃ (A : Mv ℚ 3) (T' : MltM ℚ 3) (v : ℕ → Fin 3 → ℚ),
    (Ex.wedgeF Ex.gO).operand Ex.gO (.mv A) = some T' ∧ ∀ op : BinOp, op = .mul ∨ op = .wedge ∨ op = .dot →
      valueAt Ex.gO v T'.fvalue ≠ op.meaning Ex.gO (valueAt Ex.gO v (Ex.wedgeF Ex.gO).fvalue) (A.val Ex.gO) := by
  have hs := Ex.gO_symm
  have hw := Ex.wedgeF_means hs
  let a : Fin 3 → Mv ℚ 3 := fun i => Mv.vector (Pi.single i 1)
  have ha : ∀ i, Rep Ex.gO (a i) _ := fun i => Rep.vector (Pi.single i 1)
  have hab : ∀ i j, Rep Ex.gO ((a i).wedge Ex.gO (a j)) _ := fun i j => Rep.wedge hs (ha i) (ha j)
  have hm : ∀ i j k, Rep Ex.gO ((a i).mul Ex.gO ((a j).wedge Ex.gO (a k))) _ :=
    fun i j k => Rep.mul hs (ha i) (hab j k)
  obtain ⟨T', h1, -, h2⟩ := C104_operand_partial hs hw (ha 0).wf (ha 0).flag
    ⟨fun i => Pi.single (if i = 0 then 1 else 2) 1, fun h => by
      have h3 := h 3 (by decide)
      rw [(ha 0).val] at h3
      have h4 := (Rep.eq_iff hs ((hm 0 1 2).getGrade 3) Rep.zero).mpr h3
      revert h4
      decide +kernel⟩
  refine ⟨a 0, T', fun i => Pi.single (if i = 0 then 0 else 1) 1, h1, ?_⟩
  intro op ho
  rw [h2.value, hw.value, (ha 0).val]
  rcases ho with rfl | rfl | rfl <;> intro h
  · have := (Rep.eq_iff hs (hm 0 0 1) (Rep.mul hs (hab 0 1) (ha 0))).mpr h
    revert this
    decide +kernel
  · have := (Rep.eq_iff hs (hm 0 0 1) (Rep.wedge hs (hab 0 1) (ha 0))).mpr h
    revert this
    decide +kernel
  · have := (Rep.eq_iff hs (hm 0 0 1) (Rep.dot hs (hab 0 1) (ha 0))).mpr h
    revert this
    decide +kernel

/-- The hypotheses of the theorems above: products of `lambda a, b: a ^ b` with itself. -/
example : ∃ rb, rBasisMv Ex.gO = some rb ∧ ∃ T',
    (Ex.wedgeF Ex.gO).product Ex.gO rb .mul 0 (Ex.wedgeF Ex.gO) = some T' ∧ T'.nargs = 4 ∧
    ∀ v u, valueAt Ex.gO u (T'.call Ex.gO rb 4 (vecArgs 4 v)) =
      Spec.wedge Ex.gO (Spec.vec Ex.gO (v 0)) (Spec.vec Ex.gO (v 1)) *
        Spec.wedge Ex.gO (Spec.vec Ex.gO (v 2)) (Spec.vec Ex.gO (v 3)) := by
  have hs := Ex.gO_symm
  have hw := Ex.wedgeF_means hs
  obtain ⟨rb, hrb⟩ := Option.isSome_iff_exists.mp
    (show (rBasisMv Ex.gO).isSome = true by decide +kernel)
  obtain ⟨T', h1, h2, h3⟩ := C104_product_partial hs (by decide +kernel) hrb (op := .mul) (by simp) hw hw 0
    ⟨fun i => Pi.single (if i = 0 ∨ i = 2 then 0 else 1) 1, fun h => by
      let a : Fin 3 → Mv ℚ 3 := fun i => Mv.vector (Pi.single i 1)
      have ha : ∀ i, Rep Ex.gO (a i) _ := fun i => Rep.vector (Pi.single i 1)
      have hab : ∀ i j, Rep Ex.gO ((a i).wedge Ex.gO (a j)) _ := fun i j => Rep.wedge hs (ha i) (ha j)
      have h4 := (Rep.eq_iff hs ((Rep.mul hs (hab 0 1) (hab 0 1)).getGrade 0) Rep.zero).mpr
        (h 0 (by decide))
      revert h4
      decide +kernel⟩ (Or.inl rfl)
  refine ⟨rb, hrb, T', h1, h2, fun v u => ?_⟩
  have h2' : T'.nargs = 4 := h2
  have h4 := C104_call_partial hs (by decide +kernel) hrb h3 (slots := 4) (by omega) v u
  rw [h2'] at h4
  exact h4

end GA
