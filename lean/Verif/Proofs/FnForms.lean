import Verif.Spec.FnForms
import Verif.Proofs.GaEval
import Verif.Proofs.Subs
import Verif.Proofs.Blade
import Verif.Proofs.Cache
import Verif.Props.C36
import Verif.Props.C24
import Verif.Props.C25

/-! # Lemmas about formulas with functions -/

set_option linter.unusedSectionVars false

namespace GA
variable {n : ℕ} {K : Type*} [Field K] [DecidableEq K] [Invertible (2 : K)]

/-! ### Kinds -/

theorem Fits.bind {r : Except FnError (Operand K n)} {k : Except FnError ValueKind} (h : Fits r k)
    {f : Operand K n → Except FnError (Operand K n)} {φ : ValueKind → Except FnError ValueKind}
    (hf : ∀ v, Fits (f v) (φ v.kind)) : Fits (r.bind f) (k.bind φ) := by
  rcases h with rfl | ⟨v, rfl, rfl⟩ | ⟨e, rfl, rfl⟩
  · exact Or.inl rfl
  · exact hf v
  · exact Or.inr (Or.inr ⟨e, rfl, rfl⟩)

theorem Fits.call2 {r s : Except FnError (Operand K n)} {k l : Except FnError ValueKind} (h : Fits r k)
    (h' : Fits s l) {f : Operand K n → Operand K n → Except FnError (Operand K n)}
    {φ : ValueKind → ValueKind → Except FnError ValueKind} (hf : ∀ v w, Fits (f v w) (φ v.kind w.kind)) :
    Fits (call2 f r s) (GA.call2 φ k l) := by
  rcases h with rfl | ⟨v, rfl, rfl⟩ | ⟨e, rfl, rfl⟩
  · exact Or.inl rfl
  · rcases h' with rfl | ⟨w, rfl, rfl⟩ | ⟨e, rfl, rfl⟩
    · exact Or.inl rfl
    · exact hf v w
    · exact Or.inr (Or.inr ⟨e, rfl, rfl⟩)
  · exact Or.inr (Or.inr ⟨e, rfl, rfl⟩)

theorem Fits.ok (v : Operand K n) : Fits (.ok v) (.ok v.kind) := Or.inr (Or.inl ⟨v, rfl, rfl⟩)
theorem Fits.error (e : FnError) : Fits (.error e : Except FnError (Operand K n)) (.error e) :=
  Or.inr (Or.inr ⟨e, rfl, rfl⟩)

theorem Fits.mv (o : Option (Mv K n)) : Fits ((ofMethod o).map .mv) (.ok .multivector) := by
  cases o
  · exact Or.inl rfl
  · exact Fits.ok (.mv _)

theorem Fits.scalar (o : Option K) : Fits ((ofMethod o).map (.scalar (n := n))) (.ok .number) := by
  cases o
  · exact Or.inl rfl
  · exact Fits.ok (.scalar _)

variable (E : FnEnv K n)

theorem fits_op (o : BinOp) (v w : Operand K n) : Fits (opCall E o v w)
    (if v.kind = .number ∧ w.kind = .number then
      if o = .add ∨ o = .sub ∨ o = .mul then .ok .number else .error .foreign
      else .ok .multivector) := by
  cases v with
  | scalar a => cases w with
    | scalar b => cases o <;> first | exact Fits.ok (.scalar _) | exact Fits.error _
    | mv B => exact Fits.mv (o.apply E.g (.scalar a) (.mv B))
  | mv A => cases w with
    | scalar b => exact Fits.mv (o.apply E.g (.mv A) (.scalar b))
    | mv B => exact Fits.mv (o.apply E.g (.mv A) (.mv B))

theorem fits_div (v w : Operand K n) : Fits (divCall E v w)
    (.ok (if v.kind = .number ∧ w.kind = .number then .number else .multivector)) := by
  cases v with
  | scalar a => cases w with
    | scalar b =>
      by_cases hb : b = 0
      · rw [divCall, if_pos hb]; exact Or.inl rfl
      · rw [divCall, if_neg hb]; exact Fits.ok (.scalar _)
    | mv B => exact Fits.mv (divide E.g (.scalar a) (.mv B))
  | mv A => cases w with
    | scalar b => exact Fits.mv (divide E.g (.mv A) (.scalar b))
    | mv B => exact Fits.mv (divide E.g (.mv A) (.mv B))

theorem fits_com (v w : Operand K n) : Fits (comCall E v w)
    (.ok (if v.kind = .number ∧ w.kind = .number then .number else .multivector)) := by
  cases v <;> cases w <;> first | exact Fits.ok (.scalar _) | exact Fits.ok (.mv _)

theorem fits_run (p : Formula K) (a : ℕ → Operand K n) :
    Fits (p.run E a) (p.kind fun k => (a k).kind) := by
  induction p with
  | var k => exact Fits.ok _
  | num c => exact Fits.ok (.scalar _)
  | op o p q hp hq => exact hp.call2 hq fun v w => fits_op E o v w
  | div p q hp hq => exact hp.call2 hq fun v w => fits_div E v w
  | mvFn f p hp =>
    refine hp.bind fun v => ?_
    cases v with
    | scalar c => exact Fits.error _
    | mv A => exact Fits.mv (f.method E A)
  | numFn f p hp =>
    have key : ∀ A, Fits (NumFn.call E f (.mv A)) (.ok .number) := fun A => Fits.scalar (f.method E A)
    have key' : ∀ c, Fits (NumFn.call E f (.scalar c)) (.error f.refusal) := fun c => Fits.error _
    cases f <;> refine hp.bind fun v => ?_
    all_goals
      cases v with
      | scalar c => exact key' c
      | mv A => exact key A
  | exp hint p hp =>
    have := hp.bind (f := expCall E hint) (φ := .ok) fun v => by
      cases v with
      | scalar c => exact Fits.ok (.scalar _)
      | mv A => exact Fits.mv (A.exp E.g E.elementary (hint = "+") (hint = "-"))
    rw [Formula.kind, Formula.run]
    convert this using 1
    cases (p.kind fun k => (a k).kind) <;> rfl
  | grade p r hp =>
    refine hp.bind fun v => ?_
    cases v with
    | scalar c => exact Fits.error _
    | mv A => exact Fits.ok (.mv _)
  | sp s p q hp hq =>
    refine hp.call2 hq fun v w => ?_
    cases v with
    | scalar c => exact Fits.error _
    | mv A => cases w with
      | scalar c => exact Fits.error _
      | mv B => rcases s with _ | _ | _
                · exact Fits.error _
                · exact Fits.ok (.scalar _)
                · exact Fits.ok (.scalar _)
  | proj b p hb hp =>
    refine hb.call2 hp fun v w => ?_
    cases w with
    | scalar c => exact Fits.error _
    | mv A => cases v with
      | scalar c => exact Fits.error _
      | mv B => exact Fits.mv (A.projectInBlade E.g B)
  | refl b p hb hp =>
    refine hb.call2 hp fun v w => ?_
    cases w with
    | scalar c => exact Fits.error _
    | mv A => cases v with
      | scalar c => exact Fits.error _
      | mv B => exact Fits.mv (A.reflectInBlade E.g B)
  | rot hint t p ht hp =>
    refine ht.call2 hp fun v w => ?_
    cases w with
    | scalar c => exact Fits.error _
    | mv A => cases v with
      | scalar c => exact Fits.error _
      | mv T => exact Fits.mv (A.rotate E.g E.elementary (hint = "+") (hint = "-") T)
  | cross p q hp hq =>
    refine hp.call2 hq fun v w => ?_
    cases v with
    | scalar => exact Fits.error _
    | mv A =>
      by_cases h : A.isVector E.g = true
      · cases w with
        | scalar => rw [crossCall]; simp only [Operand.isMv, if_pos h]; exact Fits.error _
        | mv B => rw [crossCall]; simp only [Operand.isMv, if_pos h]; exact Fits.mv (cross E.g E.i A B)
      · rw [crossCall]; simp only [Operand.isMv]; rw [if_neg h]; exact Or.inl rfl
  | com p q hp hq => exact hp.call2 hq fun v w => fits_com E v w
  | mvCom p q hp hq => exact hp.call2 hq fun v w => Fits.error _

/-! ### Values -/

variable {E} {g : Matrix (Fin n) (Fin n) K} {x y : Spec.Cl g}

theorem inverse_of_mul {x y : Spec.Cl g} (h : x * y = 1) (h' : y * x = 1) : y = Ring.inverse x := by
  have hu : IsUnit x := isUnit_iff_exists.mpr ⟨y, h, h'⟩
  calc y = y * (x * Ring.inverse x) := by rw [Ring.mul_inverse_cancel _ hu, mul_one]
    _ = _ := by rw [← mul_assoc, h', one_mul]

theorem inverse_algebraMap {c : K} (hc : c ≠ 0) :
    Ring.inverse (algebraMap K (Spec.Cl g) c) = algebraMap K _ c⁻¹ :=
  (inverse_of_mul (by rw [← map_mul, mul_inv_cancel₀ hc, map_one])
    (by rw [← map_mul, inv_mul_cancel₀ hc, map_one])).symm

theorem onMvs_value (hs : g.IsSymm) (o : BinOp) {A B : Mv K n} (hA : Rep g A x) (hB : Rep g B y) :
    Rep g (o.onMvs g A B) (o.value x y) := by
  cases o
  · exact hA.add hs hB
  · exact hA.sub hs hB
  · exact hA.mul hs hB
  · exact hA.wedge hs hB
  · exact hA.dot hs hB
  · exact hA.left hs hB
  · exact hA.right hs hB
  · exact ((hA.mul hs hB).add hs (hB.mul hs hA)).smul _
  · exact ((hA.mul hs hB).sub hs (hB.mul hs hA)).smul _

theorem mvScalar_value (hs : g.IsSymm) (o : BinOp) {A : Mv K n} (hA : Rep g A x) (c : K) :
    Rep g (o.mvScalar g A c) (o.value x (algebraMap K _ c)) := by
  cases o
  case antiComm =>
    refine (((hA.smul c).add hs (hA.smul c)).smul _).congr ?_
    rw [BinOp.value, ← Algebra.commutes, Algebra.smul_def c]
  case comm =>
    refine (((hA.smul c).sub hs (hA.smul c)).smul _).congr ?_
    rw [BinOp.value, ← Algebra.commutes, Algebra.smul_def c]
  case add => exact mvScalar_rep (op := .add) trivial hA c
  case sub => exact mvScalar_rep (op := .sub) trivial hA c
  case mul => exact mvScalar_rep (op := .mul) trivial hA c
  case wedge => exact mvScalar_rep (op := .wedge) trivial hA c
  case dot => exact mvScalar_rep (op := .dot) trivial hA c
  case left => exact mvScalar_rep (op := .left) trivial hA c
  case right => exact mvScalar_rep (op := .right) trivial hA c

theorem scalarMv_value (hs : g.IsSymm) (o : BinOp) {A : Mv K n} (hA : Rep g A x) (c : K) :
    Rep g (o.scalarMv g c A) (o.value (algebraMap K _ c) x) := by
  cases o
  case antiComm =>
    refine (((hA.smul c).add hs (hA.smul c)).smul _).congr ?_
    rw [BinOp.value, ← Algebra.commutes, Algebra.smul_def c]
  case comm =>
    refine (((hA.smul c).sub hs (hA.smul c)).smul _).congr ?_
    rw [BinOp.value, ← Algebra.commutes, Algebra.smul_def c]
  case add => exact scalarMv_rep (op := .add) trivial hA c
  case sub => exact scalarMv_rep (op := .sub) trivial hA c
  case mul => exact scalarMv_rep (op := .mul) trivial hA c
  case wedge => exact scalarMv_rep (op := .wedge) trivial hA c
  case dot => exact scalarMv_rep (op := .dot) trivial hA c
  case left => exact scalarMv_rep (op := .left) trivial hA c
  case right => exact scalarMv_rep (op := .right) trivial hA c

theorem op_value (hs : E.g.IsSymm) (o : BinOp) {v w r : Operand K n} {x y : Spec.Cl E.g}
    (hv : v.IsValue E.g x) (hw : w.IsValue E.g y) (h : opCall E o v w = .ok r) :
    r.IsValue E.g (o.value x y) := by
  cases v with
  | scalar a =>
    obtain rfl : algebraMap K _ a = x := hv
    cases w with
    | scalar b =>
      obtain rfl : algebraMap K _ b = y := hw
      cases o <;> simp only [opCall, Except.ok.injEq, reduceCtorEq] at h
      all_goals subst h
      · exact map_add ..
      · exact map_sub ..
      · exact map_mul ..
    | mv B => cases h; exact scalarMv_value hs o hw a
  | mv A =>
    cases w with
    | scalar b =>
      obtain rfl : algebraMap K _ b = y := hw
      cases h; exact mvScalar_value hs o hv b
    | mv B => cases h; exact onMvs_value hs o hv hw

theorem div_value (hs : E.g.IsSymm) {v w r : Operand K n} {x y : Spec.Cl E.g}
    (hv : v.IsValue E.g x) (hw : w.IsValue E.g y) (h : divCall E v w = .ok r) :
    r.IsValue E.g (x * Ring.inverse y) := by
  have key : ∀ {B I : Mv K n} {y : Spec.Cl E.g}, Rep E.g B y → B.inv E.g = some I →
      Rep E.g I (Ring.inverse y) := by
    intro B I y hB hI
    obtain ⟨h1, h2, h3⟩ := Rep.inv hs hB hI
    exact h1.congr (inverse_of_mul h2 h3)
  have gen : ∀ {v w : Operand K n}, (¬∃ a b, v = .scalar a ∧ w = .scalar b) → divCall E v w = .ok r →
      ∃ C, divide E.g v w = some C ∧ r = .mv C := by
    intro v w hn h
    have h' : (ofMethod (divide E.g v w)).map Operand.mv = .ok r := by
      rw [divCall] at h
      · exact h
      · intro a b h1 h2; exact hn ⟨a, b, h1, h2⟩
    cases hd : divide E.g v w with
    | none => rw [hd] at h'; cases h'
    | some C => rw [hd] at h'; cases h'; exact ⟨C, rfl, rfl⟩
  cases v with
  | scalar a =>
    obtain rfl : algebraMap K _ a = x := hv
    cases w with
    | scalar b =>
      obtain rfl : algebraMap K _ b = y := hw
      rw [divCall] at h
      split_ifs at h with hb
      cases h
      change algebraMap K _ (a / b) = _
      rw [inverse_algebraMap hb, ← map_mul, div_eq_mul_inv]
    | mv B =>
      obtain ⟨C, hC, rfl⟩ := gen (by rintro ⟨_, _, _, h⟩; cases h) h
      simp only [divide, Option.map_eq_some_iff] at hC
      obtain ⟨I, hI, rfl⟩ := hC
      exact (Rep.scalarMv a).mul hs (key hw hI)
  | mv A =>
    obtain ⟨C, hC, rfl⟩ := gen (by rintro ⟨_, _, h, _⟩; cases h) h
    cases w with
    | scalar b =>
      obtain rfl : algebraMap K _ b = y := hw
      by_cases hb : b = 0
      · simp only [divide, Mv.divScalar, if_pos hb] at hC; cases hC
      · simp only [divide, Mv.divScalar, if_neg hb] at hC; cases hC
        refine (Rep.smul _ hv).congr ?_
        rw [inverse_algebraMap hb, ← Algebra.commutes, Algebra.smul_def]
    | mv B =>
      simp only [divide, Option.map_eq_some_iff] at hC
      obtain ⟨I, hI, rfl⟩ := hC
      exact Rep.mul hs hv (key hw hI)

theorem method_dual_rep (hs : g.IsSymm) {A i j : Mv K n} {I J : Spec.Cl g} (hA : Rep g A x)
    (hi : Rep g i I) (hj : Rep g j J) {mode : String} (hm : mode ∈ dualModeLst) :
    Rep g (A.dual g i j mode) (dualS I J mode x) := by
  have key : ∀ (m : String) (s : K) (left inv : Bool),
      (if m.toList.contains '-' then (-1 : K) else 1) = s →
      (m.toList.tails.any fun t => "Iinv".toList.isPrefixOf t) = inv →
      decide (m.toList.head? = some '+' ∨ m.toList.head? = some '-') = left →
      A.dual g i j m = if left then ((if inv then j else i).smul s).mul g A
        else (A.smul s).mul g (if inv then j else i) := by
    rintro m s left inv rfl rfl rfl
    rw [Mv.dual]
    simp only [decide_eq_true_eq]
  have hl : ∀ {B : Mv K n} {b : Spec.Cl g} (s : K), Rep g B b → Rep g ((B.smul s).mul g A) (s • (b * x)) :=
    fun s hB => ((hB.smul s).mul hs hA).congr (smul_mul_assoc ..)
  have hr : ∀ {B : Mv K n} {b : Spec.Cl g} (s : K), Rep g B b → Rep g ((A.smul s).mul g B) (s • (x * b)) :=
    fun s hB => ((hA.smul s).mul hs hB).congr (smul_mul_assoc ..)
  rw [dualModeLst] at hm
  simp only [List.mem_cons, List.not_mem_nil, or_false] at hm
  rcases hm with rfl | rfl | rfl | rfl | rfl | rfl | rfl | rfl
  · rw [key "+I" 1 true false (if_neg (by decide)) (by decide) (by decide)]
    exact (hl 1 hi).congr (one_smul _ _)
  · rw [key "I+" 1 false false (if_neg (by decide)) (by decide) (by decide)]
    exact (hr 1 hi).congr (one_smul _ _)
  · rw [key "-I" (-1) true false (if_pos (by decide)) (by decide) (by decide)]
    exact (hl (-1) hi).congr (neg_one_smul _ _)
  · rw [key "I-" (-1) false false (if_pos (by decide)) (by decide) (by decide)]
    exact (hr (-1) hi).congr (neg_one_smul _ _)
  · rw [key "+Iinv" 1 true true (if_neg (by decide)) (by decide) (by decide)]
    exact (hl 1 hj).congr (one_smul _ _)
  · rw [key "Iinv+" 1 false true (if_neg (by decide)) (by decide) (by decide)]
    exact (hr 1 hj).congr (one_smul _ _)
  · rw [key "-Iinv" (-1) true true (if_pos (by decide)) (by decide) (by decide)]
    exact (hl (-1) hj).congr (neg_one_smul _ _)
  · rw [key "Iinv-" (-1) false true (if_pos (by decide)) (by decide) (by decide)]
    exact (hr (-1) hj).congr (neg_one_smul _ _)

theorem hitzerInverse_rep (hs : g.IsSymm) {A B : Mv K n} (hA : Rep g A x)
    (h : A.hitzerInverse g = .ok B) : Rep g B (Ring.inverse x) := by
  by_cases hn : n ≤ 5
  · obtain ⟨N, hN, hNr⟩ := hitzerNumerator_rep hs hn hA
    obtain ⟨h1, h2, h3⟩ := (C24_hitzer hs hn hA.wf hA.flag).1 B h
    rw [hA.val] at h2 h3
    rw [Mv.hitzerInverse, hN] at h
    dsimp only at h
    split_ifs at h
    cases h
    exact ⟨h1, (hNr.smul _).flag, inverse_of_mul h2 h3⟩
  · rw [C24_not_implemented (by omega)] at h; cases h

theorem shirokovInverse_rep [CharZero K] (hs : g.IsSymm) {A B : Mv K n} (hA : Rep g A x)
    (h : A.shirokovInverse g = .ok B) : Rep g B (Ring.inverse x) := by
  rcases Nat.eq_zero_or_pos n with rfl | hn
  · by_cases h0 : A.scalar = 0
    · have : List.range' 1 (2 ^ ((0 + 1) / 2) - 1) = [] := rfl
      rw [Mv.shirokovInverse] at h
      dsimp only at h
      rw [this, List.foldl_nil, if_pos h0] at h
      cases h
    · rw [C25_dimension_zero_counterexample g A h0] at h; cases h
  · obtain ⟨h1, h2, h3⟩ := (C25_shirokov_partial hs hn hA.wf hA.flag).1 B h
    rw [hA.val] at h2 h3
    have key : B.isBladeRep = true := by
      rw [Mv.shirokovInverse] at h
      dsimp only at h
      obtain ⟨-, h4, h5⟩ := shirokov_loop hs hA (2 ^ ((n + 1) / 2)) (2 ^ ((n + 1) / 2) - 1)
      split_ifs at h
      rcases hm : 2 ^ ((n + 1) / 2) - 1 with _ | m
      · rw [h4 hm] at h; cases h
      · obtain ⟨a, ha, hr⟩ := h5 m hm
        rw [ha] at h
        cases h
        exact (hr.smul _).flag
    exact ⟨h1, key, inverse_of_mul h2 h3⟩

theorem inv_rep (hs : g.IsSymm) {A B : Mv K n} (hA : Rep g A x) (h : A.inv g = some B) :
    Rep g B (Ring.inverse x) := by
  obtain ⟨h1, h2, h3⟩ := Rep.inv hs hA h
  exact h1.congr (inverse_of_mul h2 h3)

theorem qform_val (hs : g.IsSymm) {A : Mv K n} (hA : Rep g A x) :
    algebraMap K _ (A.qform g) = Spec.grade g 0 (CliffordAlgebra.reverse x * x) :=
  ((hA.rev hs).mul hs hA).scalar

theorem bladeInv_rep (hs : g.IsSymm) {B : Mv K n} (hB : Rep g B x) (hq : B.qform g ≠ 0) :
    Rep g ((B.rev g).smul (B.qform g)⁻¹) (bladeInv x) := by
  refine ((hB.rev hs).smul _).congr ?_
  rw [bladeInv, ← qform_val hs hB, inverse_algebraMap hq, ← Algebra.commutes, Algebra.smul_def]

theorem projectInBlade_rep (hs : g.IsSymm) {A B P : Mv K n} (hA : Rep g A x) (hB : Rep g B y)
    (h : A.projectInBlade g B = some P) : Rep g P (Spec.leftContraction g x y * bladeInv y) := by
  rw [Mv.projectInBlade] at h
  dsimp only at h
  split_ifs at h with h1 h2
  cases h
  exact (hA.left hs hB).mul hs (bladeInv_rep hs hB h2)

open Classical in
theorem reflectInBlade_rep (hs : g.IsSymm) {A B P : Mv K n} (hA : Rep g A x) (hB : Rep g B y)
    (h : A.reflectInBlade g B = some P) : Rep g P (y * (if CliffordAlgebra.involute y = y
      then CliffordAlgebra.involute x else x) * bladeInv y) := by
  rw [Mv.reflectInBlade] at h
  dsimp only at h
  by_cases h1 : B.isBlade g = true
  swap
  · rw [if_neg h1] at h; cases h
  by_cases hq : B.qform g = 0
  · rw [if_pos h1, if_pos hq] at h; cases h
  rw [if_pos h1, if_neg hq, gradeDecomposition_eq hA.valid.expand] at h
  cases hr : B.iGrade with
  | none => rw [hr] at h; cases h
  | some r =>
    rw [hr] at h
    cases h
    have hE : Valid (expand A.obj) := hA.valid.expand
    have hl : AllSyms IsBl (linearExpand (expand A.obj)) := (valid_iff.mp hE).linearExpand isBl_one
    have hy : y ≠ 0 := by
      rintro rfl
      apply hq
      apply algebraMap_inj g
      rw [qform_val hs hB, mul_zero, map_zero, map_zero]
    have hinv := Spec.homogeneous_involute ((iGrade_eq_some hB r).mp hr).1
    have ht : (if CliffordAlgebra.involute y = y then CliffordAlgebra.involute x else x) = twist g r x := by
      rw [twist]
      by_cases ho : r % 2 = 1
      · rw [if_pos ho, if_neg]
        · rfl
        · rw [hinv, Odd.neg_one_pow (Nat.odd_iff.mpr ho), neg_one_smul]
          intro h2
          have h3 : (2 : K) • y = 0 := by
            rw [two_smul]; nth_rw 1 [← h2]; exact neg_add_cancel y
          have := congrArg (fun z => (⅟2 : K) • z) h3
          simp only [smul_smul, invOf_mul_self, one_smul, smul_zero] at this
          exact hy this
      · rw [if_neg ho, if_pos]
        rw [hinv, Even.neg_one_pow (Nat.even_iff.mpr (by omega)), one_smul]
    rw [ht]
    refine (reflectLoop_spec hs hB (bladeInv_rep hs hB hq) r _ ?_).congr ?_
    · intro p hp
      have h1 : AllSyms IsBl ((groupTerms (linearExpand (expand A.obj)) []).flatMap fun p => p.2) :=
        allSyms_groupTerms (fun _ _ h => h) hl
      exact Valid.of fun t ht => h1 t (List.mem_flatMap.mpr ⟨p, hp, ht⟩)
    · congr 2
      rw [lin_groupTerms (symDen g) (fun k => (-1 : K) ^ (k * (r + 1))) _
        (fun r E => lin_smulE _ _ _)]
      rw [List.flatMap_nil, lin_nil, zero_add, ← hA.val, Mv.val, ← den_expand, ← den_linearExpand,
        den_eq_lin, ← AlgHom.toLinearMap_apply, map_lin]
      exact lin_congr _ _ _ fun t ht => (twist_symDen _ (hl t ht)).symm

theorem ofMethod_ok {α : Type*} {o : Option α} {f : α → Operand K n} {r : Operand K n}
    (h : (ofMethod o).map f = .ok r) : ∃ v, o = some v ∧ r = f v := by
  cases o with
  | none => cases h
  | some v => cases h; exact ⟨v, rfl, rfl⟩

theorem isMv_ok {e : FnError} {v : Operand K n} {A : Mv K n} (h : v.isMv e = .ok A) : v = .mv A := by
  cases v with
  | scalar c => cases h
  | mv B => cases h; rfl

theorem fnBind_ok {α β : Type*} {r : Except FnError α} {f : α → Except FnError β} {w : β}
    (h : r.bind f = .ok w) : ∃ v, r = .ok v ∧ f v = .ok w := by
  cases r with
  | error e => cases h
  | ok v => exact ⟨v, rfl, h⟩

theorem fnCall2_ok {α : Type*} {r s : Except FnError α} {f : α → α → Except FnError α} {w : α}
    (h : GA.call2 f r s = .ok w) : ∃ u v, r = .ok u ∧ s = .ok v ∧ f u v = .ok w := by
  cases r with
  | error e => cases h
  | ok u => cases s with
    | error e => cases h
    | ok v => exact ⟨u, v, rfl, rfl, h⟩

theorem value_run [CharZero K] (hs : E.g.IsSymm) {I J : Spec.Cl E.g} (hi : Rep E.g E.i I)
    (hj : Rep E.g E.iInv J) (hm : E.mode ∈ dualModeLst) {a : ℕ → Operand K n} {x : ℕ → Spec.Cl E.g}
    (ha : ∀ k, (a k).IsValue E.g (x k)) (p : Formula K) (hp : p.algebraic = true) {v : Operand K n}
    (h : p.run E a = .ok v) : v.IsValue E.g (p.value I J E.mode x) := by
  induction p generalizing v with
  | var k => cases h; exact ha k
  | num c => cases h; exact rfl
  | op o p q h1 h2 =>
    rw [Formula.algebraic, Bool.and_eq_true] at hp
    obtain ⟨u, w, hu, hw, h⟩ := fnCall2_ok h
    exact op_value hs o (h1 hp.1 hu) (h2 hp.2 hw) h
  | div p q h1 h2 =>
    rw [Formula.algebraic, Bool.and_eq_true] at hp
    obtain ⟨u, w, hu, hw, h⟩ := fnCall2_ok h
    exact div_value hs (h1 hp.1 hu) (h2 hp.2 hw) h
  | mvFn f p h1 =>
    obtain ⟨u, hu, h⟩ := fnBind_ok h
    have hr := h1 hp hu
    cases u with
    | scalar c => cases h
    | mv A =>
      obtain ⟨B, hB, rfl⟩ := ofMethod_ok h
      cases f
      · cases hB; exact method_dual_rep hs hr hi hj hm
      · cases hB; exact (hi.pow hs 2).mul hs (method_dual_rep hs hr hi hj hm)
      · cases hB; exact Rep.even hr
      · cases hB; exact Rep.odd hr
      · cases hB; exact Rep.gInvol hs hr
      · exact inv_rep hs hr hB
      · cases hC : A.shirokovInverse E.g with
        | error e => rw [MvFn.method, hC] at hB; cases hB
        | ok C => rw [MvFn.method, hC] at hB; cases hB; exact shirokovInverse_rep hs hr hC
      · cases hC : A.hitzerInverse E.g with
        | error e => rw [MvFn.method, hC] at hB; cases hB
        | ok C => rw [MvFn.method, hC] at hB; cases hB; exact hitzerInverse_rep hs hr hC
      · cases hB; exact Rep.rev hs hr
      · cases hB; exact Rep.ccon hs hr
  | numFn f p h1 =>
    obtain ⟨u, hu, h⟩ := fnBind_ok h
    cases f <;> first
      | (cases hp)
      | skip
    · have hr := h1 hp hu
      cases u with
      | scalar c => cases h
      | mv A => cases h; exact Rep.scalar hr
    · have hr := h1 hp hu
      cases u with
      | scalar c => cases h
      | mv A => cases h; exact qform_val hs hr
  | exp hint p h1 => cases hp
  | grade p r h1 =>
    obtain ⟨u, hu, h⟩ := fnBind_ok h
    have hr := h1 hp hu
    cases u with
    | scalar c => cases h
    | mv A => cases h; exact Rep.getGrade hr r
  | sp s p q h1 h2 =>
    rw [Formula.algebraic, Bool.and_eq_true] at hp
    obtain ⟨u, w, hu, hw, h⟩ := fnCall2_ok h
    have hr := h1 hp.1 hu
    have hr' := h2 hp.2 hw
    cases u with
    | scalar c => cases h
    | mv A => cases w with
      | scalar c => cases h
      | mv B => rcases s with _ | _ | _
                · cases h
                · cases h; exact (Rep.mul hs hr hr').scalar
                · cases h
                  rw [Formula.value, if_pos rfl]
                  exact (Rep.mul hs (Rep.rev hs hr) hr').scalar
  | proj b p h1 h2 =>
    rw [Formula.algebraic, Bool.and_eq_true] at hp
    obtain ⟨u, w, hu, hw, h⟩ := fnCall2_ok h
    have hr := h1 hp.1 hu
    have hr' := h2 hp.2 hw
    cases w with
    | scalar c => cases h
    | mv A => cases u with
      | scalar c => cases h
      | mv B =>
        obtain ⟨P, hP, rfl⟩ := ofMethod_ok h
        exact projectInBlade_rep hs hr' hr hP
  | refl b p h1 h2 =>
    rw [Formula.algebraic, Bool.and_eq_true] at hp
    obtain ⟨u, w, hu, hw, h⟩ := fnCall2_ok h
    have hr := h1 hp.1 hu
    have hr' := h2 hp.2 hw
    cases w with
    | scalar c => cases h
    | mv A => cases u with
      | scalar c => cases h
      | mv B =>
        obtain ⟨P, hP, rfl⟩ := ofMethod_ok h
        exact reflectInBlade_rep hs hr' hr hP
  | rot hint t p => cases hp
  | cross p q h1 h2 =>
    rw [Formula.algebraic, Bool.and_eq_true] at hp
    obtain ⟨u, w, hu, hw, h⟩ := fnCall2_ok h
    have hr := h1 hp.1 hu
    have hr' := h2 hp.2 hw
    cases u with
    | scalar c => cases h
    | mv A =>
      rw [crossCall] at h
      simp only [Operand.isMv] at h
      split_ifs at h with hv
      cases w with
      | scalar c => cases h
      | mv B =>
        obtain ⟨P, hP, rfl⟩ := ofMethod_ok h
        rw [cross] at hP
        split_ifs at hP
        cases hP
        exact hi.neg.mul hs (Rep.wedge hs hr hr')
  | com p q h1 h2 =>
    rw [Formula.algebraic, Bool.and_eq_true] at hp
    obtain ⟨u, w, hu, hw, h⟩ := fnCall2_ok h
    have hr := h1 hp.1 hu
    have hr' := h2 hp.2 hw
    rw [comCall] at h
    cases e1 : opCall E .mul u w with
    | error e => rw [e1] at h; cases h
    | ok s => cases e2 : opCall E .mul w u with
      | error e => rw [e1, e2] at h; cases h
      | ok t =>
        rw [e1, e2] at h
        dsimp only at h
        cases e3 : opCall E .sub s t with
        | error e => rw [e3] at h; cases h
        | ok d =>
          rw [e3] at h
          have h3 := op_value hs .sub (op_value hs .mul hr hr' e1) (op_value hs .mul hr' hr e2) e3
          have h4 := op_value (v := .scalar ⅟2) hs .mul rfl h3 h
          have e : (BinOp.mul.value (algebraMap K (Spec.Cl E.g) ⅟2) (BinOp.sub.value
              (BinOp.mul.value (p.value I J E.mode x) (q.value I J E.mode x))
              (BinOp.mul.value (q.value I J E.mode x) (p.value I J E.mode x)))) =
              (Formula.com p q).value I J E.mode x := (Algebra.smul_def _ _).symm
          rwa [e] at h4
  | mvCom p q h1 h2 =>
    obtain ⟨u, w, hu, hw, h⟩ := fnCall2_ok h
    cases h

end GA
