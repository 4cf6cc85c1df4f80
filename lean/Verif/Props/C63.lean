import Verif.Proofs.Mlt
import Verif.Spec.Witness
import Mathlib.LinearAlgebra.Matrix.Notation

/-!
# C63: multilinear functions; C64: their derivatives and contractions
-/

set_option linter.unusedSectionVars false
set_option maxRecDepth 10000

namespace GA
open MvPolynomial
variable {n : ℕ} {K : Type*} [Field K] [DecidableEq K] [Invertible (2 : K)]
  {g : Matrix (Fin n) (Fin n) K}

/-! ### Calls -/

/-- In an orthogonal algebra, calling a multilinear function gives its value at the arguments. -/
theorem C63_call_partial (hs : g.IsSymm) (ho : isOrtho g = true) {rb : List (Mv K n)}
    (h : rBasisMv g = some rb) {slots : ℕ} {T : Mlt K n} {F : (ℕ → Fin n → K) → K} (hT : T.Means F)
    (hr : T.nargs ≤ slots) (v : ℕ → Fin n → K) :
    T.call g rb slots (vecArgs T.nargs v) = C (F v) := by
  rw [vecArgs, hT.call_poly hs ho h hr, bind_C, hT.value]

/-- In every algebra, a call uses the arguments multiplied by the square of the product of the basis
vectors. -/
theorem C63_call_factor (hs : g.IsSymm) (ho : isOrtho g = false) {rb : List (Mv K n)}
    (h : rBasisMv g = some rb) {slots : ℕ} {T : Mlt K n} {F : (ℕ → Fin n → K) → K} (hT : T.Means F)
    (hf : T.f = none) (hr : T.nargs ≤ slots) (v : ℕ → Fin n → K) :
    T.call g rb slots (vecArgs T.nargs v) = C (F fun i k => eSq g * v i k) := by
  rw [vecArgs, Mlt.call_none hs h hf hr hT.slots, recipFactor, if_neg (by simp [ho])]
  simp only [← C_mul]
  rw [bind_C fun i k => eSq g * v i k, hT.value fun i k => eSq g * v i k]

/-! ### Constructors -/

/-- `Mlt(A)` with a vector `A` stands for `x ↦ A | x`. -/
theorem C63_vector (hs : g.IsSymm) {A : Mv K n} (hA : A.WF g) (hb : A.isBladeRep = true)
    (h1 : Spec.Homogeneous g 1 (A.val g)) :
    (Mlt.ofVector g A).Means fun v => (A.dot g (Mv.vector (v 0))).scalar := by
  obtain ⟨u, hu⟩ := Spec.homogeneous_one h1
  have hA' : Rep g A (Spec.vec g u) := ⟨hA, hb, hu⟩
  have hd := dot_scalar (liftG_symm hs) hA'.lift_vec
    (Rep.vector (g := liftG g) fun k => (X (0, k) : SlotPoly K n))
  have hv : (Mlt.ofVector g A).fvalue = ∑ i, ∑ j, liftG g i j * C (u i) * X (0, j) := hd
  refine ⟨?_, fun v => ?_, fun f hf => by simp [Mlt.ofVector] at hf⟩
  · rw [mem_supported_slots, hv]
    refine sum_mem fun i _ => sum_mem fun j _ => mul_mem ?_ (X_mem_supported.mpr (by
      simp [Mlt.ofVector]))
    rw [liftG, Matrix.of_apply, ← C_mul]
    exact Subalgebra.algebraMap_mem _ _
  · rw [hv, dot_scalar hs hA' (Rep.vector _)]
    simp [liftG]

/-- `Mlt(L)` with a linear transformation `L` stands for `(x, y) ↦ x | L(y)`. -/
theorem C63_lt (hs : g.IsSymm) {L : Lt K n} (hL : L.WF) :
    (Mlt.ofLt g L).Means fun v =>
      ((Mv.vector (v 0)).dot g (L.call g (Mv.vector (v 1)))).scalar := by
  have h1 : Rep (liftG g) ((liftLt L).call (liftG g) (slotVec K n 1)) _ :=
    (Rep.vector (g := liftG g) fun k => (X (1, k) : SlotPoly K n)).call (liftG_symm hs) (liftLt_wf hL)
  rw [Spec.outer_vec] at h1
  have hd := dot_scalar (liftG_symm hs)
    (Rep.vector (g := liftG g) fun k => (X (0, k) : SlotPoly K n)) h1
  have hv : (Mlt.ofLt g L).fvalue =
      ∑ i, ∑ j, C (g i j) * X (0, i) * ∑ k, C (L.mat j k) * X (1, k) := by
    rw [Mlt.ofLt]
    dsimp only
    rw [show slotVec K n 0 = Mv.vector fun k => (X (0, k) : SlotPoly K n) from rfl, hd]
    simp only [Matrix.mulVec, dotProduct, liftLt_mat hL, liftG, Matrix.of_apply]
  have hC : ∀ c : K, (C c : SlotPoly K n) ∈ supported K {ik : ℕ × Fin n | ik.1 < 2} :=
    fun c => Subalgebra.algebraMap_mem _ _
  refine ⟨?_, fun v => ?_, fun f hf => by simp [Mlt.ofLt] at hf⟩
  · rw [mem_supported_slots, hv]
    exact sum_mem fun i _ => sum_mem fun j _ => mul_mem
      (mul_mem (hC _) (X_mem_supported.mpr (by simp [Mlt.ofLt])))
      (sum_mem fun k _ => mul_mem (hC _) (X_mem_supported.mpr (by simp [Mlt.ofLt])))
  · have h2 := (Rep.vector (g := g) (v 1)).call hs hL
    rw [Spec.outer_vec] at h2
    rw [hv, dot_scalar hs (Rep.vector _) h2]
    simp [Matrix.mulVec, dotProduct]

/-- `Mlt('T', r)` stands for the sum of the components times the components of the arguments, if no
multilinear function with more arguments was made before. -/
theorem C63_generic_partial (comp : List (Fin n) → K) {r slots : ℕ} (h : slots ≤ r) :
    (Mlt.ofString comp r slots).Means fun v =>
      ∑ I : Fin r → Fin n, comp (List.ofFn I) * ∏ i : Fin r, v i (I i) := by
  have hv := ofString_fvalue comp h
  refine ⟨?_, fun v => ?_, fun f hf => by simp [Mlt.ofString] at hf⟩
  · rw [mem_supported_slots, hv]
    exact sum_mem fun I _ => mul_mem (Subalgebra.algebraMap_mem _ _)
      (prod_mem fun i _ => X_mem_supported.mpr (by simp [Mlt.ofString]))
  · rw [hv]
    simp [map_sum, map_prod]

/-- `Mlt(f)` with a Python function stands for the function: its value is computed once with generic
vectors, and calls pass the arguments on. -/
theorem C63_function {r : ℕ} {f : List (Mv (SlotPoly K n) n) → SlotPoly K n} {p : SlotPoly K n}
    (hp : ∀ ik ∈ p.vars, ik.1 < r)
    (hf : ∀ w : ℕ → Fin n → SlotPoly K n,
      f ((List.range r).map fun i => Mv.vector (w i)) = bind₁ (fun ik => w ik.1 ik.2) p) :
    (Mlt.ofFunction r f).Means fun v => eval (fun ik => v ik.1 ik.2) p := by
  have h : (Mlt.ofFunction r f).fvalue = p := by
    refine (hf fun i k => X (i, k)).trans ?_
    simp
  refine ⟨by rw [h]; exact hp, fun v => by rw [h], fun f' hf' w => ?_⟩
  cases hf'
  rw [h]
  exact hf w

/-! ### Operations -/

/-- Sums are sums of values, and functions with different numbers of arguments cannot be added. -/
theorem C63_add {S T : Mlt K n} {F G : (ℕ → Fin n → K) → K} (hS : S.Means F) (hT : T.Means G) :
    (S.nargs ≠ T.nargs → S.add T = none) ∧
    (S.nargs = T.nargs → ∃ U, S.add T = some U ∧ U.nargs = S.nargs ∧ U.Means fun v => F v + G v) := by
  refine ⟨fun h => by rw [Mlt.add, if_neg h], fun h => ⟨Mlt.ofExpr S.nargs (S.fvalue + T.fvalue),
    by rw [Mlt.add, if_pos h], rfl, ?_⟩⟩
  refine ⟨?_, fun v => ?_, fun f hf => by simp [Mlt.ofExpr] at hf⟩
  · exact mem_supported_slots.mpr (add_mem (mem_supported_slots.mp hS.slots)
      (h ▸ mem_supported_slots.mp hT.slots))
  · simp only [Mlt.ofExpr, map_add, hS.value, hT.value]

/-- Differences are differences of values. -/
theorem C63_sub {S T : Mlt K n} {F G : (ℕ → Fin n → K) → K} (hS : S.Means F) (hT : T.Means G) :
    (S.nargs ≠ T.nargs → S.sub T = none) ∧
    (S.nargs = T.nargs → ∃ U, S.sub T = some U ∧ U.nargs = S.nargs ∧ U.Means fun v => F v - G v) := by
  refine ⟨fun h => by rw [Mlt.sub, if_neg h], fun h => ⟨Mlt.ofExpr S.nargs (S.fvalue - T.fvalue),
    by rw [Mlt.sub, if_pos h], rfl, ?_⟩⟩
  refine ⟨?_, fun v => ?_, fun f hf => by simp [Mlt.ofExpr] at hf⟩
  · exact mem_supported_slots.mpr (sub_mem (mem_supported_slots.mp hS.slots)
      (h ▸ mem_supported_slots.mp hT.slots))
  · simp only [Mlt.ofExpr, map_sub, hS.value, hT.value]

/-- A scalar multiple. -/
theorem C63_smul (c : K) {T : Mlt K n} {F : (ℕ → Fin n → K) → K} (hT : T.Means F) :
    (T.smul c).nargs = T.nargs ∧ (T.smul c).Means fun v => c * F v := by
  refine ⟨rfl, ?_, fun v => ?_, fun f hf => by simp [Mlt.smul, Mlt.ofExpr] at hf⟩
  · exact mem_supported_slots.mpr (mul_mem (Subalgebra.algebraMap_mem _ _)
      (mem_supported_slots.mp hT.slots))
  · simp only [Mlt.smul, Mlt.ofExpr, map_mul, eval_C, hT.value]

/-- The product of functions of `r` and `s` arguments takes `r + s` arguments, the first `r` for the
first factor. -/
theorem C63_mul_partial (hs : g.IsSymm) (ho : isOrtho g = true) {rb : List (Mv K n)}
    (h : rBasisMv g = some rb) (slots : ℕ) {S T : Mlt K n} {F G : (ℕ → Fin n → K) → K}
    (hS : S.Means F) (hT : T.Means G) :
    (Mlt.mul g rb slots S T).nargs = S.nargs + T.nargs ∧
    (Mlt.mul g rb slots S T).Means fun v => F v * G fun i => v (S.nargs + i) := by
  have hsl : S.nargs + T.nargs ≤ incrementSlots (S.nargs + T.nargs) slots := by
    rw [incrementSlots]; split_ifs <;> omega
  have h1 : (Mlt.mul g rb slots S T).fvalue = bind₁ (fun ik => X ik) S.fvalue *
      bind₁ (fun ik => X (S.nargs + ik.1, ik.2)) T.fvalue := by
    simp only [Mlt.mul, Mlt.ofExpr]
    rw [take_slots (by omega), drop_slots hsl]
    have e1 := hS.call_poly hs ho h (slots := incrementSlots (S.nargs + T.nargs) slots) (by omega)
      fun i k => X (i, k)
    have e2 := hT.call_poly hs ho h (slots := incrementSlots (S.nargs + T.nargs) slots) (by omega)
      fun i k => X (S.nargs + i, k)
    exact congrArg₂ (· * ·) e1 e2
  refine ⟨rfl, ?_, fun v => ?_, fun f hf => by simp [Mlt.mul, Mlt.ofExpr] at hf⟩
  · rw [h1]
    refine mem_supported_slots.mpr (mul_mem (supported_bind fun ik hik => ?_)
      (supported_bind fun ik hik => ?_))
    · have := hS.slots ik hik
      exact X_mem_supported.mpr (by simp only [Set.mem_ofPred_eq, Mlt.mul, Mlt.ofExpr]; omega)
    · have := hT.slots ik hik
      exact X_mem_supported.mpr (by simp only [Set.mem_ofPred_eq, Mlt.mul, Mlt.ofExpr]; omega)
  · rw [h1, map_mul, eval_bind, eval_bind]
    simp only [eval_X]
    rw [← hS.value, ← hT.value]

/-! ### Linearity -/

/-- The multilinear functions with scalar values that a program makes in an orthogonal algebra with
the constructors and operations above. -/
inductive Mlt.Built (g : Matrix (Fin n) (Fin n) K) (rb : List (Mv K n)) : Mlt K n → Prop
  | vector {A : Mv K n} (hA : A.WF g) (hb : A.isBladeRep = true)
      (h1 : Spec.Homogeneous g 1 (A.val g)) : Built g rb (Mlt.ofVector g A)
  | lt {L : Lt K n} (hL : L.WF) : Built g rb (Mlt.ofLt g L)
  | generic (comp : List (Fin n) → K) {r slots : ℕ} (h : slots ≤ r) :
      Built g rb (Mlt.ofString comp r slots)
  | add {S T U : Mlt K n} (hS : Built g rb S) (hT : Built g rb T) (h : S.add T = some U) : Built g rb U
  | sub {S T U : Mlt K n} (hS : Built g rb S) (hT : Built g rb T) (h : S.sub T = some U) : Built g rb U
  | smul (c : K) {T : Mlt K n} (hT : Built g rb T) : Built g rb (T.smul c)
  | mul (slots : ℕ) {S T : Mlt K n} (hS : Built g rb S) (hT : Built g rb T) :
      Built g rb (Mlt.mul g rb slots S T)

theorem vec_dot_scalar (hs : g.IsSymm) {A : Mv K n} {u : Fin n → K} (hA : Rep g A (Spec.vec g u))
    (c : K) (x y : Fin n → K) :
    (A.dot g (Mv.vector (c • x + y))).scalar =
      c * (A.dot g (Mv.vector x)).scalar + (A.dot g (Mv.vector y)).scalar := by
  simp only [dot_scalar hs hA (Rep.vector _), Finset.mul_sum, ← Finset.sum_add_distrib]
  refine Finset.sum_congr rfl fun i _ => Finset.sum_congr rfl fun j _ => ?_
  simp only [Pi.add_apply, Pi.smul_apply, smul_eq_mul]
  ring

/-- C63: every multilinear function made in an orthogonal algebra is linear in each of its arguments,
and its calls give its values. -/
theorem C63_multilinear_partial (hs : g.IsSymm) (ho : isOrtho g = true) {rb : List (Mv K n)}
    (h : rBasisMv g = some rb) {T : Mlt K n} (hT : Mlt.Built g rb T) :
    ∃ F : (ℕ → Fin n → K) → K,
      (∀ slots, T.nargs ≤ slots → ∀ v, T.call g rb slots (vecArgs T.nargs v) = C (F v)) ∧
      ∀ i < T.nargs, ∀ (v : ℕ → Fin n → K) (c : K) (x y : Fin n → K),
        F (Function.update v i (c • x + y)) =
          c * F (Function.update v i x) + F (Function.update v i y) := by
  suffices ∃ F : (ℕ → Fin n → K) → K, T.Means F ∧
      ∀ i < T.nargs, ∀ (v : ℕ → Fin n → K) (c : K) (x y : Fin n → K),
        F (Function.update v i (c • x + y)) =
          c * F (Function.update v i x) + F (Function.update v i y) by
    obtain ⟨F, h1, h2⟩ := this
    exact ⟨F, fun slots hr v => C63_call_partial hs ho h h1 hr v, h2⟩
  induction hT with
  | vector hA hb h1 =>
    refine ⟨_, C63_vector hs hA hb h1, fun i hi v c x y => ?_⟩
    obtain rfl : i = 0 := by simpa [Mlt.ofVector] using hi
    obtain ⟨u, hu⟩ := Spec.homogeneous_one h1
    simp only [Function.update_self]
    exact vec_dot_scalar hs ⟨hA, hb, hu⟩ c x y
  | @lt L hL =>
    refine ⟨_, C63_lt hs hL, fun i hi v c x y => ?_⟩
    have hr : ∀ w : Fin n → K, Rep g (L.call g (Mv.vector w)) (Spec.vec g (L.mat.mulVec w)) := by
      intro w
      have := (Rep.vector (g := g) w).call hs hL
      rwa [Spec.outer_vec] at this
    have hi' : i < 2 := hi
    interval_cases i
    · simp only [Function.update_self, ne_eq, one_ne_zero, not_false_eq_true, Function.update_of_ne]
      simp only [dot_scalar hs (Rep.vector _) (hr _), Finset.mul_sum, ← Finset.sum_add_distrib]
      refine Finset.sum_congr rfl fun i _ => Finset.sum_congr rfl fun j _ => ?_
      simp only [Pi.add_apply, Pi.smul_apply, smul_eq_mul]
      ring
    · simp only [Function.update_self, ne_eq, zero_ne_one, not_false_eq_true, Function.update_of_ne]
      simp only [dot_scalar hs (Rep.vector _) (hr _), Finset.mul_sum, ← Finset.sum_add_distrib,
        Matrix.mulVec_add, Matrix.mulVec_smul]
      refine Finset.sum_congr rfl fun i _ => Finset.sum_congr rfl fun j _ => ?_
      simp only [Pi.add_apply, Pi.smul_apply, smul_eq_mul]
      ring
  | @generic comp r slots hsl =>
    refine ⟨_, C63_generic_partial comp hsl, fun i hi v c x y => ?_⟩
    have hi' : i < r := hi
    simp only [Finset.mul_sum, ← Finset.sum_add_distrib]
    refine Finset.sum_congr rfl fun I _ => ?_
    have key : ∀ z : Fin n → K, ∏ j : Fin r, Function.update v i z j (I j) =
        z (I ⟨i, hi'⟩) * ∏ j ∈ Finset.univ.erase (⟨i, hi'⟩ : Fin r), v j (I j) := by
      intro z
      rw [← Finset.mul_prod_erase _ _ (Finset.mem_univ (⟨i, hi'⟩ : Fin r))]
      simp only [Function.update_self]
      congr 1
      refine Finset.prod_congr rfl fun j hj => ?_
      rw [Function.update_of_ne]
      intro e
      exact (Finset.mem_erase.mp hj).1 (Fin.ext e)
    rw [key, key, key]
    simp only [Pi.add_apply, Pi.smul_apply, smul_eq_mul]
    ring
  | @add S T U _ _ hU ihS ihT =>
    obtain ⟨F, hF, hF'⟩ := ihS
    obtain ⟨G, hG, hG'⟩ := ihT
    by_cases e : S.nargs = T.nargs
    · obtain ⟨U', h1, h2, h3⟩ := (C63_add hF hG).2 e
      obtain rfl : U' = U := Option.some.inj (h1.symm.trans hU)
      refine ⟨_, h3, fun i hi v c x y => ?_⟩
      rw [hF' i (by omega), hG' i (by omega)]
      ring
    · rw [(C63_add hF hG).1 e] at hU
      cases hU
  | @sub S T U _ _ hU ihS ihT =>
    obtain ⟨F, hF, hF'⟩ := ihS
    obtain ⟨G, hG, hG'⟩ := ihT
    by_cases e : S.nargs = T.nargs
    · obtain ⟨U', h1, h2, h3⟩ := (C63_sub hF hG).2 e
      obtain rfl : U' = U := Option.some.inj (h1.symm.trans hU)
      refine ⟨_, h3, fun i hi v c x y => ?_⟩
      rw [hF' i (by omega), hG' i (by omega)]
      ring
    · rw [(C63_sub hF hG).1 e] at hU
      cases hU
  | @smul a T _ ihT =>
    obtain ⟨F, hF, hF'⟩ := ihT
    refine ⟨_, (C63_smul a hF).2, fun i hi v c x y => ?_⟩
    rw [hF' i hi]
    ring
  | @mul slots S T _ _ ihS ihT =>
    obtain ⟨F, hF, hF'⟩ := ihS
    obtain ⟨G, hG, hG'⟩ := ihT
    obtain ⟨hn, hm⟩ := C63_mul_partial hs ho h slots hF hG
    refine ⟨_, hm, fun i hi v c x y => ?_⟩
    rw [hn] at hi
    by_cases hi' : i < S.nargs
    · have e : ∀ z, (fun j => Function.update v i z (S.nargs + j)) = fun j => v (S.nargs + j) := by
        intro z
        funext j
        rw [Function.update_of_ne (by omega)]
      rw [hF' i hi', e, e, e]
      ring
    · have e : ∀ z, (fun j => Function.update v i z (S.nargs + j)) =
          Function.update (fun j => v (S.nargs + j)) (i - S.nargs) z := by
        intro z
        funext j
        by_cases hj : j = i - S.nargs
        · subst hj
          rw [Function.update_self, show S.nargs + (i - S.nargs) = i by omega, Function.update_self]
        · rw [Function.update_of_ne hj, Function.update_of_ne (by omega)]
      have e' : ∀ z, F (Function.update v i z) = F v := fun z => hF.congr fun j hj =>
        Function.update_of_ne (by omega) _ _
      rw [e, e, e, e', e', e', hG' _ (by omega)]
      ring

/-! ### Counterexamples -/

/-- C63 fails in algebras that are not orthogonal: `Mlt(e_0)(e_0)` is not `e_0 | e_0`, and neither are
the calls of generic functions right. -/
theorem C63_nonorthogonal_counterexample : ∃ rb, rBasisMv Ex.gN = some rb ∧ ∀ slots, 1 ≤ slots →
    ∃ u : Fin 3 → ℚ,
      (Mlt.ofVector Ex.gN (Mv.vector u)).call Ex.gN rb slots (vecArgs 1 fun _ => u) ≠
        C ((Mv.vector u).dot Ex.gN (Mv.vector u)).scalar := by
  have hs : Ex.gN.IsSymm := by decide +kernel
  obtain ⟨rb, hrb⟩ := Option.isSome_iff_exists.mp
    (show (rBasisMv Ex.gN).isSome = true by decide +kernel)
  refine ⟨rb, hrb, fun slots hsl => ⟨Pi.single 0 1, ?_⟩⟩
  have h1 := C63_vector hs (vector_spec (g := Ex.gN) (Pi.single 0 1)).1 rfl
    (by rw [(vector_spec _).2.2]; exact Spec.homogeneous_vec _)
  have h2 := C63_call_factor hs (by decide +kernel) hrb h1 rfl hsl
    fun _ => Pi.single 0 1
  change Mlt.call Ex.gN rb slots _ (vecArgs 1 _) = _ at h2
  rw [h2]
  intro h
  have h3 := C_injective _ _ h
  revert h3
  decide +kernel

/-- C63 fails for `Mlt('T', 1)` made after a function of two arguments: in two dimensions its value
contains the components of a second argument and not the second component of the first. -/
theorem C63_generic_counterexample (comp : List (Fin 2) → K) :
    (Mlt.ofString comp 1 2).fvalue =
      C (comp [0]) * X (0, 0) * X (1, 0) + C (comp [1]) * X (0, 0) * X (1, 1) := by
  simp [Mlt.ofString, incrementSlots, itProduct, List.finRange_succ, List.range_succ]

/-- C63, the call for this function: symbols of the second argument stay in the result. -/
theorem C63_generic_call_counterexample {g : Matrix (Fin 2) (Fin 2) K} (hs : g.IsSymm)
    (ho : isOrtho g = true) {rb : List (Mv K 2)} (h : rBasisMv g = some rb)
    (comp : List (Fin 2) → K) (v : ℕ → Fin 2 → K) :
    (Mlt.ofString comp 1 2).call g rb 2 (vecArgs 1 v) =
      C (comp [0] * v 0 0) * X (1, 0) + C (comp [1] * v 0 0) * X (1, 1) := by
  have hr : ∀ k : Fin 2, ((liftMv (rb.getD k Mv.zero)).dot (liftG g)
      (Mv.vector fun k => (C (v 0 k) : SlotPoly K 2))).scalar = C (v 0 k) := by
    intro k
    rw [recip_dot hs h k (Rep.vector _), recipFactor_ortho ho, C_1, one_mul]
  rw [Mlt.call, if_neg (by simp [vecArgs])]
  have hf : (Mlt.ofString comp 1 2).f = none := rfl
  rw [hf, C63_generic_counterexample]
  have hr0 := hr 0
  simp [vecArgs] at hr0 ⊢
  rw [hr0]

/-! ### Non-vacuity -/

/-- An orthogonal algebra, a product of a vector and a transformation, and its value. -/
example : ∃ rb, rBasisMv Ex.gO = some rb ∧ ∀ L : Lt ℚ 3, L.WF → ∀ u : Fin 3 → ℚ, ∃ F,
    (Mlt.mul Ex.gO rb 0 (Mlt.ofVector Ex.gO (Mv.vector u)) (Mlt.ofLt Ex.gO L)).Means F ∧
    ∀ x y z : Fin 3 → ℚ, F (fun i => if i = 0 then x else if i = 1 then y else z) =
      ((Mv.vector u).dot Ex.gO (Mv.vector x)).scalar *
        ((Mv.vector y).dot Ex.gO (L.call Ex.gO (Mv.vector z))).scalar := by
  have hs : Ex.gO.IsSymm := by decide +kernel
  obtain ⟨rb, hrb⟩ := Option.isSome_iff_exists.mp
    (show (rBasisMv Ex.gO).isSome = true by decide +kernel)
  refine ⟨rb, hrb, fun L hL u => ⟨_, (C63_mul_partial hs (by decide +kernel) hrb 0
    (C63_vector hs (vector_spec (g := Ex.gO) u).1 (vector_spec (g := Ex.gO) u).2.1
      (by rw [(vector_spec _).2.2]; exact Spec.homogeneous_vec _))
    (C63_lt hs hL)).2, fun x y z => ?_⟩⟩
  simp [Mlt.ofVector]

/-- The functions of `C63_function`: `f(a, b) = a | b`. -/
example (hs : g.IsSymm) : (Mlt.ofFunction 2 fun args =>
    ((args.getD 0 Mv.zero).dot (liftG g) (args.getD 1 Mv.zero)).scalar).Means fun v =>
      ∑ i, ∑ j, g i j * v 0 i * v 1 j := by
  have h := C63_function (K := K) (n := n) (r := 2) (f := fun args =>
    ((args.getD 0 Mv.zero).dot (liftG g) (args.getD 1 Mv.zero)).scalar)
    (p := ∑ i, ∑ j, C (g i j) * X (0, i) * X (1, j)) (by
      rw [mem_supported_slots]
      exact sum_mem fun i _ => sum_mem fun j _ => mul_mem (mul_mem (Subalgebra.algebraMap_mem _ _)
        (X_mem_supported.mpr (by simp))) (X_mem_supported.mpr (by simp)))
    (fun w => by
      change ((Mv.vector (w 0)).dot (liftG g) (Mv.vector (w 1))).scalar = _
      rw [dot_scalar (liftG_symm hs) (Rep.vector _) (Rep.vector _)]
      simp [map_sum, liftG])
  simpa [map_sum] using h

end GA
