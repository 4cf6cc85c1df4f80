import Verif.Proofs.Cderiv
import Verif.Props.C63
import Verif.Props.C38

/-!
# C64: the covariant derivative of a tensor field

The claim: `T.cderiv()` takes one argument `w` more than `T`, and for all vector fields
`D_w (T(V_1, ..., V_r)) = T.cderiv()(V_1, ..., V_r, w) + T(D_w V_1, ..., V_r) + ... + T(V_1, ..., D_w V_r)`.
-/

set_option linter.unusedSectionVars false
set_option maxRecDepth 10000

namespace GA
open MvPolynomial
variable {n : ℕ} {K : Type*} [Field K] [DecidableEq K] [Invertible (2 : K)]

theorem tensorValue_covariantDeriv {r : ℕ} (comp : (Fin r → Fin n) → K) (v : ℕ → Fin n → K) (i : Fin r)
    (D : Fin n → K → K) (Γ : Fin n → Matrix (Fin n) (Fin n) K) (c : Fin n → K) :
    tensorValue comp (Function.update v i (covariantDeriv D Γ c (v i))) =
      ∑ k, c k * (tensorValue comp (Function.update v i.1 fun j => D k (v i j)) +
        tensorValue comp (Function.update v i.1 fun j => ∑ l, Γ k j l * v i l)) := by
  simp only [← tensorValue_add]
  rw [← tensorValue_sum]
  rfl

/-- C64, the covariant derivative: the product rule holds for all vector fields `v`, in every algebra with
orthogonal basis vectors and every connection.  In coordinates of basis vectors of length one the
derivative in direction `w` is `∑ k, w k / |e_k| * d/dx_k`.  Basis vectors that are not
orthogonal: `C64_cderiv_factor`, `C64_nonorthogonal_counterexample`. -/
theorem C64_cderiv_connection_partial {g : Matrix (Fin n) (Fin n) K} (hs : g.IsSymm)
    (ho : isOrtho g = true) (D : Fin n → Derivation ℤ K K) {N : Option (Fin n → K)}
    {vecs rb : List (Mv K n)} (hl : gradVecs g N = some vecs) (hrb : rBasisMv (currentMetric N g) = some rb)
    {conn : Option (Fin n → Fin n → Expr K n)} {Γ : Fin n → Matrix (Fin n) (Fin n) K}
    (hc : IsConnection (currentMetric N g) conn Γ) {T : Mlt K n} {r : ℕ} {comp : (Fin r → Fin n) → K}
    (hT : T.IsTensor (currentMetric N g) comp) (slots : ℕ) :
    (T.cderiv (fun i => D i) (currentMetric N g) conn vecs rb slots).nargs = r + 1 ∧
    ∀ slots' ≥ r + 1, ∀ v : ℕ → Fin n → K, ∃ x,
      (T.cderiv (fun i => D i) (currentMetric N g) conn vecs rb slots).call (currentMetric N g) rb slots'
        (vecArgs (r + 1) v) = C x ∧
      ∑ k, v r k * (scaleOf N k)⁻¹ * D k (tensorValue comp v) =
        x + ∑ i : Fin r, tensorValue comp (Function.update v i
          (covariantDeriv (fun i => D i) Γ (fun k => v r k * (scaleOf N k)⁻¹) (v i))) := by
  have hsc := currentMetric_symm hs N
  have hoc : isOrtho (currentMetric N g) = true := by
    cases N with
    | none => exact ho
    | some M =>
      rw [isOrtho_iff] at ho ⊢
      intro i j hij
      simp [currentMetric, normMetric, ho i j hij]
  obtain ⟨hlen, -, u, hu⟩ := gradVecs_rep hs (fun _ => ho) hl
  have hval := Mlt.cderiv_fvalue (s := fun k => (scaleOf N k)⁻¹) hsc hoc hc D hlen hu hrb slots hT
  have hn : (T.cderiv (fun i => D i) (currentMetric N g) conn vecs rb slots).nargs = r + 1 := by
    rw [← hT.nargs]
    rfl
  refine ⟨hn, fun slots' hsl v => ?_⟩
  have hC : ∀ c : K, (C c : SlotPoly K n) ∈ supported K {ik : ℕ × Fin n | ik.1 < r + 1} :=
    fun c => Subalgebra.algebraMap_mem _ _
  have hX : ∀ i < r + 1, ∀ k, (X (i, k) : SlotPoly K n) ∈ supported K {ik : ℕ × Fin n | ik.1 < r + 1} :=
    fun i hi k => X_mem_supported.mpr hi
  have hM : (T.cderiv (fun i => D i) (currentMetric N g) conn vecs rb slots).Means fun v =>
      eval (fun ik => v ik.1 ik.2)
        (T.cderiv (fun i => D i) (currentMetric N g) conn vecs rb slots).fvalue := by
    refine ⟨?_, fun v => rfl, fun f hf => by simp [Mlt.cderiv, Mlt.ofExpr] at hf⟩
    rw [hn, mem_supported_slots, hval]
    refine sub_mem (sum_mem fun k _ => mul_mem (mul_mem (hX _ (by omega) _) (hC _)) (sum_mem fun I _ =>
      mul_mem (hC _) (prod_mem fun i _ => hX _ (by omega) _))) (sum_mem fun i _ => sum_mem fun I _ =>
      mul_mem (hC _) (prod_mem fun j _ => ?_))
    rw [Function.update_apply]
    split_ifs with hij
    · exact sum_mem fun k _ => mul_mem (mul_mem (hX _ (by omega) _) (hC _))
        (sum_mem fun l _ => mul_mem (hC _) (hX _ (by omega) _))
    · exact hX _ (by omega) _
  have hcall := C63_call_partial hsc hoc hrb hM (slots := slots') (by omega) v
  rw [hn] at hcall
  refine ⟨_, hcall, ?_⟩
  · rw [hval]
    have hprod : ∀ (i : Fin r) (I : Fin r → Fin n),
        eval (fun ik => v ik.1 ik.2) (∏ j : Fin r, Function.update (fun (j : ℕ) l => X (j, l)) i.1
          (fun j => ∑ k, X (r, k) * C ((scaleOf N k)⁻¹) * ∑ l, C (Γ k j l) * X (i.1, l)) j (I j) :
            SlotPoly K n) =
        ∏ j : Fin r, Function.update v i.1
          (fun j => ∑ k, v r k * (scaleOf N k)⁻¹ * ∑ l, Γ k j l * v i l) j (I j) := by
      intro i I
      rw [map_prod]
      refine Finset.prod_congr rfl fun j _ => ?_
      rw [Function.update_apply, Function.update_apply]
      split_ifs
      · simp [map_sum]
      · simp
    simp only [map_sub, map_sum, map_mul, eval_X, eval_C, hprod, map_prod]
    have e1 : ∀ k, ∑ I : Fin r → Fin n, D k (comp I) * ∏ i : Fin r, v i (I i) =
        tensorValue (fun I => D k (comp I)) v := fun k => rfl
    have e2 : ∀ i : Fin r, ∑ I : Fin r → Fin n, comp I * ∏ j : Fin r, Function.update v i.1
          (fun j => ∑ k, v r k * (scaleOf N k)⁻¹ * ∑ l, Γ k j l * v i l) j (I j) =
        ∑ k, v r k * (scaleOf N k)⁻¹ *
          tensorValue comp (Function.update v i.1 fun j => ∑ l, Γ k j l * v i l) := by
      intro i
      rw [← tensorValue_sum]
      rfl
    simp only [e1, e2, tensorValue_covariantDeriv, derivation_tensorValue, mul_add, Finset.sum_add_distrib]
    have e4 : ∑ k, v r k * (scaleOf N k)⁻¹ * ∑ i : Fin r,
          tensorValue comp (Function.update v i.1 fun j => D k (v i j)) =
        ∑ i : Fin r, ∑ k, v r k * (scaleOf N k)⁻¹ *
          tensorValue comp (Function.update v i.1 fun j => D k (v i j)) := by
      rw [Finset.sum_comm]
      exact Finset.sum_congr rfl fun k _ => by rw [Finset.mul_sum]
    rw [e4]
    ring

theorem tensorValue_two (comp : (Fin 2 → Fin n) → K) (v : ℕ → Fin n → K) :
    tensorValue comp v = ∑ i, ∑ j, comp ![i, j] * (v 0 i * v 1 j) := by
  rw [← Fintype.sum_prod_type' fun i j => comp ![i, j] * (v 0 i * v 1 j)]
  refine Fintype.sum_equiv (finTwoArrowEquiv (Fin n)) _ _ fun I => ?_
  rw [Fin.prod_univ_two]
  have : I = ![I 0, I 1] := by
    funext i
    fin_cases i <;> rfl
  conv_lhs => rw [this]
  rfl

/-- C64, metric tensor: with the connection that `Ga` computes, the covariant derivative of
`T(a, b) = a | b` is zero. -/
theorem C64_cderiv_metric {g : Matrix (Fin n) (Fin n) K} (hs : g.IsSymm)
    (ho : isOrtho g = true) (D : Fin n → Derivation ℤ K K) {N : Option (Fin n → K)}
    (hN : ∀ N', N = some N' → ∀ i, N' i ^ 2 = g i i ∨ N' i ^ 2 = - g i i)
    {vecs rb : List (Mv K n)} (hl : gradVecs g N = some vecs) (hrb : rBasisMv (currentMetric N g) = some rb)
    {conn : Option (Fin n → Fin n → Expr K n)} (hc : connOf (fun i => D i) g N = some conn)
    {T : Mlt K n} (hT : T.IsTensor (currentMetric N g) fun I : Fin 2 → Fin n =>
      currentMetric N g (I 0) (I 1)) (slots : ℕ) {slots' : ℕ} (hsl : slots' ≥ 3) (v : ℕ → Fin n → K) :
    (T.cderiv (fun i => D i) (currentMetric N g) conn vecs rb slots).call (currentMetric N g) rb slots'
      (vecArgs 3 v) = 0 := by
  obtain ⟨Γ, hΓ, hcomp⟩ := connOf_spec hs D hN hc
  obtain ⟨x, h1, h2⟩ := (C64_cderiv_connection_partial hs ho D hl hrb hΓ hT slots).2 slots' hsl v
  rw [h1, C_eq_zero]
  simp only [tensorValue_covariantDeriv, derivation_tensorValue] at h2
  have key : ∀ k, tensorValue (fun I : Fin 2 → Fin n => D k (currentMetric N g (I 0) (I 1))) v =
      ∑ i : Fin 2, tensorValue (fun I : Fin 2 → Fin n => currentMetric N g (I 0) (I 1))
        (Function.update v i.1 fun j => ∑ l, Γ k j l * v i l) := by
    intro k
    rw [Fin.sum_univ_two]
    simp only [tensorValue_two, Matrix.cons_val_zero, Matrix.cons_val_one]
    simp only [Fin.val_zero, Fin.val_one, Function.update_self, ne_eq, one_ne_zero, zero_ne_one,
      not_false_eq_true, Function.update_of_ne]
    have e1 : ∀ i j, D k (currentMetric N g i j) * (v 0 i * v 1 j) =
        (∑ m, Γ k m i * currentMetric N g m j * (v 0 i * v 1 j)) +
          ∑ m, currentMetric N g i m * Γ k m j * (v 0 i * v 1 j) := by
      intro i j
      rw [hcomp k i j, add_mul, Finset.sum_mul, Finset.sum_mul]
    simp only [e1, Finset.sum_add_distrib, Finset.mul_sum, Finset.sum_mul]
    congr 1
    · have : ∀ f : Fin n → Fin n → Fin n → K, ∑ i, ∑ j, ∑ m, f i j m = ∑ m, ∑ j, ∑ i, f i j m := by
        intro f
        rw [Finset.sum_comm]
        rw [Finset.sum_comm (s := (Finset.univ : Finset (Fin n))) (f := fun m j => ∑ i, f i j m)]
        exact Finset.sum_congr rfl fun j _ => Finset.sum_comm
      rw [this]
      exact Finset.sum_congr rfl fun i _ => Finset.sum_congr rfl fun j _ => Finset.sum_congr rfl
        fun m _ => by ring
    · refine Finset.sum_congr rfl fun i _ => ?_
      rw [Finset.sum_comm]
      exact Finset.sum_congr rfl fun j _ => Finset.sum_congr rfl fun m _ => by ring
  have h3 : ∑ k, v 2 k * (scaleOf N k)⁻¹ *
        (tensorValue (fun I : Fin 2 → Fin n => D k (currentMetric N g (I 0) (I 1))) v +
          ∑ i : Fin 2, tensorValue (fun I : Fin 2 → Fin n => currentMetric N g (I 0) (I 1))
            (Function.update v i.1 fun j => D k (v i j))) =
      ∑ i : Fin 2, ∑ k, v 2 k * (scaleOf N k)⁻¹ *
        (tensorValue (fun I : Fin 2 → Fin n => currentMetric N g (I 0) (I 1))
            (Function.update v i.1 fun j => D k (v i j)) +
          tensorValue (fun I : Fin 2 → Fin n => currentMetric N g (I 0) (I 1))
            (Function.update v i.1 fun j => ∑ l, Γ k j l * v i l)) := by
    rw [Finset.sum_comm]
    refine Finset.sum_congr rfl fun k _ => ?_
    rw [key, ← Finset.mul_sum, Finset.sum_add_distrib, add_comm]
  exact left_eq_add.mp (by rw [← h3, add_comm] at h2; exact h2) |>.symm ▸ rfl

/-! ### Which multilinear functions are tensor fields -/

theorem Mlt.IsTensor.of_value {g : Matrix (Fin n) (Fin n) K} {T : Mlt K n} {r : ℕ}
    {comp : (Fin r → Fin n) → K} (h1 : T.nargs = r) (h2 : T.f = none)
    (h3 : T.fvalue = ∑ I, C (comp I) * ∏ i : Fin r, X (i.1, I i)) : T.IsTensor g comp :=
  ⟨h1, h3, fun f hf => by rw [h2] at hf; cases hf⟩

/-- C64: every multilinear function made with the constructors and operations of `C63_multilinear_partial`
is a tensor field, so that the theorem above says something about its covariant derivative. -/
theorem C64_tensor_partial {g : Matrix (Fin n) (Fin n) K} (hs : g.IsSymm) (ho : isOrtho g = true)
    {rb : List (Mv K n)} (h : rBasisMv g = some rb) {T : Mlt K n} (hT : Mlt.Built g rb T) :
    ∃ comp : (Fin T.nargs → Fin n) → K, T.IsTensor g comp := by
  suffices ∃ comp : (Fin T.nargs → Fin n) → K, T.IsTensor g comp ∧ T.f = none by
    obtain ⟨c, h, -⟩ := this
    exact ⟨c, h⟩
  induction hT with
  | @vector A hA hb h1 =>
    obtain ⟨u, hu⟩ := Spec.homogeneous_one h1
    have hA' : Rep g A (Spec.vec g u) := ⟨hA, hb, hu⟩
    have hd := dot_scalar (liftG_symm hs) hA'.lift_vec
      (Rep.vector (g := liftG g) fun k => (X (0, k) : SlotPoly K n))
    refine ⟨fun I : Fin 1 → Fin n => ∑ i, g i (I 0) * u i, .of_value rfl rfl ?_, rfl⟩
    refine Eq.trans hd ?_
    have e := Fintype.sum_equiv (Equiv.funUnique (Fin 1) (Fin n))
      (fun I : Fin 1 → Fin n => (C (∑ i, g i (I 0) * u i) : SlotPoly K n) * ∏ i : Fin 1, X (i.1, I i))
      (fun k => C (∑ i, g i k * u i) * X (0, k)) fun I => by
        rw [Fin.prod_univ_one]; rfl
    refine Eq.trans ?_ e.symm
    rw [Finset.sum_comm]
    refine Finset.sum_congr rfl fun k _ => ?_
    simp only [map_sum, liftG, Matrix.of_apply, Finset.sum_mul, C_mul]
  | @lt L hL =>
    have h1 : Rep (liftG g) ((liftLt L).call (liftG g) (slotVec K n 1)) _ :=
      (Rep.vector (g := liftG g) fun k => (X (1, k) : SlotPoly K n)).call (liftG_symm hs) (liftLt_wf hL)
    rw [Spec.outer_vec] at h1
    have hd := dot_scalar (liftG_symm hs)
      (Rep.vector (g := liftG g) fun k => (X (0, k) : SlotPoly K n)) h1
    refine ⟨fun I : Fin 2 → Fin n => ∑ j, g (I 0) j * L.mat j (I 1), .of_value rfl rfl ?_, rfl⟩
    refine Eq.trans hd ?_
    have e := Fintype.sum_equiv (finTwoArrowEquiv (Fin n))
      (fun I : Fin 2 → Fin n => (C (∑ j, g (I 0) j * L.mat j (I 1)) : SlotPoly K n) *
        ∏ i : Fin 2, X (i.1, I i))
      (fun p => C (∑ j, g p.1 j * L.mat j p.2) * (X (0, p.1) * X (1, p.2))) fun I => by
        rw [Fin.prod_univ_two]; rfl
    refine Eq.trans ?_ e.symm
    rw [Fintype.sum_prod_type]
    refine Finset.sum_congr rfl fun i _ => ?_
    simp only [Matrix.mulVec, dotProduct, liftLt_mat hL, liftG, Matrix.of_apply, Finset.mul_sum, map_sum,
      Finset.sum_mul, C_mul]
    rw [Finset.sum_comm]
    exact Finset.sum_congr rfl fun k _ => Finset.sum_congr rfl fun j _ => by ring
  | @generic comp r slots hsl =>
    exact ⟨fun I => comp (List.ofFn I), .of_value rfl rfl (ofString_fvalue comp hsl), rfl⟩
  | @add S T U _ _ hU ihS ihT =>
    obtain ⟨c, hc, -⟩ := ihS
    obtain ⟨d, hd, -⟩ := ihT
    rw [Mlt.add] at hU
    split_ifs at hU with he
    obtain rfl := Option.some.inj hU
    have hd' : T.fvalue = ∑ I : Fin S.nargs → Fin n, C (d fun i => I (Fin.cast he.symm i)) *
        ∏ i : Fin S.nargs, X (i.1, I i) := by
      rw [hd.value]
      refine Fintype.sum_equiv (Equiv.arrowCongr (finCongr he.symm) (Equiv.refl _)) _ _ fun I => ?_
      congr 1
      exact Fintype.prod_equiv (finCongr he.symm) _ _ fun i => rfl
    refine ⟨fun I => c I + d fun i => I (Fin.cast he.symm i), .of_value rfl rfl ?_, rfl⟩
    simp only [Mlt.ofExpr, C_add, add_mul, Finset.sum_add_distrib]
    exact congrArg₂ (· + ·) hc.value hd'
  | @sub S T U _ _ hU ihS ihT =>
    obtain ⟨c, hc, -⟩ := ihS
    obtain ⟨d, hd, -⟩ := ihT
    rw [Mlt.sub] at hU
    split_ifs at hU with he
    obtain rfl := Option.some.inj hU
    have hd' : T.fvalue = ∑ I : Fin S.nargs → Fin n, C (d fun i => I (Fin.cast he.symm i)) *
        ∏ i : Fin S.nargs, X (i.1, I i) := by
      rw [hd.value]
      refine Fintype.sum_equiv (Equiv.arrowCongr (finCongr he.symm) (Equiv.refl _)) _ _ fun I => ?_
      congr 1
      exact Fintype.prod_equiv (finCongr he.symm) _ _ fun i => rfl
    refine ⟨fun I => c I - d fun i => I (Fin.cast he.symm i), .of_value rfl rfl ?_, rfl⟩
    simp only [Mlt.ofExpr, C_sub, sub_mul, Finset.sum_sub_distrib]
    exact congrArg₂ (· - ·) hc.value hd'
  | @smul a T _ ihT =>
    obtain ⟨c, hc, -⟩ := ihT
    refine ⟨fun I => a * c I, .of_value rfl rfl ?_, rfl⟩
    change C a * T.fvalue = _
    rw [hc.value, Finset.mul_sum]
    exact Finset.sum_congr rfl fun I _ => by rw [C_mul, mul_assoc]; rfl
  | @mul slots S T hS hT ihS ihT =>
    obtain ⟨c, hc, hfS⟩ := ihS
    obtain ⟨d, hd, hfT⟩ := ihT
    refine ⟨fun I : Fin (S.nargs + T.nargs) → Fin n =>
      c (fun i => I (Fin.castAdd _ i)) * d fun i => I (Fin.natAdd _ i), .of_value rfl rfl ?_, rfl⟩
    have hsl : S.nargs + T.nargs ≤ incrementSlots (S.nargs + T.nargs) slots := by
      rw [incrementSlots]; split_ifs <;> omega
    have hv : (Mlt.mul g rb slots S T).fvalue = S.fvalue *
        bind₁ (fun ik => X (S.nargs + ik.1, ik.2)) T.fvalue := by
      have means : ∀ (T : Mlt K n) (c : (Fin T.nargs → Fin n) → K), T.IsTensor g c → T.f = none →
          T.Means fun v => eval (fun ik => v ik.1 ik.2) T.fvalue := by
        intro T c hc hf
        refine ⟨?_, fun v => rfl, fun f hf' => by rw [hf] at hf'; cases hf'⟩
        rw [mem_supported_slots, hc.value]
        exact tensor_slots c
      simp only [Mlt.mul, Mlt.ofExpr]
      rw [take_slots (by omega), drop_slots hsl]
      have e1 := (means S c hc hfS).call_poly hs ho h
        (slots := incrementSlots (S.nargs + T.nargs) slots) (by omega) fun i k => X (i, k)
      have e2 := (means T d hd hfT).call_poly hs ho h
        (slots := incrementSlots (S.nargs + T.nargs) slots) (by omega) fun i k => X (S.nargs + i, k)
      have e3 : bind₁ (fun ik : ℕ × Fin n => (X (ik.1, ik.2) : SlotPoly K n)) S.fvalue = S.fvalue :=
        AlgHom.congr_fun bind₁_X_left S.fvalue
      exact congrArg₂ (· * ·) (e1.trans e3) e2
    rw [hv, hd.value, bind_tensor (fun I => d I) fun i k => X (S.nargs + i, k), hc.value,
      Finset.sum_mul_sum, ← Finset.sum_product']
    refine Fintype.sum_equiv (Fin.appendEquiv S.nargs T.nargs) _ _ fun p => ?_
    have : (Mlt.mul g rb slots S T).nargs = S.nargs + T.nargs := rfl
    have hp : (∏ i : Fin (S.nargs + T.nargs), X (i.1, Fin.append p.1 p.2 i) : SlotPoly K n) =
        (∏ i : Fin S.nargs, X (i.1, p.1 i)) * ∏ i : Fin T.nargs, X (S.nargs + i.1, p.2 i) := by
      rw [Fin.prod_univ_add]
      simp
    change _ = C (c (fun i => Fin.append p.1 p.2 (Fin.castAdd _ i)) *
      d fun i => Fin.append p.1 p.2 (Fin.natAdd _ i)) *
      ∏ i : Fin (S.nargs + T.nargs), X (i.1, Fin.append p.1 p.2 i)
    rw [hp, C_mul]
    simp only [Fin.append_left, Fin.append_right]
    ring

/-! ### Non-vacuity -/

/-- In polar coordinates, where the basis vectors are not constant, all hypotheses hold for every tensor
`Mlt('T', 2)` whose components are rational functions of the coordinates; for the metric tensor the
derivative is zero although the components are not constant. -/
example : ∃ conn vecs rb, connOf (fun i => Ex.partialD i) Ex.polar none = some (some conn) ∧
    gradVecs Ex.polar none = some vecs ∧ rBasisMv (currentMetric none Ex.polar) = some rb ∧
    (∀ comp : List (Fin 2) → Ex.Fun 2, ∃ c : (Fin 2 → Fin 2) → Ex.Fun 2,
      (Mlt.ofString comp 2 0).IsTensor (currentMetric none Ex.polar) c) ∧
    (∀ v, ((Mlt.ofString (fun l => Ex.polar (l.getD 0 0) (l.getD 1 0)) 2 0).cderiv
      (fun i => Ex.partialD i) (currentMetric none Ex.polar) (some conn) vecs rb 2).call
        (currentMetric none Ex.polar) rb 3 (vecArgs 3 v) = 0) ∧
    Ex.partialD 0 (Ex.polar 1 1) ≠ 0 := by
  have h0 : (Ex.coord 0 : Ex.Fun 2) ≠ 0 := Ex.coord_ne_zero 0
  obtain ⟨d, hd⟩ := Ex.polar_de none (Or.inl rfl)
  have hconn : connOf (fun i => Ex.partialD i) Ex.polar none = some (some d) := by
    rw [connOf, if_pos Ex.polar_connect, hd]; rfl
  obtain ⟨l, hl⟩ := Option.isSome_iff_exists.mp (C60_exists (N := none) Ex.polar_symm
    (by simp [Ex.polar, Matrix.det_diagonal, Fin.prod_univ_two, h0]) (by simp) (by simp))
  obtain ⟨rb, hrb, -⟩ := Option.bind_eq_some_iff.mp (show (rBasisMv (currentMetric none Ex.polar)).bind _ =
    some l from hl)
  have hten : ∀ comp : List (Fin 2) → Ex.Fun 2,
      (Mlt.ofString comp 2 0).IsTensor (currentMetric none Ex.polar) fun I : Fin 2 → Fin 2 =>
        comp (List.ofFn I) := fun comp => .of_value rfl rfl (ofString_fvalue comp (by omega))
  refine ⟨d, l, rb, hconn, hl, hrb, fun comp => ⟨_, hten comp⟩, fun v => ?_, ?_⟩
  · exact C64_cderiv_metric Ex.polar_symm Ex.polar_ortho Ex.partialD (by simp) hl hrb hconn
      (hten fun l => Ex.polar (l.getD 0 0) (l.getD 1 0)) 2 le_rfl v
  · rw [Ex.polar_d, if_pos ⟨rfl, rfl, rfl⟩]
    exact mul_ne_zero two_ne_zero h0

end GA
