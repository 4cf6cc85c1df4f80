import Verif.Proofs.Mlt
import Verif.Proofs.Grad
import Verif.Proofs.Coef
import Verif.Proofs.Conn

/-!
# The covariant derivative of a tensor field
-/

set_option linter.unusedSectionVars false

namespace GA
open MvPolynomial
variable {n : ℕ} {K : Type*} [Field K] [DecidableEq K] [Invertible (2 : K)]
  {g : Matrix (Fin n) (Fin n) K}

/-! ### tensors -/

theorem prod_update {r : ℕ} {M : Type*} [CommMonoid M] (v : ℕ → Fin n → M) (i : Fin r) (u : Fin n → M)
    (I : Fin r → Fin n) :
    ∏ j : Fin r, Function.update v i.1 u j (I j) = u (I i) * ∏ j ∈ Finset.univ.erase i, v j (I j) := by
  rw [← Finset.mul_prod_erase _ _ (Finset.mem_univ i), Function.update_self]
  congr 1
  refine Finset.prod_congr rfl fun j hj => ?_
  rw [Function.update_of_ne]
  intro h
  exact (Finset.mem_erase.mp hj).1 (Fin.ext h)

theorem tensorValue_update {r : ℕ} (comp : (Fin r → Fin n) → K) (v : ℕ → Fin n → K) (i : Fin r)
    (u : Fin n → K) : tensorValue comp (Function.update v i.1 u) =
      ∑ I, comp I * (u (I i) * ∏ j ∈ Finset.univ.erase i, v j (I j)) := by
  rw [tensorValue]
  exact Finset.sum_congr rfl fun I _ => by rw [prod_update]

theorem tensorValue_add {r : ℕ} (comp : (Fin r → Fin n) → K) (v : ℕ → Fin n → K) (i : Fin r)
    (u u' : Fin n → K) : tensorValue comp (Function.update v i.1 (u + u')) =
      tensorValue comp (Function.update v i.1 u) + tensorValue comp (Function.update v i.1 u') := by
  rw [tensorValue_update, tensorValue_update, tensorValue_update, ← Finset.sum_add_distrib]
  exact Finset.sum_congr rfl fun I _ => by rw [Pi.add_apply]; ring

theorem tensorValue_sum {r : ℕ} (comp : (Fin r → Fin n) → K) (v : ℕ → Fin n → K) (i : Fin r)
    {ι : Type*} (s : Finset ι) (c : ι → K) (u : ι → Fin n → K) :
    tensorValue comp (Function.update v i.1 fun j => ∑ k ∈ s, c k * u k j) =
      ∑ k ∈ s, c k * tensorValue comp (Function.update v i.1 (u k)) := by
  simp only [tensorValue_update]
  simp only [Finset.mul_sum, Finset.sum_mul]
  rw [Finset.sum_comm]
  exact Finset.sum_congr rfl fun k _ => Finset.sum_congr rfl fun I _ => by ring

theorem derivation_prod {A : Type*} [CommRing A] (D : Derivation ℤ A A) {ι : Type*} [DecidableEq ι]
    (s : Finset ι) (f : ι → A) : D (∏ i ∈ s, f i) = ∑ i ∈ s, D (f i) * ∏ j ∈ s.erase i, f j := by
  induction s using Finset.induction_on with
  | empty => simp
  | insert a s ha ih =>
    rw [Finset.prod_insert ha, Derivation.leibniz, ih, Finset.sum_insert ha, Finset.erase_insert ha,
      smul_eq_mul, smul_eq_mul, add_comm, mul_comm (D (f a)), Finset.mul_sum]
    congr 1
    refine Finset.sum_congr rfl fun i hi => ?_
    have hne : a ≠ i := fun h => ha (h ▸ hi)
    rw [Finset.erase_insert_of_ne hne, Finset.prod_insert (fun h => ha (Finset.mem_of_mem_erase h))]
    ring

/-- The product rule for the value of a tensor field. -/
theorem derivation_tensorValue (D : Derivation ℤ K K) {r : ℕ} (comp : (Fin r → Fin n) → K)
    (v : ℕ → Fin n → K) : D (tensorValue comp v) = tensorValue (fun I => D (comp I)) v +
      ∑ i : Fin r, tensorValue comp (Function.update v i.1 fun j => D (v i j)) := by
  simp only [tensorValue_update]
  rw [Finset.sum_comm, tensorValue, tensorValue, map_sum, ← Finset.sum_add_distrib]
  refine Finset.sum_congr rfl fun I _ => ?_
  rw [Derivation.leibniz, derivation_prod, smul_eq_mul, smul_eq_mul, add_comm, mul_comm (D (comp I)),
    Finset.mul_sum]

/-! ### expressions with slot symbols -/

theorem coeff_slotDiff (D : Derivation ℤ K K) (p : SlotPoly K n) (m : ℕ × Fin n →₀ ℕ) :
    MvPolynomial.coeff m (slotDiff D p) = D (MvPolynomial.coeff m p) := by
  rw [slotDiff, coeff_sum]
  simp only [coeff_monomial]
  rw [Finset.sum_ite_eq']
  split_ifs with h
  · rfl
  · rw [notMem_support_iff.mp h, map_zero]

theorem slotDiff_add (D : Derivation ℤ K K) (p q : SlotPoly K n) :
    slotDiff D (p + q) = slotDiff D p + slotDiff D q := by
  ext m
  simp only [MvPolynomial.coeff_add, coeff_slotDiff, map_add]

theorem slotDiff_sum (D : Derivation ℤ K K) {ι : Type*} (s : Finset ι) (p : ι → SlotPoly K n) :
    slotDiff D (∑ i ∈ s, p i) = ∑ i ∈ s, slotDiff D (p i) := by
  ext m
  simp only [coeff_slotDiff, coeff_sum, map_sum]

theorem prod_X {r : ℕ} (I : Fin r → Fin n) :
    (∏ i : Fin r, X (i.1, I i) : SlotPoly K n) = monomial (∑ i : Fin r, Finsupp.single (i.1, I i) 1) 1 := by
  rw [monomial_sum_one]
  rfl

theorem slotDiff_C_mul_prod (D : Derivation ℤ K K) {r : ℕ} (c : K) (I : Fin r → Fin n) :
    slotDiff D (C c * ∏ i : Fin r, X (i.1, I i) : SlotPoly K n) =
      C (D c) * ∏ i : Fin r, X (i.1, I i) := by
  ext m
  rw [coeff_slotDiff, prod_X, C_mul_monomial, C_mul_monomial, coeff_monomial, coeff_monomial]
  split_ifs <;> simp

theorem slotDiff_X (D : Derivation ℤ K K) (ik : ℕ × Fin n) : slotDiff D (X ik : SlotPoly K n) = 0 := by
  ext m
  rw [coeff_slotDiff, coeff_X, MvPolynomial.coeff_zero]
  split_ifs <;> simp

theorem eval_tensor {r : ℕ} (comp : (Fin r → Fin n) → K) (v : ℕ → Fin n → K) :
    eval (fun ik => v ik.1 ik.2) (∑ I, C (comp I) * ∏ i : Fin r, X (i.1, I i) : SlotPoly K n) =
      tensorValue comp v := by
  simp [tensorValue, map_sum, map_prod]

theorem bind_tensor {r : ℕ} (comp : (Fin r → Fin n) → K) (w : ℕ → Fin n → SlotPoly K n) :
    bind₁ (fun ik => w ik.1 ik.2) (∑ I, C (comp I) * ∏ i : Fin r, X (i.1, I i) : SlotPoly K n) =
      ∑ I, C (comp I) * ∏ i : Fin r, w i (I i) := by
  simp [map_sum, map_prod]

theorem tensor_slots {r : ℕ} (comp : (Fin r → Fin n) → K) :
    (∑ I, C (comp I) * ∏ i : Fin r, X (i.1, I i) : SlotPoly K n) ∈
      supported K {ik : ℕ × Fin n | ik.1 < r} := by
  refine sum_mem fun I _ => Subalgebra.mul_mem _ ?_ (Subalgebra.prod_mem _ fun i _ => ?_)
  · exact Subalgebra.algebraMap_mem _ (comp I)
  · exact (X_mem_supported).mpr i.2

/-! ### the derivative of a generic vector -/

theorem den_liftE {E : Expr K n} {u : Fin n → K} (hE : Valid E) (h : den g E = Spec.vec g u) :
    den (liftG g) (liftE E) = Spec.vec (liftG g) fun k => C (u k) := by
  let _ : Module K (Spec.Cl (liftG g)) := Module.compHom _ (C : K →+* SlotPoly K n)
  have h1 : ∀ E : Expr K n, den (liftG g) (liftE E) = lin (symDen (liftG g)) E := by
    intro E
    rw [liftE, den, lin, List.map_map]
    rfl
  have hr := (Rep.ofExpr (g := g) hE).congr h
  have h2 := hr.lift_vec.den
  have h3 : (liftMv (Mv.ofExpr E)).obj = liftE (expand E) := rfl
  rw [h3, h1, lin_expand] at h2
  rw [h1, h2]

theorem valid_liftE {E : Expr K n} (hE : Valid E) : Valid (liftE E) := by
  intro t ht
  obtain ⟨t', h', rfl⟩ := List.mem_map.mp ht
  exact hE t' h'

theorem slotPDiff_vec (hs : g.IsSymm) {conn : Option (Fin n → Fin n → Expr K n)}
    {Γ : Fin n → Matrix (Fin n) (Fin n) K} (hc : IsConnection g conn Γ) (D : Fin n → Derivation ℤ K K)
    (k : Fin n) {A : Mv (SlotPoly K n) n} {u : Fin n → SlotPoly K n}
    (hA : Rep (liftG g) A (Spec.vec (liftG g) u)) (hu : ∀ j, slotDiff (D k) (u j) = 0) :
    Rep (liftG g) (slotPDiff g conn (fun i => D i) k A)
      (Spec.vec (liftG g) fun j => ∑ l, C (Γ k j l) * u l) := by
  have hV := isV_of_rep hA
  have hcoef : ∀ t ∈ A.obj, ∃ j, t = (u j, .blade [j]) := by
    intro t ht
    obtain ⟨j, hj⟩ := hV t ht
    refine ⟨j, Prod.ext ?_ hj⟩
    have h1 := coeff_of_den hV hA.den j
    rw [coeff_eq_coefOf, ← hj, coefOf_of_mem hA.wf.1 ht] at h1
    exact h1
  have r0 : Rep (liftG g) (Mv.ofExpr (expand (A.obj.map fun t => (slotDiff (D k) t.1, t.2)))) 0 := by
    have hv' : Valid (A.obj.map fun t => (slotDiff (D k) t.1, t.2)) := by
      intro t ht
      obtain ⟨t', h', rfl⟩ := List.mem_map.mp ht
      exact hA.valid t' h'
    refine (Rep.ofExpr (g := liftG g) hv'.expand).congr ?_
    rw [den_expand, den, List.map_map]
    apply List.sum_eq_zero
    intro x hx
    obtain ⟨t, ht, rfl⟩ := List.mem_map.mp hx
    obtain ⟨j, rfl⟩ := hcoef t ht
    simp [hu j]
  cases conn with
  | none =>
    have hc' : Γ = 0 := hc
    refine r0.congr ?_
    rw [hc']
    simp only [Pi.zero_apply, Matrix.zero_apply, C_0, zero_mul, Finset.sum_const_zero]
    exact (map_zero (CliffordAlgebra.ι (Spec.Q (liftG g)))).symm
  | some de =>
    -- the sum over the terms
    have key : ∀ (ts : Expr (SlotPoly K n) n) (B : Mv (SlotPoly K n) n) (y : Spec.Cl (liftG g)),
        AllSyms IsV ts → Rep (liftG g) B y →
        Rep (liftG g) ((ts.filter fun t => decide (t.2 ≠ .blade [])).foldl
          (fun (dA : Mv (SlotPoly K n) n) t =>
            Mv.ofExpr (addE dA.obj (smulE t.1 (liftE (symDerivation (de k) t.2))))) B)
          (y + Spec.vec (liftG g) fun j => ∑ l, C (Γ k j l) * GA.coeff ts [l]) := by
      intro ts
      induction ts with
      | nil =>
        intro B y _ hB
        refine hB.congr ?_
        simp only [GA.coeff, List.map_nil, List.sum_nil, mul_zero, Finset.sum_const_zero]
        rw [show (Spec.vec (liftG g) fun _ => 0) = 0 from
          map_zero (CliffordAlgebra.ι (Spec.Q (liftG g))), add_zero]
      | cons t ts ih =>
        intro B y hts hB
        obtain ⟨j, hj⟩ := hts t List.mem_cons_self
        obtain ⟨v2, d2⟩ := bladeDerivation_spec (g := g) (fun j => hc k j)
          (List.pairwise_singleton (· < ·) j)
        have d3 : den g (bladeDerivation (de k) [j]) = Spec.vec g fun m => Γ k m j := by
          rw [d2, Spec.blade_singleton, Spec.e, Spec.nabla_vec]
          congr 1
          funext m
          simp [Matrix.mulVec_single]
        have d4 := den_liftE v2 d3
        have hr := Rep.ofExpr (g := liftG g) (valid_addE hB.valid (valid_smulE t.1 (valid_liftE v2)))
        rw [den_addE, den_smulE, hB.den, d4] at hr
        rw [List.filter_cons_of_pos (by simp [hj]), List.foldl_cons]
        have hfin := ih _ _ (fun s hs => hts s (List.mem_cons_of_mem _ hs)) hr
        rw [hj]
        refine hfin.congr ?_
        rw [add_assoc]
        congr 1
        simp only [Spec.vec]
        rw [← map_smul, ← map_add]
        congr 1
        funext m
        simp only [Pi.add_apply, Pi.smul_apply, smul_eq_mul, GA.coeff, List.map_cons, List.sum_cons, hj,
          mul_add, Finset.sum_add_distrib]
        congr 1
        rw [Finset.sum_eq_single j]
        · simp [mul_comm]
        · intro l _ hl
          rw [if_neg (by simpa using Ne.symm hl), mul_zero]
        · simp
    have hkey := key A.obj _ _ hV r0
    have hco : ∀ l, GA.coeff A.obj [l] = u l := fun l => coeff_of_den hV hA.den l
    simp only [hco, zero_add] at hkey
    by_cases hsc : A.isScalar (liftG g) = true
    · obtain ⟨c, hc'⟩ := (isScalar_iff (liftG_symm hs) hA.wf).mp hsc
      have h0 : Spec.vec (liftG g) u = 0 := by
        have h1 := congrArg (Spec.grade (liftG g) 0) (hA.val.symm.trans hc')
        rw [grade_zero_algebraMap (liftG g) c, Spec.homogeneous_vec (g := liftG g) u 0 (by decide)] at h1
        rw [hA.val.symm.trans hc', ← h1]
      have h1 : u = 0 := by
        have h2 := coeff_of_den hV hA.den
        have h3 : A.obj = [] := (val_eq_zero hA.wf).mp (hA.val.trans h0)
        funext l
        rw [← h2 l, h3]
        rfl
      rw [slotPDiff]
      simp only [hsc, if_true]
      refine r0.congr ?_
      rw [h1]
      simp only [Pi.zero_apply, mul_zero, Finset.sum_const_zero]
      exact (map_zero (CliffordAlgebra.ι (Spec.Q (liftG g)))).symm
    · rw [slotPDiff]
      simp only [hsc]
      exact hkey

/-! ### the loop of `cderiv` -/

theorem zip_finRange {vecs : List (Mv K n)} (hlen : vecs.length = n) :
    vecs.zip (List.finRange n) = (List.finRange n).map fun k : Fin n => (vecs.getD k Mv.zero, k) := by
  apply List.ext_getElem
  · simp [hlen]
  · intro i h1 h2
    simp at h1 h2
    simp [List.getD_eq_getElem?_getD, h1]

theorem slotVec_dot (hs : g.IsSymm) {A : Mv K n} {u : Fin n → K} (hA : Rep g A (Spec.vec g u))
    {k : Fin n} {c : K} (hu : ∀ i, Spec.ip g (Pi.single i 1) u = if i = k then c else 0) (r : ℕ) :
    ((slotVec K n r).dot (liftG g) (liftMv A)).scalar = X (r, k) * C c := by
  have hd := dot_scalar (liftG_symm hs)
    (Rep.vector (g := liftG g) fun k => (X (r, k) : SlotPoly K n)) hA.lift_vec
  rw [slotVec, hd]
  simp only [liftG, Matrix.of_apply]
  have h2 : ∀ i, ∑ j, C (g i j) * X (r, i) * C (u j) =
      (X (r, i) * C (if i = k then c else 0) : SlotPoly K n) := by
    intro i
    rw [← hu i, Spec.ip_single hs, map_sum, Finset.mul_sum]
    exact Finset.sum_congr rfl fun j _ => by rw [C_mul]; ring
  simp only [h2]
  rw [Finset.sum_eq_single k]
  · rw [if_pos rfl]
  · intro i _ hi
    rw [if_neg hi, C_0, mul_zero]
  · simp

theorem slotAgrad_rep (hs : g.IsSymm) {conn : Option (Fin n → Fin n → Expr K n)}
    {Γ : Fin n → Matrix (Fin n) (Fin n) K} (hc : IsConnection g conn Γ) (D : Fin n → Derivation ℤ K K)
    {vecs : List (Mv K n)} (hlen : vecs.length = n) {s : Fin n → K} {u : Fin n → Fin n → K}
    (hu : ∀ k : Fin n, Rep g (vecs.getD k Mv.zero) (Spec.vec g (u k)) ∧
      ∀ i, Spec.ip g (Pi.single i 1) (u k) = if i = k then s k else 0) (r i : ℕ) :
    Rep (liftG g) (slotAgrad g conn (fun i => D i) vecs (slotVec K n r) (slotVec K n i))
      (Spec.vec (liftG g) fun j => ∑ k, X (r, k) * C (s k) * ∑ l, C (Γ k j l) * X (i, l)) := by
  rw [slotAgrad, zip_finRange hlen, List.map_map]
  have key : ∀ (l : List (Fin n)) (B : Mv (SlotPoly K n) n) (y : Fin n → SlotPoly K n),
      Rep (liftG g) B (Spec.vec (liftG g) y) →
      Rep (liftG g) ((l.map fun k : Fin n => Mv.smul
        ((slotVec K n r).dot (liftG g) (liftMv (vecs.getD k Mv.zero))).scalar
        (slotPDiff g conn (fun i => D i) k (slotVec K n i))).foldl (Mv.add (liftG g)) B)
        (Spec.vec (liftG g) fun j => y j +
          (l.map fun k => X (r, k) * C (s k) * ∑ l, C (Γ k j l) * X (i, l)).sum) := by
    intro l
    induction l with
    | nil => intro B y hB; simpa using hB
    | cons k l ih =>
      intro B y hB
      rw [List.map_cons, List.foldl_cons, slotVec_dot hs (hu k).1 (hu k).2]
      have h1 := (slotPDiff_vec hs hc D k (Rep.vector (g := liftG g) fun l => (X (i, l) : SlotPoly K n))
        (fun j => slotDiff_X _ _)).smul (X (r, k) * C (s k))
      have h2 := (hB.add (liftG_symm hs) h1)
      simp only [Spec.vec, ← map_smul, ← map_add] at h2
      have h3 := ih _ _ h2
      refine h3.congr ?_
      congr 1
      funext j
      simp only [Pi.add_apply, Pi.smul_apply, smul_eq_mul, List.map_cons, List.sum_cons]
      ring
  have h0 : Rep (liftG g) (Mv.scalarMv 0) (Spec.vec (liftG g) (0 : Fin n → SlotPoly K n)) :=
    (Rep.scalarMv 0).congr (by
      rw [map_zero]; exact (map_zero (CliffordAlgebra.ι (Spec.Q (liftG g)))).symm)
  refine (key (List.finRange n) _ _ h0).congr ?_
  congr 1
  funext j
  rw [Pi.zero_apply, zero_add, ← Fin.sum_univ_def]

/-- The value of a tensor field at vectors with slot symbols: every argument is multiplied by `recipFactor g`,
which is 1 in orthogonal algebras. -/
theorem Mlt.IsTensor.call_poly (hs : g.IsSymm) {rb : List (Mv K n)}
    (h : rBasisMv g = some rb) {slots r : ℕ} {T : Mlt K n} {comp : (Fin r → Fin n) → K}
    (hT : T.IsTensor g comp) (ho : isOrtho g = true ∨ T.f = none) (hr : r ≤ slots) (h0 : 0 < r)
    {A : ℕ → Mv (SlotPoly K n) n}
    {w : ℕ → Fin n → SlotPoly K n} (hA : ∀ i < r, Rep (liftG g) (A i) (Spec.vec (liftG g) (w i))) :
    T.call g rb slots ((List.range r).map A) =
      C (recipFactor g ^ r) * ∑ I, C (comp I) * ∏ i : Fin r, w i (I i) := by
  have e : C (recipFactor g ^ r) * ∑ I, C (comp I) * ∏ i : Fin r, w i (I i) =
      ∑ I, C (comp I) * ∏ i : Fin r, (fun i k => C (recipFactor g) * w i k) i.1 (I i) := by
    rw [Finset.mul_sum]
    refine Finset.sum_congr rfl fun I _ => ?_
    rw [Finset.prod_mul_distrib, Finset.prod_const, Finset.card_univ, Fintype.card_fin, C_pow]
    ring
  rw [e, ← bind_tensor comp fun i k => C (recipFactor g) * w i k, ← hT.value, Mlt.call, List.length_map, List.length_range, if_neg (by omega)]
  cases hf : T.f with
  | some f =>
    have ho' : isOrtho g = true := by
      rcases ho with ho | ho
      · exact ho
      · rw [hf] at ho; cases ho
    simp only [recipFactor_ortho ho', C_1, one_mul]
    exact hT.function f hf A w fun i hi => ⟨(hA i hi).val, (hA i hi).flag, (hA i hi).wf⟩
  | none =>
    have hsl : ∀ ik ∈ T.fvalue.vars, ik.1 < r := by
      rw [mem_supported_slots, hT.value]
      exact tensor_slots comp
    refine eval₂Hom_congr' rfl (fun ik hik _ => ?_) rfl
    have hi := hsl ik hik
    rw [if_pos ⟨hi, by omega⟩]
    have hg : ((List.range r).map A).getD ik.1 Mv.zero = A ik.1 := by
      simp [List.getD_eq_getElem?_getD, hi]
    rw [hg, recip_dot hs h ik.2 (hA ik.1 hi)]

theorem set_range_map {α : Type*} (r i : ℕ) (f : ℕ → α) (x : α) :
    ((List.range r).map f).set i x = (List.range r).map (Function.update f i x) := by
  apply List.ext_getElem
  · simp
  · intro j h1 h2
    simp only [List.getElem_set, List.getElem_map, List.getElem_range, Function.update_apply]
    simp only [eq_comm]

theorem Mlt.cderiv_fvalue_factor (hs : g.IsSymm)
    {conn : Option (Fin n → Fin n → Expr K n)}
    {Γ : Fin n → Matrix (Fin n) (Fin n) K} (hc : IsConnection g conn Γ) (D : Fin n → Derivation ℤ K K)
    {vecs : List (Mv K n)} (hlen : vecs.length = n) {s : Fin n → K} {u : Fin n → Fin n → K}
    (hu : ∀ k : Fin n, Rep g (vecs.getD k Mv.zero) (Spec.vec g (u k)) ∧
      ∀ i, Spec.ip g (Pi.single i 1) (u k) = if i = k then s k else 0)
    {rb : List (Mv K n)} (h : rBasisMv g = some rb) (slots : ℕ) {r : ℕ} {T : Mlt K n}
    {comp : (Fin r → Fin n) → K} (hT : T.IsTensor g comp)
    (ho : isOrtho g = true ∨ T.f = none) :
    (T.cderiv (fun i => D i) g conn vecs rb slots).fvalue =
      ∑ k, X (r, k) * C (s k) * (∑ I, C (D k (comp I)) * ∏ i : Fin r, X (i.1, I i)) -
      ∑ i : Fin r, C (recipFactor g ^ r) * ∑ I, C (comp I) * ∏ j : Fin r, Function.update (fun j l => X (j, l)) i.1
        (fun j => ∑ k, X (r, k) * C (s k) * ∑ l, C (Γ k j l) * X (i.1, l)) j (I j) := by
  have hn := hT.nargs
  have hsl : r ≤ incrementSlots (r + 1) slots := by
    rw [incrementSlots]; split_ifs <;> omega
  have hflat : (T.cderivFlat (fun i => D i) g vecs).fvalue =
      ∑ k, X (r, k) * C (s k) * (∑ I, C (D k (comp I)) * ∏ i : Fin r, X (i.1, I i)) := by
    simp only [Mlt.cderivFlat, Mlt.ofExpr, zip_finRange hlen, List.map_map]
    rw [← Fin.sum_univ_def]
    refine Finset.sum_congr rfl fun k _ => ?_
    simp only [Function.comp_apply]
    rw [hn, slotVec_dot hs (hu k).1 (hu k).2, hT.value, slotDiff_sum]
    simp only [slotDiff_C_mul_prod]
  have hstep : ∀ i < r, ∀ CD : SlotPoly K n,
      (if (slotAgrad g conn (fun i => D i) vecs (slotVec K n r) (slotVec K n i)).obj.isEmpty then CD
        else CD - T.call g rb (incrementSlots (r + 1) slots) (((List.range r).map (slotVec K n)).set i
          (slotAgrad g conn (fun i => D i) vecs (slotVec K n r) (slotVec K n i)))) =
      CD - C (recipFactor g ^ r) * ∑ I, C (comp I) * ∏ j : Fin r, Function.update (fun j l => X (j, l)) i
        (fun j => ∑ k, X (r, k) * C (s k) * ∑ l, C (Γ k j l) * X (i, l)) j (I j) := by
    intro i hi CD
    have hrep := slotAgrad_rep hs hc D hlen hu r i
    split_ifs with he
    · have h0 : (fun j => ∑ k, X (r, k) * C (s k) * ∑ l, C (Γ k j l) * X (i, l) :
          Fin n → SlotPoly K n) = 0 := by
        funext j
        have := coeff_of_den (isV_of_rep hrep) hrep.den j
        rw [List.isEmpty_iff.mp he] at this
        exact this.symm
      rw [h0, Finset.sum_eq_zero, mul_zero, sub_zero]
      intro I _
      rw [prod_update (fun j l => X (j, l)) ⟨i, hi⟩, Pi.zero_apply, zero_mul, mul_zero]
    · congr 1
      rw [set_range_map]
      refine hT.call_poly hs h ho hsl (by omega) fun j hj => ?_
      simp only [Function.update_apply]
      split_ifs with hji
      · exact hrep
      · exact Rep.vector (g := liftG g) fun l => X (j, l)
  have hfold : ∀ (l : List ℕ), (∀ i ∈ l, i < r) → ∀ CD : SlotPoly K n,
      l.foldl (fun CD i =>
        if (slotAgrad g conn (fun i => D i) vecs (slotVec K n r) (slotVec K n i)).obj.isEmpty then CD
        else CD - T.call g rb (incrementSlots (r + 1) slots) (((List.range r).map (slotVec K n)).set i
          (slotAgrad g conn (fun i => D i) vecs (slotVec K n r) (slotVec K n i)))) CD =
      CD - (l.map fun i : ℕ => C (recipFactor g ^ r) * ∑ I, C (comp I) *
          ∏ j : Fin r, Function.update (fun (j : ℕ) l => X (j, l)) i
        (fun j => ∑ k, X (r, k) * C (s k) * ∑ l, C (Γ k j l) * X (i, l)) j (I j)).sum := by
    intro l
    induction l with
    | nil => intro _ CD; simp
    | cons i l ih =>
      intro hl CD
      rw [List.foldl_cons, hstep i (hl i (by simp)), ih fun j hj => hl j (by simp [hj])]
      rw [List.map_cons, List.sum_cons]
      ring
  have h1 := hfold (List.range r) (fun i hi => List.mem_range.mp hi)
    (T.cderivFlat (fun i => D i) g vecs).fvalue
  rw [hflat] at h1
  have h2 : ∀ f : ℕ → SlotPoly K n, ((List.range r).map f).sum = ∑ i : Fin r, f i := fun f =>
    Finset.sum_range f
  rw [h2] at h1
  rw [← h1, ← hflat, Mlt.cderiv, hn]
  rfl

theorem Mlt.cderiv_fvalue (hs : g.IsSymm) (ho : isOrtho g = true)
    {conn : Option (Fin n → Fin n → Expr K n)}
    {Γ : Fin n → Matrix (Fin n) (Fin n) K} (hc : IsConnection g conn Γ) (D : Fin n → Derivation ℤ K K)
    {vecs : List (Mv K n)} (hlen : vecs.length = n) {s : Fin n → K} {u : Fin n → Fin n → K}
    (hu : ∀ k : Fin n, Rep g (vecs.getD k Mv.zero) (Spec.vec g (u k)) ∧
      ∀ i, Spec.ip g (Pi.single i 1) (u k) = if i = k then s k else 0)
    {rb : List (Mv K n)} (h : rBasisMv g = some rb) (slots : ℕ) {r : ℕ} {T : Mlt K n}
    {comp : (Fin r → Fin n) → K} (hT : T.IsTensor g comp) :
    (T.cderiv (fun i => D i) g conn vecs rb slots).fvalue =
      ∑ k, X (r, k) * C (s k) * (∑ I, C (D k (comp I)) * ∏ i : Fin r, X (i.1, I i)) -
      ∑ i : Fin r, ∑ I, C (comp I) * ∏ j : Fin r, Function.update (fun j l => X (j, l)) i.1
        (fun j => ∑ k, X (r, k) * C (s k) * ∑ l, C (Γ k j l) * X (i.1, l)) j (I j) := by
  rw [Mlt.cderiv_fvalue_factor hs hc D hlen hu h slots hT (.inl ho)]
  simp only [recipFactor_ortho ho, one_pow, C_1, one_mul]

end GA
