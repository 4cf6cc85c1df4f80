import Verif.Proofs.Mlt
import Verif.Proofs.Grad
import Verif.Props.C38

/-!
# C64: derivatives and contractions of multilinear functions

The claim, for the slot derivative and the contraction: `T.pdiff(k)` is the gradient of `T` by its `k`-th
argument and `T.contract(j, k)` is the contraction; calling them changes nothing else.  Both are false:
the code differentiates by the coordinates.
-/

set_option linter.unusedSectionVars false
set_option maxRecDepth 10000

namespace GA
open MvPolynomial
variable {n : ℕ} {K : Type*} [Field K] [DecidableEq K] [Invertible (2 : K)]
  {g : Matrix (Fin n) (Fin n) K}

theorem slotDiff_eq_zero {D : K → K} {p : SlotPoly K n} (h : ∀ m, D (p.coeff m) = 0) :
    slotDiff D p = 0 := by
  simp [slotDiff, h]

theorem mem_scalarMv {c : SlotPoly K n} {t : SlotPoly K n × Sym n}
    (ht : t ∈ (Mv.scalarMv c : Mv (SlotPoly K n) n).obj) : t.1 = c := by
  have h1 : t ∈ gatherE (scalarE c) := by
    simp only [Mv.scalarMv, Mv.ofExpr, expand] at ht
    exact List.mem_of_mem_filter ht
  have h2 : gatherE (scalarE c : Expr (SlotPoly K n) n) = [(c, .blade [])] := by
    simp [gatherE, scalarE, addTerm]
  rw [h2] at h1
  simp at h1
  rw [h1]

/-- The gradient of multivectors with constant coefficients. -/
theorem slotGrad_zero (hs : g.IsSymm) {D : Fin n → K → K} {vecs : List (Mv K n)}
    (hv : ∀ A ∈ vecs, A.WF g ∧ A.isBladeRep = true ∧ Spec.Homogeneous g 1 (A.val g))
    {op : Mv (SlotPoly K n) n → Mv (SlotPoly K n) n → Mv (SlotPoly K n) n}
    (hop : ∀ A x, Rep (liftG g) A x → Rep (liftG g) (op A (Mv.ofExpr [])) 0)
    {A : Mv (SlotPoly K n) n} (hA : ∀ t ∈ A.obj, ∀ i m, D i (t.1.coeff m) = 0)
    (hA' : Valid A.obj) :
    Rep (liftG g) (slotGrad D g vecs op A) 0 := by
  have h0 : ∀ i, expand (A.obj.map fun t => (slotDiff (D i) t.1, t.2)) = [] := by
    intro i
    have hv' : Valid (A.obj.map fun t => (slotDiff (D i) t.1, t.2)) := by
      intro t ht
      obtain ⟨t', h', rfl⟩ := List.mem_map.mp ht
      exact hA' t' h'
    rw [expand_eq_nil (g := liftG g) hv', den]
    rw [List.map_map]
    apply List.sum_eq_zero
    intro x hx
    obtain ⟨t, ht, rfl⟩ := List.mem_map.mp hx
    simp [slotDiff_eq_zero (hA t ht i)]
  rw [slotGrad]
  simp only [h0]
  have key : ∀ (l : List (Mv K n × Fin n)) (B : Mv (SlotPoly K n) n), (∀ p ∈ l, p.1 ∈ vecs) →
      Rep (liftG g) B 0 → Rep (liftG g) ((l.map fun p => op (liftMv p.1) (Mv.ofExpr [])).foldl
        (Mv.add (liftG g)) B) 0 := by
    intro l
    induction l with
    | nil => intro B _ hB; exact hB
    | cons p l ih =>
      intro B hl hB
      rw [List.map_cons, List.foldl_cons]
      refine ih _ (fun q hq => hl q (by simp [hq])) ?_
      obtain ⟨h1, h2, h3⟩ := hv p.1 (hl p (by simp))
      obtain ⟨u, hu⟩ := Spec.homogeneous_one h3
      have h4 := (Rep.lift_vec (⟨h1, h2, hu⟩ : Rep g p.1 (Spec.vec g u)))
      exact (hB.add (liftG_symm hs) (hop _ _ h4)).congr (by simp)
  refine key _ _ (fun p hp => (List.of_mem_zip hp).1) ?_
  exact (Rep.scalarMv 0).congr (by simp)

theorem rep_nil {R : Type*} [CommRing R] [DecidableEq R] [Invertible (2 : R)]
    {g : Matrix (Fin n) (Fin n) R} : Rep g (Mv.ofExpr [] : Mv R n) 0 := by
  have : Valid ([] : Expr R n) := by intro t ht; simp at ht
  exact (Rep.ofExpr this).congr (by simp [den])

/-- C64 is false for `pdiff`: it is zero for every multilinear function with constant components, in
every argument. -/
theorem C64_pdiff_counterexample (hs : g.IsSymm) {D : Fin n → K → K} {vecs : List (Mv K n)}
    (hv : ∀ A ∈ vecs, A.WF g ∧ A.isBladeRep = true ∧ Spec.Homogeneous g 1 (A.val g))
    {T : Mlt K n} (hT : ∀ i m, D i (T.fvalue.coeff m) = 0) :
    (T.pdiff D g vecs).val (liftG g) = 0 := by
  refine (slotGrad_zero hs hv (fun A x hA => ?_) ?_ ?_).val
  · exact (hA.mul (liftG_symm hs) rep_nil).congr (by simp)
  · intro t ht i m
    rw [mem_scalarMv ht, hT]
  · exact (Rep.scalarMv (g := liftG g) _).valid

/-- C64 is false for `contract`: it is zero for every multilinear function with constant components. -/
theorem C64_contract_counterexample (hs : g.IsSymm) {D : Fin n → K → K} {vecs : List (Mv K n)}
    (hv : ∀ A ∈ vecs, A.WF g ∧ A.isBladeRep = true ∧ Spec.Homogeneous g 1 (A.val g))
    {T : Mlt K n} (hT : ∀ i m, D i (T.fvalue.coeff m) = 0) (slot1 slot2 : ℕ) :
    (T.contract D g vecs slot1 slot2).fvalue = 0 ∧
      (T.contract D g vecs slot1 slot2).nargs = T.nargs - 2 := by
  refine ⟨?_, rfl⟩
  have h1 : Rep (liftG g) (slotGrad D g vecs (Mv.mul (liftG g)) (Mv.scalarMv T.fvalue)) 0 :=
    slotGrad_zero hs hv (fun A x hA => (hA.mul (liftG_symm hs) rep_nil).congr (by simp))
      (fun t ht i m => by rw [mem_scalarMv ht, hT]) (Rep.scalarMv (g := liftG g) _).valid
  have h2 : (slotGrad D g vecs (Mv.mul (liftG g)) (Mv.scalarMv T.fvalue)).obj = [] :=
    (val_eq_zero h1.wf).mp h1.val
  have h3 : Rep (liftG g) (slotGrad D g vecs (Mv.dot (liftG g)) (Mv.ofExpr [])) 0 :=
    slotGrad_zero hs hv (fun A x hA => (hA.dot (liftG_symm hs) rep_nil).congr (by
      simp [Spec.hestenesDot, Spec.gradedProduct]
      exact Finset.sum_eq_zero fun a _ => Finset.sum_eq_zero fun b _ => by split_ifs <;> rfl))
      (fun t ht i m => by simp [Mv.ofExpr, expand, gatherE] at ht) (rep_nil (g := liftG g)).valid
  have h4 : (slotGrad D g vecs (Mv.dot (liftG g)) (Mv.ofExpr [])).scalar = 0 :=
    h3.scalar_of (by simp)
  simp only [Mlt.contract, Mlt.ofExpr, h2, List.map_nil, h4]
  have h5 : ∀ l : List ℕ, l.foldl (fun p islot => rename (fun ik : ℕ × Fin n =>
      if ik.1 = islot then (islot - 1, ik.2) else ik) p) (0 : SlotPoly K n) = 0 := by
    intro l
    induction l with
    | nil => rfl
    | cons a l ih => rw [List.foldl_cons, map_zero, ih]
  rw [removeSlot]
  exact h5 _

/-- C64: `remove_slot` moves every argument after the removed slot one place to the left: the function that
is left takes its arguments in the same order, without the removed one. -/
theorem C64_remove_slot {slot nargs : ℕ} {p : SlotPoly K n} (hp : ∀ ik ∈ p.vars, ik.1 < nargs)
    (v : ℕ → Fin n → K) :
    eval (fun ik => v ik.1 ik.2) (removeSlot slot nargs p) =
      eval (fun ik => if ik.1 < slot then v ik.1 ik.2 else v (ik.1 - 1) ik.2) p := by
  have key : ∀ (k s : ℕ) (p : SlotPoly K n), (List.range' s k).foldl (fun p islot =>
      rename (fun ik : ℕ × Fin n => if ik.1 = islot then (islot - 1, ik.2) else ik) p) p =
      rename (fun ik : ℕ × Fin n => if s ≤ ik.1 ∧ ik.1 < s + k then (ik.1 - 1, ik.2) else ik) p := by
    intro k
    induction k with
    | zero =>
      intro s p
      have : (fun ik : ℕ × Fin n => if s ≤ ik.1 ∧ ik.1 < s + 0 then (ik.1 - 1, ik.2) else ik) = id := by
        funext ik; rw [if_neg (by omega)]; rfl
      rw [this, rename_id]
      rfl
    | succ k ih =>
      intro s p
      rw [List.range'_succ, List.foldl_cons, ih, rename_rename]
      congr 2
      funext ik
      simp only [Function.comp_apply]
      by_cases h : ik.1 = s
      · rw [if_pos h, if_neg (by dsimp only; omega), if_pos (by omega), h]
      · rw [if_neg h]
        by_cases h' : s + 1 ≤ ik.1 ∧ ik.1 < s + 1 + k
        · rw [if_pos h', if_pos (by omega)]
        · rw [if_neg h', if_neg (by omega)]
  rw [removeSlot, key, eval_rename]
  refine eval₂Hom_congr' rfl (fun ik hik _ => ?_) rfl
  have := hp ik hik
  simp only [Function.comp_apply]
  by_cases h : ik.1 < slot
  · rw [if_neg (by omega), if_pos h]
  · rw [if_pos (by omega), if_neg h]

/-- The arguments of `a_0 b_1 + 3 c_2` without the second one. -/
example (v : ℕ → Fin 2 → Ex.Fun 2) :
    eval (fun ik => v ik.1 ik.2) (removeSlot 2 3 (X (0, 0) + 3 * X (2, 1) : SlotPoly (Ex.Fun 2) 2)) =
      v 0 0 + 3 * v 1 1 := by
  rw [C64_remove_slot]
  · simp
  · intro ik hik
    have h := vars_add_subset _ _ hik
    rw [Finset.mem_union] at h
    rcases h with h | h
    · rw [vars_X, Finset.mem_singleton] at h; subst h; decide
    · have h := vars_mul _ _ h
      rw [Finset.mem_union] at h
      rcases h with h | h
      · have e : (3 : SlotPoly (Ex.Fun 2) 2) = C 3 := (map_ofNat C 3).symm
        rw [e, vars_C] at h; simp at h
      · rw [vars_X, Finset.mem_singleton] at h; subst h; decide

/-! ### The covariant derivative without connection -/

theorem eval_slotDiff (D : Derivation ℤ K K) (p : SlotPoly K n) {v : ℕ × Fin n → K}
    (hv : ∀ ik, D (v ik) = 0) : eval v (slotDiff D p) = D (eval v p) := by
  rw [slotDiff, map_sum, eval_eq, map_sum]
  refine Finset.sum_congr rfl fun m _ => ?_
  have h0 : D (∏ i ∈ m.support, v i ^ m i) = 0 := by
    induction m.support using Finset.induction_on with
    | empty => simp
    | insert a s ha ih => rw [Finset.prod_insert ha, Derivation.leibniz, ih, Derivation.leibniz_pow, hv]; simp
  rw [Derivation.leibniz, h0, smul_zero, zero_add, eval_monomial, smul_eq_mul, mul_comm]
  rfl

/-- C64, the covariant derivative in an algebra without connection: `T.cderiv()` has one more argument
`w`, and is the derivative of `T` in the direction `w` when the other arguments are constant. -/
theorem C64_cderiv_partial (hs : g.IsSymm) (D : Fin n → Derivation ℤ K K) {vecs : List (Mv K n)}
    (hl : gradVecs g none = some vecs) {T : Mlt K n} {F : (ℕ → Fin n → K) → K} (hT : T.Means F)
    {v : ℕ → Fin n → K} (hv : ∀ i < T.nargs, ∀ j k, D k (v i j) = 0) :
    (T.cderivFlat (fun i => D i) g vecs).nargs = T.nargs + 1 ∧
    eval (fun ik => v ik.1 ik.2) (T.cderivFlat (fun i => D i) g vecs).fvalue =
      ∑ k, v T.nargs k * D k (F v) := by
  refine ⟨rfl, ?_⟩
  obtain ⟨hlen, -, u, hu⟩ := gradVecs_rep hs (by simp) hl
  have hcm : currentMetric none g = g := rfl
  rw [hcm] at hu
  have hz : vecs.zip (List.finRange n) =
      (List.finRange n).map fun k : Fin n => (vecs.getD k Mv.zero, k) := by
    apply List.ext_getElem
    · simp [hlen]
    · intro i h1 h2
      simp at h1 h2
      simp [List.getD_eq_getElem?_getD, h1]
  have hw : eval (fun ik => v ik.1 ik.2) (T.cderivFlat (fun i => D i) g vecs).fvalue =
      ∑ k, v T.nargs k * eval (fun ik => v ik.1 ik.2) (slotDiff (D k) T.fvalue) := by
    simp only [Mlt.cderivFlat, Mlt.ofExpr, hz, List.map_map]
    rw [← Fin.sum_univ_def, map_sum]
    refine Finset.sum_congr rfl fun k _ => ?_
    simp only [Function.comp_apply, map_mul]
    refine congrArg₂ (· * ·) ?_ rfl
    have hd := dot_scalar (liftG_symm hs)
      (Rep.vector (g := liftG g) fun k => (X (T.nargs, k) : SlotPoly K n)) (hu k).1.lift_vec
    rw [slotVec, hd]
    simp only [map_sum, map_mul, eval_X, eval_C, liftG, Matrix.of_apply]
    have h2 : ∀ i, ∑ j, g i j * u k j = if i = k then 1 else 0 := by
      intro i
      have h3 := (hu k).2 i
      rw [Spec.ip_single hs] at h3
      simpa [scaleOf] using h3
    rw [Finset.sum_eq_single k]
    · rw [← mul_one (v T.nargs k)]
      conv_rhs => rw [← (if_pos rfl : (if k = k then (1 : K) else 0) = 1), ← h2 k, Finset.mul_sum]
      exact Finset.sum_congr rfl fun j _ => by ring
    · intro i _ hi
      have := h2 i
      rw [if_neg hi] at this
      rw [← mul_zero (v T.nargs i), ← this, Finset.mul_sum]
      exact Finset.sum_congr rfl fun j _ => by ring
    · simp
  rw [hw]
  refine Finset.sum_congr rfl fun k _ => ?_
  congr 1
  -- the last argument does not occur in `T`
  have hc : F v = F fun i => if i < T.nargs then v i else 0 := hT.congr fun i hi => by simp [hi]
  have hsup : ∀ ik ∈ (slotDiff (D k) T.fvalue).vars, ik.1 < T.nargs := by
    rw [mem_supported_slots, slotDiff]
    refine sum_mem fun m hm => ?_
    rw [mem_supported]
    intro ik hik
    refine hT.slots ik ?_
    have h1 : ik ∈ m.support := by
      by_cases h0 : D k (MvPolynomial.coeff m T.fvalue) = 0
      · simp [h0] at hik
      · simpa [vars_monomial h0] using hik
    exact mem_vars_iff_mem_support ik |>.mpr ⟨m, hm, h1⟩
  have he : eval (fun ik => v ik.1 ik.2) (slotDiff (D k) T.fvalue) =
      eval (fun ik => (if ik.1 < T.nargs then v ik.1 else 0) ik.2) (slotDiff (D k) T.fvalue) :=
    eval₂Hom_congr' rfl (fun ik hik _ => by rw [if_pos (hsup ik hik)]) rfl
  rw [he, eval_slotDiff, hc, ← hT.value]
  intro ik
  split_ifs with hi
  · exact hv ik.1 hi ik.2 k
  · simp

/-! ### The attribute `dslot` -/

/-- C64: as long as no slot derivative or contraction is taken, the derivatives of multivectors use the
connection, whatever else happens. -/
theorem C64_history_partial (g : Matrix (Fin n) (Fin n) K) (conn : Option (Fin n → Fin n → Expr K n))
    (D : K → K) (i : Option (Fin n)) (A : Mv K n) {h : List MltEvent} (hh : ∀ e ∈ h, e = .other) :
    A.pDiff g (connAt (dslotAfter h) conn) D i = A.pDiff g conn D i := by
  have : dslotAfter h = -1 := by
    rw [dslotAfter]
    generalize (-1 : ℤ) = d
    induction h with
    | nil => rfl
    | cons e h ih =>
      obtain rfl := hh e (by simp)
      exact ih fun e he => hh e (by simp [he])
  rw [this]
  rfl

/-- C64 is false: after one slot derivative or contraction, the derivatives of all multivectors of the
algebra leave the connection out. -/
theorem C64_history_counterexample (g : Matrix (Fin n) (Fin n) K)
    (conn : Option (Fin n → Fin n → Expr K n)) (D : K → K) (i : Option (Fin n)) (A : Mv K n)
    (h : List MltEvent) {e : MltEvent} (h' : List MltEvent)
    (he : (∃ s : ℤ, 1 ≤ s ∧ e = .pdiff s) ∨ ∃ s t : ℤ, 1 ≤ s ∧ 1 ≤ t ∧ s ≠ t ∧ e = .contract s t)
    (hh : ∀ e ∈ h', e = .other) :
    A.pDiff g (connAt (dslotAfter (h ++ e :: h')) conn) D i = A.pDiff g none D i := by
  have h1 : ∀ d : ℤ, h'.foldl dslotStep d = d := by
    intro d
    induction h' generalizing d with
    | nil => rfl
    | cons e h' ih =>
      obtain rfl := hh e (by simp)
      exact ih (fun e he => hh e (by simp [he])) d
  have : dslotAfter (h ++ e :: h') ≠ -1 := by
    rw [dslotAfter, List.foldl_append, List.foldl_cons, h1]
    rcases he with ⟨s, hs, rfl⟩ | ⟨s, t, hs, ht, hst, rfl⟩
    · simp only [dslotStep]; omega
    · simp only [dslotStep]; omega
  rw [connAt, if_neg this]

/-! ### Non-vacuity -/

theorem Ex.gradVecs_ok {g : Matrix (Fin n) (Fin n) K} (hs : g.IsSymm) {l : List (Mv K n)}
    (hl : gradVecs g none = some l) :
    ∀ A ∈ l, A.WF g ∧ A.isBladeRep = true ∧ Spec.Homogeneous g 1 (A.val g) := by
  obtain ⟨hlen, -, u, hu⟩ := gradVecs_rep hs (by simp) hl
  have hcm : currentMetric none g = g := rfl
  rw [hcm] at hu
  intro A hA
  obtain ⟨i, hi, rfl⟩ := List.getElem_of_mem hA
  have h := (hu ⟨i, by omega⟩).1
  simp only [List.getD_eq_getElem?_getD, List.getElem?_eq_getElem hi, Option.getD_some] at h
  exact ⟨h.wf, h.flag, by rw [h.val]; exact Spec.homogeneous_vec _⟩

/-- The hypotheses of `C64_pdiff_counterexample` hold for `T(a) = e_0 | a` in an algebra whose scalars are
rational functions; the gradient of `T` by `a` is `e_0`, which is not zero. -/
example : ∃ (l : List (Mv (Ex.Fun 2) 2)), gradVecs 1 none = some l ∧
    ((Mlt.ofVector 1 (Mv.vector (Pi.single 0 1) : Mv (Ex.Fun 2) 2)).pdiff
      (fun i => Ex.partialD i) 1 l).val (liftG 1) = 0 ∧
    (Mv.vector (Pi.single 0 1) : Mv (Ex.Fun 2) 2).val 1 ≠ 0 := by
  have hs : (1 : Matrix (Fin 2) (Fin 2) (Ex.Fun 2)).IsSymm := Matrix.isSymm_one
  obtain ⟨l, hl⟩ := Option.isSome_iff_exists.mp
    (C60_exists (N := none) hs (by simp) (by simp) (by simp))
  refine ⟨l, hl, C64_pdiff_counterexample hs (Ex.gradVecs_ok hs hl) ?_, ?_⟩
  · intro i m
    have hd := dot_scalar (liftG_symm hs)
      (Rep.vector (g := (1 : Matrix (Fin 2) (Fin 2) (Ex.Fun 2))) (Pi.single 0 1)).lift_vec
      (Rep.vector (g := liftG 1) fun k => (X (0, k) : SlotPoly (Ex.Fun 2) 2))
    have hv : (Mlt.ofVector 1 (Mv.vector (Pi.single 0 1) : Mv (Ex.Fun 2) 2)).fvalue = X (0, 0) := by
      refine Eq.trans hd ?_
      simp [liftG, Fin.sum_univ_two]
    rw [hv, coeff_X]
    split_ifs <;> simp
  · intro h
    have h1 := (Rep.vector (g := (1 : Matrix (Fin 2) (Fin 2) (Ex.Fun 2))) (Pi.single 0 1)).val
    rw [h] at h1
    have h2 := congrArg (Spec.toExt 1) h1
    rw [map_zero, Spec.toExt_vec] at h2
    have h3 := ExteriorAlgebra.ι_eq_zero_iff (R := Ex.Fun 2) _ |>.mp h2.symm
    have := congrFun h3 0
    simp at this

end GA
