import Verif.Spec.Mlt
import Verif.Props.C21
import Verif.Proofs.Lt
import Mathlib.Algebra.MvPolynomial.Supported

/-! Multilinear functions. -/

set_option linter.unusedSectionVars false

namespace GA
open MvPolynomial
variable {n : ℕ} {K : Type*} [Field K] [DecidableEq K] [Invertible (2 : K)]
  {g : Matrix (Fin n) (Fin n) K}

theorem liftG_symm (hs : g.IsSymm) : (liftG g).IsSymm := by
  ext i j
  simp only [liftG, Matrix.transpose_apply, Matrix.of_apply, hs.apply i j]

theorem coeff_lift (E : Expr K n) (l : List (Fin n)) :
    GA.coeff (E.map fun t => ((C t.1 : SlotPoly K n), t.2)) l = C (GA.coeff E l) := by
  induction E with
  | nil => simp [GA.coeff]
  | cons t E ih =>
    simp only [GA.coeff, List.map_cons, List.sum_cons, List.map_map] at ih ⊢
    rw [ih, C_add]
    congr 1
    split_ifs <;> simp

theorem allSyms_lift {P : Sym n → Prop} {E : Expr K n} (h : AllSyms P E) :
    AllSyms P (E.map fun t => ((C t.1 : SlotPoly K n), t.2)) := by
  intro t ht
  obtain ⟨t', h', rfl⟩ := List.mem_map.mp ht
  exact h t' h'

theorem isV_of_rep {R : Type*} [CommRing R] [DecidableEq R] [Invertible (2 : R)]
    {g : Matrix (Fin n) (Fin n) R} {A : Mv R n} {u : Fin n → R} (h : Rep g A (Spec.vec g u)) :
    AllSyms IsV A.obj := by
  have h2 := canon_bl_len (g := g) h.wf.canon h.valid (k := 1) (by
    intro r hr
    rw [h.den]
    exact Spec.homogeneous_vec u r hr)
  intro t ht
  obtain ⟨l, hl, hlt⟩ := h.valid t ht
  have := h2 t ht
  rw [hl] at this
  obtain ⟨j, rfl⟩ := List.length_eq_one_iff.mp (this : l.length = 1)
  exact ⟨j, hl⟩

/-- A vector among multivectors with slot symbols. -/
theorem Rep.lift_vec {A : Mv K n} {u : Fin n → K} (h : Rep g A (Spec.vec g u)) :
    Rep (liftG g) (liftMv A) (Spec.vec (liftG g) fun k => C (u k)) := by
  have hv := isV_of_rep h
  have hv' : AllSyms IsV (liftMv A).obj := allSyms_lift hv
  have hc : Canon (liftMv A).obj := by
    refine ⟨?_, ?_⟩
    · have := h.wf.canon.1
      simpa only [liftMv, List.map_map, Function.comp_def] using this
    · intro t ht
      obtain ⟨t', h', rfl⟩ := List.mem_map.mp ht
      exact fun h0 => h.wf.canon.2 t' h' (C_eq_zero.mp h0)
  have hval : Valid (liftMv A).obj := Valid.of (hv'.mono fun _ hs => hs.isBl)
  have hf : (liftMv A).isBladeRep = true := h.flag
  refine ⟨wf_of_valid hc hval (Or.inl hf), hf, ?_⟩
  rw [Mv.val, den_isV hv']
  congr 1
  funext j
  rw [liftMv, coeff_lift, coeff_of_den hv h.den]

/-- The inner product of two vectors is the scalar that the metric gives. -/
theorem dot_scalar {R : Type*} [CommRing R] [DecidableEq R] [Nontrivial R] [Invertible (2 : R)]
    {g : Matrix (Fin n) (Fin n) R} (hs : g.IsSymm) {A B : Mv R n} {u v : Fin n → R}
    (hA : Rep g A (Spec.vec g u)) (hB : Rep g B (Spec.vec g v)) :
    (A.dot g B).scalar = ∑ i, ∑ j, g i j * u i * v j := by
  refine (hA.dot hs hB).scalar_of ?_
  rw [Spec.hestenesDot_vec_ip, grade_zero_algebraMap, Spec.ip, Spec.associated_vec hs]

/-- The inner product with a reciprocal vector. -/
theorem recip_dot (hs : g.IsSymm) {rb : List (Mv K n)} (h : rBasisMv g = some rb) (k : Fin n)
    {A : Mv (SlotPoly K n) n} {w : Fin n → SlotPoly K n} (hA : Rep (liftG g) A (Spec.vec (liftG g) w)) :
    ((liftMv (rb.getD k Mv.zero)).dot (liftG g) A).scalar = C (recipFactor g) * w k := by
  obtain ⟨-, h2⟩ := rBasisMv_rep hs h
  obtain ⟨u, hu, hip⟩ := h2 k
  rw [dot_scalar (liftG_symm hs) hu.lift_vec hA, Finset.sum_comm, Finset.sum_eq_single k]
  · have h3 := hip k
    rw [Spec.ip_single hs, if_pos rfl] at h3
    rw [← h3, map_sum, Finset.sum_mul]
    refine Finset.sum_congr rfl fun i _ => ?_
    rw [liftG, Matrix.of_apply, C_mul, ← hs.apply k i]
  · intro j _ hj
    have h3 := hip j
    rw [Spec.ip_single hs, if_neg hj] at h3
    rw [← Finset.sum_mul]
    have h4 : ∑ i, liftG g i j * C (u i) = (C (∑ i, g j i * u i) : SlotPoly K n) := by
      rw [map_sum]
      refine Finset.sum_congr rfl fun i _ => ?_
      rw [liftG, Matrix.of_apply, C_mul, ← hs.apply j i]
    rw [h4, h3, C_0, zero_mul]
  · simp

/-- Calls with vectors, for every metric. -/
theorem Mlt.call_none (hs : g.IsSymm) {rb : List (Mv K n)} (h : rBasisMv g = some rb) {slots r : ℕ}
    {T : Mlt K n} (hf : T.f = none) (hr : r ≤ slots) (hT : ∀ ik ∈ T.fvalue.vars, ik.1 < r)
    (w : ℕ → Fin n → SlotPoly K n) :
    T.call g rb slots ((List.range r).map fun i => Mv.vector (w i)) =
      bind₁ (fun ik => C (recipFactor g) * w ik.1 ik.2) T.fvalue := by
  have h1 : ∀ f g : ℕ × Fin n → SlotPoly K n, (∀ ik ∈ T.fvalue.vars, f ik = g ik) →
      bind₁ f T.fvalue = bind₁ g T.fvalue := fun f g hfg =>
    eval₂Hom_congr' rfl (fun i hi _ => hfg i hi) rfl
  rw [Mlt.call, List.length_map, List.length_range]
  split_ifs with h0
  · have h2 := h1 (fun ik => C (recipFactor g) * w ik.1 ik.2) X
      (fun ik hik => by have := hT ik hik; omega)
    rw [h2]
    simp
  · rw [hf]
    refine h1 _ _ fun ik hik => ?_
    have h3 := hT ik hik
    rw [if_pos ⟨h3, by omega⟩]
    refine recip_dot hs h ik.2 ?_
    rw [List.getD_eq_getElem?_getD, List.getElem?_map, List.getElem?_range h3]
    exact Rep.vector _

theorem recipFactor_ortho (ho : isOrtho g = true) : recipFactor g = 1 := by
  rw [recipFactor, if_pos ho]

theorem Mlt.Means.call_poly (hs : g.IsSymm) (ho : isOrtho g = true) {rb : List (Mv K n)}
    (h : rBasisMv g = some rb) {slots : ℕ} {T : Mlt K n} {F : (ℕ → Fin n → K) → K} (hT : T.Means F)
    (hr : T.nargs ≤ slots) (w : ℕ → Fin n → SlotPoly K n) :
    T.call g rb slots ((List.range T.nargs).map fun i => Mv.vector (w i)) =
      bind₁ (fun ik => w ik.1 ik.2) T.fvalue := by
  cases hf : T.f with
  | none =>
    rw [Mlt.call_none hs h hf hr hT.slots, recipFactor_ortho ho]
    simp
  | some f =>
    rw [Mlt.call, List.length_map, List.length_range]
    split_ifs with h0
    · have h2 : bind₁ (fun ik => w ik.1 ik.2) T.fvalue = bind₁ X T.fvalue :=
        eval₂Hom_congr' rfl (fun ik hik _ => by have := hT.slots ik hik; omega) rfl
      rw [h2]
      simp
    · rw [hf]
      exact hT.function f hf w

theorem bind_C (v : ℕ → Fin n → K) (p : SlotPoly K n) :
    bind₁ (fun ik => C (v ik.1 ik.2)) p = (C (eval (fun ik => v ik.1 ik.2) p) : SlotPoly K n) := by
  induction p using MvPolynomial.induction_on with
  | C a => simp
  | add p q hp hq => simp [hp, hq]
  | mul_X p i hp => simp [hp]

theorem eval_bind (v : ℕ × Fin n → K) (w : ℕ × Fin n → SlotPoly K n) (p : SlotPoly K n) :
    eval v (bind₁ w p) = eval (fun ik => eval v (w ik)) p := eval₂Hom_bind₁ _ _ _ _

/-! ### Linear transformations -/

theorem liftLt_get? (L : Lt K n) (s : Sym n) :
    Dict.get? (liftLt L) s = (Dict.get? L s).map fun E => E.map fun t => ((C t.1 : SlotPoly K n), t.2) := by
  rw [liftLt]
  induction L with
  | nil => rfl
  | cons p L ih =>
    obtain ⟨k, v⟩ := p
    simp only [List.map_cons, Dict.get?] at ih ⊢
    split_ifs
    · rfl
    · exact ih

theorem liftLt_wf {L : Lt K n} (hL : L.WF) : (liftLt L).WF := by
  refine ⟨fun i => ?_, fun p hp => ?_, ?_⟩
  · obtain ⟨E, hE⟩ := hL.total i
    exact ⟨_, by rw [liftLt_get?, hE]; rfl⟩
  · obtain ⟨q, hq, rfl⟩ := List.mem_map.mp hp
    obtain ⟨h1, h2, h3⟩ := hL.vals q hq
    have h2' : AllSyms IsV q.2 := h2
    have h2'' := allSyms_lift h2'
    refine ⟨h1, h2'', ?_⟩
    rcases h3 with h3 | h3
    · left; simp [h3]
    · right
      have hv : Valid q.2 := Valid.of (h2'.mono fun _ hs => hs.isBl)
      have hv' := Valid.of (h2''.mono fun _ hs => hs.isBl)
      rw [Ne, expand_eq_nil (g := (0 : Matrix (Fin n) (Fin n) K)) hv] at h3
      rw [Ne, expand_eq_nil (g := (0 : Matrix (Fin n) (Fin n) (SlotPoly K n))) hv']
      intro h4
      apply h3
      rw [show (0 : Spec.Cl (0 : Matrix (Fin n) (Fin n) (SlotPoly K n))) = Spec.vec _ 0 by
        simp [Spec.vec]] at h4
      rw [den_isV h2']
      have : (fun j => GA.coeff q.2 [j]) = 0 := by
        funext j
        have h5 := coeff_of_den h2'' h4 j
        rw [coeff_lift] at h5
        exact C_eq_zero.mp h5
      rw [this]
      simp [Spec.vec]
  · simpa only [liftLt, List.map_map, Function.comp_def] using hL.nodup

theorem liftLt_mat {L : Lt K n} (hL : L.WF) (i j : Fin n) : (liftLt L).mat i j = C (L.mat i j) := by
  obtain ⟨E, hE⟩ := hL.total j
  simp only [Lt.mat, Matrix.of_apply]
  rw [liftLt_get?, hE]
  exact coeff_lift E [i]

/-! ### Sums over index tuples -/

theorem itProduct_map {α β : Type*} {ι : Type*} (f : ι → α → β) (l : List α) (L : List ι) :
    itProduct (L.map fun i => l.map (f i)) =
      (itProduct (List.replicate L.length l)).map fun I => List.zipWith f L I := by
  induction L with
  | nil => rfl
  | cons i L ih =>
    rw [List.map_cons, itProduct, List.length_cons, List.replicate_succ, itProduct, ih, List.flatMap_map,
      List.map_flatMap]
    congr 1
    funext a
    simp only [List.map_map]
    rfl

theorem sum_itProduct {M : Type*} [AddCommMonoid M] (r : ℕ) (F : List (Fin n) → M) :
    ((itProduct (List.replicate r (List.finRange n))).map F).sum =
      ∑ I : Fin r → Fin n, F (List.ofFn I) := by
  induction r generalizing F with
  | zero => simp [itProduct]
  | succ r ih =>
    rw [List.replicate_succ, itProduct, List.map_flatMap]
    have h1 : ∀ l : List (Fin n), (l.flatMap fun x =>
        ((itProduct (List.replicate r (List.finRange n))).map (x :: ·)).map F).sum =
        (l.map fun x => ∑ I : Fin r → Fin n, F (x :: List.ofFn I)).sum := by
      intro l
      induction l with
      | nil => rfl
      | cons x l ihl =>
        rw [List.flatMap_cons, List.sum_append, ihl, List.map_cons, List.sum_cons, List.map_map]
        congr 1
        exact ih _
    rw [h1, ← Fin.sum_univ_def, ← (Fin.consEquiv fun _ => Fin n).sum_comp, Fintype.sum_prod_type]
    refine Finset.sum_congr rfl fun x _ => Finset.sum_congr rfl fun I _ => ?_
    congr 1
    simp [Fin.consEquiv, List.ofFn_succ]

theorem zipWith_range_ofFn {α β : Type*} {r : ℕ} (f : ℕ → α → β) (I : Fin r → α) :
    List.zipWith f (List.range r) (List.ofFn I) = List.ofFn fun i : Fin r => f i (I i) := by
  apply List.ext_getElem <;> simp

theorem foldl_sum_map {α M : Type*} [AddCommMonoid M] (F : α → M) (l : List α) (a : M) :
    l.foldl (fun v p => v + F p) a = a + (l.map F).sum := by
  induction l generalizing a with
  | nil => simp
  | cons x l ih => rw [List.foldl_cons, ih, List.map_cons, List.sum_cons, add_assoc]

theorem foldl_prod_map {M : Type*} [CommMonoid M] (l : List M) (a : M) :
    l.foldl (· * ·) a = a * l.prod := by
  induction l generalizing a with
  | nil => simp
  | cons x l ih => rw [List.foldl_cons, ih, List.prod_cons, mul_assoc]

theorem zip_map_self_right {α β : Type*} (l : List α) (f : α → β) :
    l.zip (l.map f) = l.map fun x => (x, f x) := by
  induction l with
  | nil => rfl
  | cons x l ih => simp [ih]

/-- The value of a generic multilinear function when no other multilinear function has more
arguments. -/
theorem ofString_fvalue (comp : List (Fin n) → K) {r slots : ℕ} (h : slots ≤ r) :
    (Mlt.ofString comp r slots).fvalue =
      ∑ I : Fin r → Fin n, C (comp (List.ofFn I)) * ∏ i : Fin r, (X ((i : ℕ), I i) : SlotPoly K n) := by
  have hsl : incrementSlots r slots = r := by
    rw [incrementSlots]; split_ifs <;> omega
  simp only [Mlt.ofString, hsl]
  rw [itProduct_map (fun i k => (X (i, k) : SlotPoly K n)), List.length_range, zip_map_self_right,
    foldl_sum_map, zero_add, List.map_map, sum_itProduct]
  refine Finset.sum_congr rfl fun I _ => ?_
  simp only [Function.comp_apply]
  rw [zipWith_range_ofFn, foldl_prod_map, List.prod_ofFn]

/-! ### Slots -/

theorem mem_supported_slots {p : SlotPoly K n} {r : ℕ} :
    (∀ ik ∈ p.vars, ik.1 < r) ↔ p ∈ supported K {ik : ℕ × Fin n | ik.1 < r} := by
  rw [mem_supported]
  exact Iff.rfl

theorem supported_slots_mono {p : SlotPoly K n} {r s : ℕ} (h : r ≤ s)
    (hp : p ∈ supported K {ik : ℕ × Fin n | ik.1 < r}) :
    p ∈ supported K {ik : ℕ × Fin n | ik.1 < s} :=
  supported_mono (fun _ hi => lt_of_lt_of_le hi h) hp

theorem supported_bind {p : SlotPoly K n} {w : ℕ × Fin n → SlotPoly K n} {r : ℕ}
    (hw : ∀ ik ∈ p.vars, w ik ∈ supported K {ik : ℕ × Fin n | ik.1 < r}) :
    bind₁ w p ∈ supported K {ik : ℕ × Fin n | ik.1 < r} := by
  rw [mem_supported]
  intro x hx
  have h1 := vars_bind₁ w p hx
  obtain ⟨ik, hik, hx'⟩ := Finset.mem_biUnion.mp h1
  exact mem_supported.mp (hw ik hik) hx'

/-- A multilinear function does not depend on other arguments. -/
theorem Mlt.Means.congr {T : Mlt K n} {F : (ℕ → Fin n → K) → K} (hT : T.Means F)
    {v w : ℕ → Fin n → K} (h : ∀ i < T.nargs, v i = w i) : F v = F w := by
  rw [← hT.value, ← hT.value]
  exact eval₂Hom_congr' rfl (fun ik hik _ => by rw [h ik.1 (hT.slots ik hik)]) rfl

theorem take_slots {slots r : ℕ} (h : r ≤ slots) :
    ((List.range slots).map (slotVec K n)).take r = (List.range r).map (slotVec K n) := by
  rw [← List.map_take, List.take_range, min_eq_left h]

theorem drop_slots {slots r s : ℕ} (h : r + s ≤ slots) :
    (((List.range slots).map (slotVec K n)).take (r + s)).drop r =
      (List.range s).map fun i => slotVec K n (r + i) := by
  rw [take_slots h]
  apply List.ext_getElem <;> simp

end GA
