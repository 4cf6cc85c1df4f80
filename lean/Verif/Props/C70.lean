import Verif.Proofs.MvDeriv
import Verif.Props.C60
import Verif.Proofs.RatFun
import Verif.Proofs.Examples

/-!
# C70: derivatives with respect to a multivector, `Ga.make_grad`

`SymbolFields X D val` (Spec/MvDeriv.lean) says that the metric tensor is constant and that `D v` is the
derivative by the symbol `v`.  `symbolMv val (vectorTerms s)` is the vector whose coefficients are the
distinct symbols `s 0, ..., s (n-1)`, and `symbolMv val (bladeTerms s L)` the multivector with a symbol for
every basis blade in `L`.  `A.Const X v` says that `A` does not depend on the symbol `v`.
-/

set_option linter.unusedSectionVars false
set_option maxRecDepth 10000

namespace GA
variable {n : ℕ} {V : Type*} [DecidableEq V] {K : Type*} [Field K] [DecidableEq K] [Invertible (2 : K)]
  {X : Fields V K n} {D : V → Derivation ℤ K K} {val : V → K}

/-- C70: the operator exists for every list of symbols and basis blades. -/
theorem C70_exists {g : Matrix (Fin n) (Fin n) K} (hs : g.IsSymm) (hd : g.det ≠ 0)
    (terms : List (V × List (Fin n))) (cmpflg : Bool) :
    (makeGrad g (terms.map fun t => (t.1, .blade t.2)) cmpflg).isSome = true := by
  rw [makeGrad, Option.isSome_map]
  refine mapM_some _ _ fun t ht => ?_
  obtain ⟨u, -, rfl⟩ := List.mem_map.mp ht
  rw [Option.isSome_map]
  exact reciprocalBlade_isSome hs hd u.2

theorem symbolMv_vector (s : Fin n → V) {g : Matrix (Fin n) (Fin n) K} :
    Rep g (symbolMv val (vectorTerms s)) (Spec.vec g fun i => val (s i)) := by
  have := Rep.vector (g := g) fun i => val (s i)
  rw [Mv.vector, vecE] at this
  rw [symbolMv, vectorTerms, List.map_map]
  exact this

theorem deriv_symbolVec (h : SymbolFields X D val) {s : Fin n → V} (hinj : Function.Injective s) (k : Fin n) :
    Spec.deriv X.g (D (s k)) 0 (Spec.vec X.g fun i => val (s i)) = Spec.vec X.g (Pi.single k 1) := by
  rw [Spec.deriv_vec]
  congr 1
  funext j
  simp [Spec.dvec, h.val, hinj.eq_iff, Pi.single_apply, eq_comm]

/-- The action of the derivative by a vector. -/
theorem vectorGrad_spec (h : SymbolFields X D val) (hd : X.g.det ≠ 0) (s : Fin n → V) (cmpflg : Bool) :
    ∃ u : Fin n → Fin n → K, (∀ i j, Spec.ip X.g (Pi.single i 1) (u j) = if i = j then 1 else 0) ∧
    ∃ d, makeGrad X.g (vectorTerms s) cmpflg = some d ∧
      ∀ op {F : Mv K n} {x : Spec.Cl X.g}, Rep X.g F x →
        (cmpflg = false → ∃ G, d.mulMv X op F = .inl G ∧
          Rep X.g G (∑ i, opS X.g op (Spec.vec X.g (u i)) (Spec.deriv X.g (D (s i)) 0 x))) ∧
        (cmpflg = true → ∃ G, Dop.mvMul X op F d = .inl G ∧
          Rep X.g G (∑ i, opS X.g op (Spec.deriv X.g (D (s i)) 0 x) (Spec.vec X.g (u i)))) := by
  obtain ⟨u, hu, hr⟩ := reciprocalBlade_vec h.symm hd
  obtain ⟨d, h1, -, h3⟩ := makeGrad_spec h (List.finRange n) s (fun i => .blade [i])
    (fun i => Spec.vec X.g (u i)) (fun i _ => hr i) cmpflg
  refine ⟨u, hu, d, h1, fun op F x hF => ?_⟩
  have := h3 op hF
  simp only [← List.ofFn_eq_map, List.sum_ofFn] at this
  exact this

/-- C70: `∂_x (x a) = n a` for every multivector `a` that does not depend on `x`. -/
theorem C70_vector_product (h : SymbolFields X D val) (hd : X.g.det ≠ 0) {s : Fin n → V}
    (hinj : Function.Injective s) {a : Mv K n} (ha : a.WF X.g) (hb : a.isBladeRep = true)
    (hc : ∀ i, a.Const X (s i)) :
    ∃ d G, makeGrad X.g (vectorTerms s) false = some d ∧
      d.mulMv X .geo ((symbolMv val (vectorTerms s)).mul X.g a) = .inl G ∧
      G.eq X.g (a.smul n) = true := by
  obtain ⟨u, hu, d, h1, h2⟩ := vectorGrad_spec h hd s false
  have ra := Rep.of_wf ha hb
  obtain ⟨G, h3, h4⟩ := (h2 .geo ((symbolMv_vector s).mul h.symm ra)).1 rfl
  refine ⟨d, G, h1, h3, (h4.eq_iff h.symm (ra.smul (n : K))).mpr ?_⟩
  have : ∀ i, opS X.g .geo (Spec.vec X.g (u i))
      (Spec.deriv X.g (D (s i)) 0 ((Spec.vec X.g fun i => val (s i)) * a.val X.g)) =
        Spec.vec X.g (u i) * Spec.vec X.g (Pi.single i 1) * a.val X.g := by
    intro i
    rw [Spec.deriv_mul h.symm (h.compat _), deriv_symbolVec h hinj, (hc i).deriv h ra, mul_zero, add_zero,
      mul_assoc]
    rfl
  rw [Finset.sum_congr rfl fun i _ => this i, ← Finset.sum_mul, Spec.frame_mul h.symm hu,
    ← Algebra.smul_def]

/-- C70: the operator that acts to its left, `(a x) ∂_x = n a`. -/
theorem C70_left_acting (h : SymbolFields X D val) (hd : X.g.det ≠ 0) {s : Fin n → V}
    (hinj : Function.Injective s) {a : Mv K n} (ha : a.WF X.g) (hb : a.isBladeRep = true)
    (hc : ∀ i, a.Const X (s i)) :
    ∃ d G, makeGrad X.g (vectorTerms s) true = some d ∧
      Dop.mvMul X .geo (a.mul X.g (symbolMv val (vectorTerms s))) d = .inl G ∧
      G.eq X.g (a.smul n) = true := by
  obtain ⟨u, hu, d, h1, h2⟩ := vectorGrad_spec h hd s true
  have ra := Rep.of_wf ha hb
  obtain ⟨G, h3, h4⟩ := (h2 .geo (ra.mul h.symm (symbolMv_vector s))).2 rfl
  refine ⟨d, G, h1, h3, (h4.eq_iff h.symm (ra.smul (n : K))).mpr ?_⟩
  have hcomm : ∀ i, Spec.vec X.g (Pi.single i 1) * Spec.vec X.g (u i) =
      algebraMap K _ 2 - Spec.vec X.g (u i) * Spec.vec X.g (Pi.single i 1) := by
    intro i
    have e1 := Spec.vec_mul (g := X.g) (u i) (Spec.vec X.g (Pi.single i 1))
    have e2 := Spec.vec_mul (g := X.g) (Pi.single i 1) (Spec.vec X.g (u i))
    have e3 := Spec.wedge_vec_swap (g := X.g) (u i) (Pi.single i 1) 1
    rw [Spec.wedge_one, Spec.wedge_one] at e3
    rw [Spec.con_vec, show QuadraticMap.associated (Spec.Q X.g) (u i) (Pi.single i 1) =
      Spec.ip X.g (u i) (Pi.single i 1) from rfl, Spec.ip_comm, hu, if_pos rfl] at e1
    rw [Spec.con_vec, show QuadraticMap.associated (Spec.Q X.g) (Pi.single i 1) (u i) =
      Spec.ip X.g (Pi.single i 1) (u i) from rfl, hu, if_pos rfl] at e2
    rw [e1, e2, e3, show (2 : K) = 1 + 1 by norm_num, map_add]
    abel
  have hsum : ∑ i, Spec.vec X.g (Pi.single i 1) * Spec.vec X.g (u i) = algebraMap K _ (n : K) := by
    simp only [hcomm, Finset.sum_sub_distrib]
    rw [Spec.frame_mul h.symm hu, Finset.sum_const, Finset.card_univ, Fintype.card_fin, ← map_nsmul,
      ← map_sub]
    congr 1
    rw [nsmul_eq_mul]; ring
  have : ∀ i, opS X.g .geo (Spec.deriv X.g (D (s i)) 0 (a.val X.g * Spec.vec X.g fun i => val (s i)))
      (Spec.vec X.g (u i)) = a.val X.g * (Spec.vec X.g (Pi.single i 1) * Spec.vec X.g (u i)) := by
    intro i
    rw [Spec.deriv_mul h.symm (h.compat _), deriv_symbolVec h hinj, (hc i).deriv h ra, zero_mul, zero_add,
      ← mul_assoc]
    rfl
  rw [Finset.sum_congr rfl fun i _ => this i, ← Finset.mul_sum, hsum, ← Algebra.commutes, ← Algebra.smul_def]

/-- C70: `∂_x (x ∧ a) = (n - r) a` for every `a` of grade `r` that does not depend on `x`. -/
theorem C70_vector_outer (h : SymbolFields X D val) (hd : X.g.det ≠ 0) {s : Fin n → V}
    (hinj : Function.Injective s) {a : Mv K n} (ha : a.WF X.g) (hb : a.isBladeRep = true)
    (hc : ∀ i, a.Const X (s i)) {r : ℕ} (hr : (a.getGrade r).eq X.g a = true) :
    ∃ d G, makeGrad X.g (vectorTerms s) false = some d ∧
      d.mulMv X .geo ((symbolMv val (vectorTerms s)).wedge X.g a) = .inl G ∧
      G.eq X.g (a.smul ((n : K) - r)) = true := by
  obtain ⟨u, hu, d, h1, h2⟩ := vectorGrad_spec h hd s false
  have ra := Rep.of_wf ha hb
  have hom : Spec.Homogeneous X.g r (a.val X.g) :=
    Spec.homogeneous_iff.mpr (((ra.getGrade r).eq_iff h.symm ra).mp hr)
  obtain ⟨G, h3, h4⟩ := (h2 .geo ((symbolMv_vector s).wedge h.symm ra)).1 rfl
  refine ⟨d, G, h1, h3, (h4.eq_iff h.symm (ra.smul _)).mpr ?_⟩
  rw [← Spec.frame_outer h.symm hu hom]
  refine Finset.sum_congr rfl fun i _ => ?_
  rw [Spec.deriv_wedge, deriv_symbolVec h hinj, (hc i).deriv h ra, Spec.wedge_zero, add_zero]
  rfl

/-- C70: `∂_x (x ⌋ a) = r a` for every `a` of grade `r` that does not depend on `x`. -/
theorem C70_vector_inner (h : SymbolFields X D val) (hd : X.g.det ≠ 0) {s : Fin n → V}
    (hinj : Function.Injective s) {a : Mv K n} (ha : a.WF X.g) (hb : a.isBladeRep = true)
    (hc : ∀ i, a.Const X (s i)) {r : ℕ} (hr : (a.getGrade r).eq X.g a = true) :
    ∃ d G, makeGrad X.g (vectorTerms s) false = some d ∧
      d.mulMv X .geo ((symbolMv val (vectorTerms s)).left X.g a) = .inl G ∧
      G.eq X.g (a.smul (r : K)) = true := by
  obtain ⟨u, hu, d, h1, h2⟩ := vectorGrad_spec h hd s false
  have ra := Rep.of_wf ha hb
  have hom : Spec.Homogeneous X.g r (a.val X.g) :=
    Spec.homogeneous_iff.mpr (((ra.getGrade r).eq_iff h.symm ra).mp hr)
  obtain ⟨G, h3, h4⟩ := (h2 .geo ((symbolMv_vector s).left h.symm ra)).1 rfl
  refine ⟨d, G, h1, h3, (h4.eq_iff h.symm (ra.smul _)).mpr ?_⟩
  rw [← Spec.frame_con h.symm hu hom]
  refine Finset.sum_congr rfl fun i _ => ?_
  rw [Spec.lc_vec, Spec.deriv_con h.symm (h.compat _), (hc i).deriv h ra, map_zero, add_zero]
  rw [show opS X.g .geo _ _ = _ * _ from rfl]
  congr 3
  funext j
  simp [Spec.dvec, h.val, hinj.eq_iff, Pi.single_apply, eq_comm]

/-- C70: `∂_x (x x) = 2 x`. -/
theorem C70_square (h : SymbolFields X D val) (hd : X.g.det ≠ 0) {s : Fin n → V}
    (hinj : Function.Injective s) :
    ∃ d G, makeGrad X.g (vectorTerms s) false = some d ∧
      d.mulMv X .geo ((symbolMv val (vectorTerms s)).mul X.g (symbolMv val (vectorTerms s))) = .inl G ∧
      G.eq X.g ((symbolMv val (vectorTerms s)).smul 2) = true := by
  obtain ⟨u, hu, d, h1, h2⟩ := vectorGrad_spec h hd s false
  have rx := symbolMv_vector (val := val) (g := X.g) s
  obtain ⟨G, h3, h4⟩ := (h2 .geo (rx.mul h.symm rx)).1 rfl
  refine ⟨d, G, h1, h3, (h4.eq_iff h.symm (rx.smul 2)).mpr ?_⟩
  have hd' : ∀ i, Spec.dvec (D (s i)) 0 (fun i => val (s i)) = Pi.single i 1 := by
    intro i; funext j
    simp [Spec.dvec, h.val, hinj.eq_iff, Pi.single_apply, eq_comm]
  have hsq : (Spec.vec X.g fun i => val (s i)) * (Spec.vec X.g fun i => val (s i)) =
      algebraMap K _ (Spec.ip X.g (fun i => val (s i)) fun i => val (s i)) := by
    have e3 := Spec.wedge_vec_swap (g := X.g) (fun i => val (s i)) (fun i => val (s i)) 1
    rw [Spec.wedge_one] at e3
    have e4 : Spec.wedge X.g (Spec.vec X.g fun i => val (s i)) (Spec.vec X.g fun i => val (s i)) = 0 := by
      have h2 : (2 : K) • Spec.wedge X.g (Spec.vec X.g fun i => val (s i))
          (Spec.vec X.g fun i => val (s i)) = 0 := by
        rw [two_smul]; nth_rewrite 2 [e3]; exact add_neg_cancel _
      have := congrArg (fun z => (⅟2 : K) • z) h2
      simpa [smul_smul] using this
    rw [Spec.vec_mul, e4, add_zero, Spec.con_vec]
  have : ∀ i, opS X.g .geo (Spec.vec X.g (u i))
      (Spec.deriv X.g (D (s i)) 0 ((Spec.vec X.g fun i => val (s i)) * (Spec.vec X.g fun i => val (s i)))) =
        (2 : K) • Spec.vec X.g (Spec.ip X.g (Pi.single i 1) (fun i => val (s i)) • u i) := by
    intro i
    rw [hsq, Spec.deriv_algebraMap, Spec.ip_deriv h.symm (h.compat _), hd', Spec.ip_comm _ (Pi.single i 1),
      ← two_mul, show opS X.g .geo _ _ = _ * _ from rfl, ← Algebra.commutes, ← Algebra.smul_def, mul_smul,
      Spec.vec_smul]
  rw [Finset.sum_congr rfl fun i _ => this i, ← Finset.smul_sum, ← Spec.vec_sum, ← Spec.frame_vec h.symm hu]

theorem sum_map_ite {α M : Type*} [DecidableEq α] [AddCommMonoid M] {L : List α} (hL : L.Nodup) (f : α → M)
    (a : α) : (L.map fun b => if b = a then f b else 0).sum = if a ∈ L then f a else 0 := by
  induction L with
  | nil => simp
  | cons b L ih =>
    rw [List.nodup_cons] at hL
    rw [List.map_cons, List.sum_cons, ih hL.2]
    by_cases hb : b = a
    · subst hb; simp [hL.1]
    · simp [hb, Ne.symm hb]

theorem deriv_blade_zero (g : Matrix (Fin n) (Fin n) K) (δ : Derivation ℤ K K) (l : List (Fin n)) :
    Spec.deriv g δ 0 (Spec.blade g l) = 0 := by
  rw [Spec.deriv, Spec.cdiff_blade, nabla_zero, add_zero]

theorem deriv_list_sum {ι : Type*} (g : Matrix (Fin n) (Fin n) K) (δ : Derivation ℤ K K) (L : List ι)
    (f : ι → Spec.Cl g) : Spec.deriv g δ 0 (L.map f).sum = (L.map fun i => Spec.deriv g δ 0 (f i)).sum := by
  induction L with
  | nil => exact Spec.deriv_zero _ _
  | cons i L ih => rw [List.map_cons, List.sum_cons, Spec.deriv_add, ih, List.map_cons, List.sum_cons]

theorem symbolMv_blades {g : Matrix (Fin n) (Fin n) K} (s : List (Fin n) → V) {L : List (List (Fin n))}
    (hs : ∀ I ∈ L, I.Pairwise (· < ·)) :
    Rep g (symbolMv val (bladeTerms s L)) (L.map fun I => val (s I) • Spec.blade g I).sum := by
  have hv : Valid ((bladeTerms s L).map fun t => (val t.1, t.2)) := by
    intro t ht
    rw [bladeTerms, List.map_map] at ht
    obtain ⟨I, hI, rfl⟩ := List.mem_map.mp ht
    exact ⟨I, rfl, hs I hI⟩
  have := Rep.ofExpr (g := g) hv
  rw [symbolMv]
  convert this using 1
  simp [den, bladeTerms, List.map_map, Function.comp_def, symDen]

/-- The derivative of `⟨A B⟩` by a multivector `A` of symbols. -/
theorem derivScalarProduct_spec (h : SymbolFields X D val) (hd : X.g.det ≠ 0) {s : List (Fin n) → V}
    {L : List (List (Fin n))} (hinj : ∀ I ∈ L, ∀ J ∈ L, s I = s J → I = J) (hL : L.Nodup)
    (hsorted : ∀ I ∈ L, I.Pairwise (· < ·)) {B : Mv K n} {y : Spec.Cl X.g} (hB : Rep X.g B y)
    (hc : ∀ I ∈ L, B.Const X (s I)) :
    ∃ d G z, makeGrad X.g (bladeTerms s L) false = some d ∧
      d.mulMv X .geo (((symbolMv val (bladeTerms s L)).mul X.g B).getGrade 0) = .inl G ∧ Rep X.g G z ∧
      ∀ J : List (Fin n), J.Pairwise (· < ·) → Spec.grade X.g 0 (z * Spec.blade X.g J) =
        if J ∈ L then Spec.grade X.g 0 (y * Spec.blade X.g J) else 0 := by
  obtain ⟨E, hE, hr⟩ := reciprocalBlade_dual h.symm hd
  obtain ⟨d, h1, -, h3⟩ := makeGrad_spec h L s (fun I => .blade I) E (fun I _ => hr I) false
  obtain ⟨G, h4, h5⟩ := (h3 .geo (((symbolMv_blades (val := val) s hsorted).mul h.symm hB).getGrade 0)).1 rfl
  refine ⟨d, G, _, h1, h4, h5, fun J hJ => ?_⟩
  have key : ∀ I ∈ L, Spec.deriv X.g (D (s I)) 0 (Spec.grade X.g 0
      ((L.map fun I => val (s I) • Spec.blade X.g I).sum * y)) =
        Spec.grade X.g 0 (Spec.blade X.g I * y) := by
    intro I hI
    rw [Spec.deriv_grade, Spec.deriv_mul h.symm (h.compat _), (hc I hI).deriv h hB, mul_zero, add_zero,
      deriv_list_sum]
    have : ∀ I' ∈ L, Spec.deriv X.g (D (s I)) 0 (val (s I') • Spec.blade X.g I') =
        if I' = I then Spec.blade X.g I' else 0 := by
      intro I' hI'
      rw [Spec.deriv_smul, deriv_blade_zero, smul_zero, add_zero, h.val]
      by_cases e : I = I'
      · simp [e]
      · rw [if_neg fun h => e (hinj I hI I' hI' h), if_neg (Ne.symm e), zero_smul]
    rw [List.map_congr_left this]
    rw [sum_map_ite hL, if_pos hI]
  have hsum : ∀ M : List (List (Fin n)), (∀ I ∈ M, I ∈ L) →
      Spec.grade X.g 0 ((M.map fun I => opS X.g .geo (E I) (Spec.deriv X.g (D (s I)) 0 (Spec.grade X.g 0
        ((L.map fun I => val (s I) • Spec.blade X.g I).sum * y)))).sum * Spec.blade X.g J) =
      (M.map fun I => if I = J then Spec.grade X.g 0 (Spec.blade X.g I * y) else 0).sum := by
    intro M hM
    induction M with
    | nil => simp
    | cons I M ih =>
      rw [List.map_cons, List.sum_cons, add_mul, map_add, ih fun I hI => hM I (by simp [hI]), List.map_cons,
        List.sum_cons, key I (hM I (by simp))]
      congr 1
      obtain ⟨c, hc⟩ : ∃ c : K, Spec.grade X.g 0 (Spec.blade X.g I * y) = algebraMap K _ c :=
        Spec.homogeneous_zero_iff.mp (Spec.homogeneous_grade 0 _)
      rw [hc, show opS X.g .geo _ _ = _ * _ from rfl, ← Algebra.commutes, ← Algebra.smul_def, smul_mul_assoc,
        map_smul, hE I J (hsorted I (hM I (by simp))) hJ]
      split_ifs
      · rw [Algebra.algebraMap_eq_smul_one]
      · rw [smul_zero]
  rw [hsum L fun _ h => h, sum_map_ite hL, Spec.grade_zero_mul_comm]
  congr

/-- C70: for a multivector `A` with a symbol for every basis blade, `∂_A ⟨A B⟩ = B` for every `B` that does
not depend on `A`. -/
theorem C70_scalar_product (h : SymbolFields X D val) (hd : X.g.det ≠ 0) {s : List (Fin n) → V}
    (hinj : ∀ I ∈ flat (indexes n), ∀ J ∈ flat (indexes n), s I = s J → I = J) {B : Mv K n} (hB : B.WF X.g) (hb : B.isBladeRep = true)
    (hc : ∀ I, B.Const X (s I)) :
    ∃ d G, makeGrad X.g (bladeTerms s (flat (indexes n))) false = some d ∧
      d.mulMv X .geo (((symbolMv val (bladeTerms s (flat (indexes n)))).mul X.g B).getGrade 0) = .inl G ∧
      G.eq X.g B = true := by
  have rB := Rep.of_wf hB hb
  obtain ⟨d, G, z, h1, h2, h3, h4⟩ := derivScalarProduct_spec h hd hinj (L := flat (indexes n))
    (nodup_flat_indexes n) (fun I hI => mem_flat_indexes.mp hI) rB fun I _ => hc I
  refine ⟨d, G, h1, h2, (h3.eq_iff h.symm rB).mpr (eq_of_pairing h.symm hd fun J hJ => ?_)⟩
  rw [h4 J hJ, if_pos (mem_flat_indexes.mpr hJ)]

/-- C70: for a generic multivector `A` of grade `r`, `∂_A ⟨A B⟩ = ⟨B⟩_r` for every `B` that does not depend
on `A`. -/
theorem C70_scalar_product_grade (h : SymbolFields X D val) (hd : X.g.det ≠ 0) {s : List (Fin n) → V}
    {r : ℕ} (hinj : ∀ I ∈ combinations r (List.finRange n), ∀ J ∈ combinations r (List.finRange n),
      s I = s J → I = J) {B : Mv K n} (hB : B.WF X.g) (hb : B.isBladeRep = true)
    (hc : ∀ I, B.Const X (s I)) :
    ∃ d G, makeGrad X.g (bladeTerms s (combinations r (List.finRange n))) false = some d ∧
      d.mulMv X .geo (((symbolMv val (bladeTerms s (combinations r (List.finRange n)))).mul X.g B).getGrade 0)
        = .inl G ∧
      G.eq X.g (B.getGrade r) = true := by
  have rB := Rep.of_wf hB hb
  obtain ⟨d, G, z, h1, h2, h3, h4⟩ := derivScalarProduct_spec h hd hinj (L := combinations r (List.finRange n))
    (nodup_combinations r (List.nodup_finRange n))
    (fun I hI => sublist_finRange_iff.mp (mem_combinations.mp hI).1) rB fun I _ => hc I
  refine ⟨d, G, h1, h2, (h3.eq_iff h.symm (rB.getGrade r)).mpr (eq_of_pairing h.symm hd fun J hJ => ?_)⟩
  rw [h4 J hJ]
  have hJ' : J ∈ combinations r (List.finRange n) ↔ J.length = r := by
    rw [mem_combinations]; exact ⟨fun h => h.2, fun h => ⟨sublist_finRange_iff.mpr hJ, h⟩⟩
  have hg : ∀ k, k ≠ J.length → Spec.grade X.g 0 (Spec.grade X.g k (B.val X.g) * Spec.blade X.g J) = 0 :=
    fun k hk => Spec.grade_zero_mul_of_ne (Spec.homogeneous_grade k _) (Spec.homogeneous_blade J) hk
  split_ifs with hm
  · rw [hJ'] at hm
    conv_lhs => rw [← sum_grade (g := X.g) (B.val X.g), Finset.sum_mul, map_sum]
    refine Finset.sum_eq_single r (fun k _ hk => hg k (by rw [hm]; exact hk)) fun hr => ?_
    exfalso
    apply hr
    have := (sublist_finRange_iff.mpr hJ).length_le
    simp at this ⊢
    omega
  · rw [hJ'] at hm
    rw [hg r (Ne.symm hm)]

/-- C70: the derivative by the vector of the coordinates is the gradient operator `Ga.grad` (`Ga.rgrad`) of
C60: the operators have the same partial derivatives with equal coefficients, in the same order. -/
theorem C70_gradient {g : Matrix (Fin n) (Fin n) K} (hs : g.IsSymm) (hd : g.det ≠ 0) (cmpflg : Bool)
    {l : List (Mv K n)} (hl : gradVecs g none = some l) :
    ∃ d : Dop (Fin n) K n, makeGrad g (vectorTerms id) cmpflg = some d ∧
      d.cmpflg = (gradDop l cmpflg).cmpflg ∧
      List.Forall₂ (fun t t' => t.1.eq g t'.1 = true ∧ t.2 = t'.2) d.terms (gradDop l cmpflg).terms := by
  obtain ⟨hlen, hs0, u, hu⟩ := gradVecs_rep hs (by simp) hl
  obtain ⟨u', hu', hr⟩ := reciprocalBlade_vec hs hd
  choose r hr1 hr2 using hr
  have hcm : currentMetric none g = g := rfl
  rw [hcm] at hu
  have huu : ∀ j, u j = u' j := by
    intro j
    rw [Spec.frame_vec hs hu' (u j)]
    simp only [(hu j).2, scaleOf]
    simp
  have hm : ∀ L : List (Fin n), ((L.map fun i => (id i, (.blade [i] : Sym n))).mapM fun t : Fin n × Sym n =>
      (reciprocalBlade g t.2).map fun r => (r, Pdop.single t.1)) =
        some (L.map fun i => (r i, Pdop.single i)) := by
    intro L
    induction L with
    | nil => rfl
    | cons i L ih => rw [List.map_cons, List.mapM_cons, ih, hr1]; rfl
  refine ⟨⟨(List.finRange n).map fun i => (r i, Pdop.single i), cmpflg⟩, ?_, rfl, ?_⟩
  · rw [makeGrad, vectorTerms, hm]; rfl
  · have hl' : l = (List.finRange n).map fun i : Fin n => l.getD i Mv.zero := by
      apply List.ext_getElem
      · simpa using hlen
      · intro i h1 h2
        simp [List.getD_eq_getElem?_getD, h1]
    have e : (gradDop l cmpflg).terms =
        (List.finRange n).map fun i : Fin n => (l.getD i Mv.zero, Pdop.single i) := by
      rw [gradDop]
      dsimp only
      conv_lhs => rw [hl']
      rw [List.zip_map']
    rw [e, List.forall₂_map_left_iff, List.forall₂_map_right_iff, List.forall₂_same]
    intro i _
    exact ⟨((hr2 i).eq_iff hs (hu i).1).mpr (by rw [huu]), rfl⟩

example : Ex.gN.IsSymm ∧ Ex.gN.det ≠ 0 ∧ (gradVecs Ex.gN none).isSome = true := by decide +kernel

/-- C70 is false if the basis vectors depend on the coordinates: with a connection `conn = some de` the
derivative of a non-scalar `A` by a symbol that is not a coordinate raises, even if `A` has only constant
coefficients. -/
theorem C70_connection_counterexample {g : Matrix (Fin n) (Fin n) K} (de : Fin n → Fin n → Expr K n)
    (δ : K → K) {A : Mv K n} (hA : A.isScalar g = false) (ht : ∃ t ∈ A.obj, t.2 ≠ .blade []) :
    A.pDiff g (some de) δ none = none := by
  obtain ⟨t, h1, h2⟩ := ht
  have hne : A.obj.filter (fun t => decide (t.2 ≠ .blade [])) ≠ [] :=
    List.ne_nil_of_mem (List.mem_filter.mpr ⟨h1, by simpa using h2⟩)
  have e : A.pDiff g (some de) δ none = if A.isScalar g then
      some (Mv.ofExpr (expand (A.obj.map fun t => (δ t.1, t.2)))) else
      (A.obj.filter fun t => decide (t.2 ≠ .blade [])).foldlM (fun (dA : Mv K n) t =>
        (none : Option (Fin n)).map fun i =>
          Mv.ofExpr (addE dA.obj (smulE t.1 (symDerivation (de i) t.2))))
        (Mv.ofExpr (expand (A.obj.map fun t => (δ t.1, t.2)))) := rfl
  rw [e, hA, if_neg (by simp)]
  cases hl : A.obj.filter (fun t => decide (t.2 ≠ .blade [])) with
  | nil => exact absurd hl hne
  | cons u l => rw [List.foldlM_cons]; rfl

example : (Mv.ofExpr (bladeE [0]) : Mv ℚ 3).isScalar Ex.gO = false ∧
    ∃ t ∈ (Mv.ofExpr (bladeE [0]) : Mv ℚ 3).obj, t.2 ≠ .blade [] := by decide +kernel

/-! ### Concrete cases -/

namespace Ex

/-- A constant, non-orthogonal metric of the plane over rational functions of four symbols. -/
noncomputable def symFields : Fields (Fin 4) (Fun 4) 2 := ⟨!![1, 1; 1, -1], none, fun v => partialD v, fun _ => none⟩

theorem symFields_ok : SymbolFields symFields (fun v => partialD v) coord where
  symm := by ext i j; fin_cases i <;> fin_cases j <;> rfl
  conn := rfl
  diff := fun _ => rfl
  const := by
    intro v i j
    fin_cases i <;> fin_cases j <;> simp [symFields]
  val := partialD_coord

theorem symFields_det : symFields.g.det ≠ 0 := by
  simp only [symFields, Matrix.det_fin_two_of]; norm_num

/-- `e_0 + 2 e_0 ∧ e_1` does not depend on the symbols. -/
example (v : Fin 4) : (Mv.ofExpr [(1, .blade [0]), (2, .blade [0, 1])] : Mv (Fun 4) 2).Const symFields v := by
  have hv : Valid ([(1, .blade [0]), (2, .blade [0, 1])] : Expr (Fun 4) 2) := by
    intro t ht
    simp only [List.mem_cons, List.not_mem_nil, or_false] at ht
    rcases ht with rfl | rfl
    · exact ⟨[0], rfl, by decide⟩
    · exact ⟨[0, 1], rfl, by decide⟩
  refine ((symFields_ok.diffN_rep v (Rep.ofExpr hv)).eq_iff symFields_ok.symm Rep.zero).mpr ?_
  simp only [den, symDen, List.map_cons, List.map_nil, List.sum_cons, List.sum_nil, add_zero, Spec.deriv_add,
    Spec.deriv_smul, deriv_blade_zero, Derivation.map_one_eq_zero, smul_zero, zero_smul, zero_add]
  rw [show partialD v (2 : Fun 4) = 0 from (partialD v).map_natCast 2, zero_smul]

/-- The coefficients of a vector, or of a full multivector, are distinct symbols. -/
example : Function.Injective (![0, 1] : Fin 2 → Fin 4) := by decide
example : ∀ I ∈ flat (indexes 2), ∀ J ∈ flat (indexes 2),
    (Fin.ofNat 4 ((flat (indexes 2)).idxOf I) = Fin.ofNat 4 ((flat (indexes 2)).idxOf J)) → I = J := by
  decide

end Ex

end GA
