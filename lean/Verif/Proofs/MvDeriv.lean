import Verif.Spec.MvDeriv
import Verif.Props.C21
import Verif.Proofs.Grad
import Verif.Proofs.Project
import Verif.Proofs.Dop
import Verif.Proofs.Coef

/-! # Sums over a basis and its reciprocal basis -/

set_option linter.unusedSectionVars false

namespace Spec
open GA
variable {n : ℕ} {K : Type*} [Field K] [DecidableEq K] [Invertible (2 : K)]
  {g : Matrix (Fin n) (Fin n) K}

section frame
variable {u : Fin n → Fin n → K}

theorem frame_vec (hs : g.IsSymm) (hu : ∀ i j, ip g (Pi.single i 1) (u j) = if i = j then 1 else 0)
    (v : Fin n → K) : v = ∑ k, ip g (Pi.single k 1) v • u k := by
  have := GA.vec_eq_sum hs (s := fun _ => 1) (fun _ => one_ne_zero) (u := u) (by simpa using hu) v
  simpa using this

theorem vec_sum {ι : Type*} (s : Finset ι) (f : ι → Fin n → K) :
    vec g (∑ i ∈ s, f i) = ∑ i ∈ s, vec g (f i) := map_sum _ _ _

theorem con_sum_left {ι : Type*} (s : Finset ι) (f : ι → Fin n → K) (x : Cl g) :
    con g (∑ i ∈ s, f i) x = ∑ i ∈ s, con g (f i) x := by
  classical
  induction s using Finset.induction_on with
  | empty =>
    have := con_smul_left (g := g) 0 0 x
    simpa using this
  | insert a s h ih => rw [Finset.sum_insert h, Finset.sum_insert h, con_add_left, ih]

/-- `∑ u_k ∧ (e_k ⌋ x) = r x` for a basis blade of grade `r`. -/
theorem euler_blade (hs : g.IsSymm)
    (hu : ∀ i j, ip g (Pi.single i 1) (u j) = if i = j then 1 else 0) (l : List (Fin n)) :
    ∑ k, wedge g (vec g (u k)) (con g (Pi.single k 1) (blade g l)) = (l.length : K) • blade g l := by
  induction l with
  | nil =>
    rw [blade_nil, List.length_nil, Nat.cast_zero, zero_smul]
    exact Finset.sum_eq_zero fun k _ => by
      rw [con_homogeneous_zero _ (by simpa using homogeneous_algebraMap (g := g) (1 : K)), wedge_zero]
  | cons i l ih =>
    have step : ∀ k, wedge g (vec g (u k)) (con g (Pi.single k 1) (blade g (i :: l))) =
        wedge g (vec g (ip g (Pi.single k 1) (Pi.single i 1) • u k)) (blade g l) +
        wedge g (e g i) (wedge g (vec g (u k)) (con g (Pi.single k 1) (blade g l))) := by
      intro k
      rw [blade_cons, e, con_wedge_vec, sub_eq_add_neg, wedge_add, wedge_smul, vec_smul, smul_wedge,
        ← neg_one_smul K, wedge_smul, wedge_vec_swap]
      simp
    rw [Finset.sum_congr rfl fun k _ => step k, Finset.sum_add_distrib, ← sum_wedge, ← vec_sum,
      ← frame_vec hs hu, ← wedge_sum, ih, wedge_smul, ← blade_cons, List.length_cons, Nat.cast_succ,
      add_smul, one_smul]
    rw [add_comm]
    congr 1
    rw [blade_cons, e]

/-- `∑ u_k ∧ (e_k ⌋ x) = r x` for `x` of grade `r`. -/
theorem euler (hs : g.IsSymm)
    (hu : ∀ i j, ip g (Pi.single i 1) (u j) = if i = j then 1 else 0) {r : ℕ} {x : Cl g}
    (hx : Homogeneous g r x) :
    ∑ k, wedge g (vec g (u k)) (con g (Pi.single k 1) x) = (r : K) • x := by
  rw [← homogeneous_iff.mp hx]
  clear hx
  induction x using blade_induction g with
  | h0 => simp [wedge_zero]
  | hadd x y hx hy => simp only [map_add, wedge_add, Finset.sum_add_distrib, hx, hy, smul_add]
  | hsm c l hl =>
    simp only [map_smul, wedge_smul, ← Finset.smul_sum, grade_blade]
    split_ifs with h
    · rw [euler_blade hs hu, h, smul_comm]
    · simp [wedge_zero]

/-- The Gram matrix gives `e_k` in terms of the `u_j`. -/
theorem single_eq (hs : g.IsSymm)
    (hu : ∀ i j, ip g (Pi.single i 1) (u j) = if i = j then 1 else 0) (k : Fin n) :
    (Pi.single k 1 : Fin n → K) = ∑ j, g j k • u j := by
  conv_lhs => rw [frame_vec hs hu (Pi.single k 1)]
  refine Finset.sum_congr rfl fun j _ => ?_
  rw [ip_single hs]
  simp [Pi.single_apply]

/-- An antisymmetric family summed with the symmetric Gram matrix. -/
theorem sum_antisymm (hs : g.IsSymm) (F : Fin n → Fin n → Cl g) (hF : ∀ i j, F i j = -F j i) :
    ∑ k, ∑ j, g j k • F k j = 0 := by
  have h : ∑ k, ∑ j, g j k • F k j = -∑ k, ∑ j, g j k • F k j := by
    conv_lhs => rw [Finset.sum_comm]
    rw [← Finset.sum_neg_distrib]
    refine Finset.sum_congr rfl fun k _ => ?_
    rw [← Finset.sum_neg_distrib]
    refine Finset.sum_congr rfl fun j _ => ?_
    rw [hF, hs.apply, smul_neg]
  have h2 : (2 : K) • (∑ k, ∑ j, g j k • F k j) = 0 := by
    rw [two_smul]
    nth_rewrite 2 [h]
    exact add_neg_cancel _
  have := congrArg (fun z => (⅟2 : K) • z) h2
  simpa [smul_smul] using this

theorem frame_con_con (hs : g.IsSymm)
    (hu : ∀ i j, ip g (Pi.single i 1) (u j) = if i = j then 1 else 0) (x : Cl g) :
    ∑ k, con g (u k) (con g (Pi.single k 1) x) = 0 := by
  rw [← sum_antisymm hs (fun k j => con g (u k) (con g (u j) x)) fun i j => con_comm _ _ _]
  refine Finset.sum_congr rfl fun k _ => ?_
  rw [single_eq hs hu, con_sum_left, map_sum]
  exact Finset.sum_congr rfl fun j _ => by rw [con_smul_left, map_smul]

theorem frame_wedge (hs : g.IsSymm)
    (hu : ∀ i j, ip g (Pi.single i 1) (u j) = if i = j then 1 else 0) :
    ∑ k, wedge g (vec g (u k)) (vec g (Pi.single k 1)) = 0 := by
  rw [← sum_antisymm hs (fun k j => wedge g (vec g (u k)) (vec g (u j))) fun i j => by
    have := wedge_vec_swap (g := g) (u i) (u j) 1
    simpa [wedge_one] using this]
  refine Finset.sum_congr rfl fun k _ => ?_
  rw [single_eq hs hu, vec_sum, wedge_sum]
  exact Finset.sum_congr rfl fun j _ => by rw [vec_smul, wedge_smul]

/-- `∑ u_k e_k = n`. -/
theorem frame_mul (hs : g.IsSymm)
    (hu : ∀ i j, ip g (Pi.single i 1) (u j) = if i = j then 1 else 0) :
    ∑ k, vec g (u k) * vec g (Pi.single k 1) = algebraMap K _ (n : K) := by
  simp only [vec_mul, Finset.sum_add_distrib]
  rw [frame_wedge hs hu, add_zero]
  simp only [con_vec]
  rw [← map_sum]
  congr 1
  have : ∀ k, ip g (u k) (Pi.single k 1) = 1 := fun k => by rw [ip_comm, hu, if_pos rfl]
  simp only [this]
  simp

/-- `∑ u_k (e_k ⌋ x) = r x` for `x` of grade `r`. -/
theorem frame_con (hs : g.IsSymm)
    (hu : ∀ i j, ip g (Pi.single i 1) (u j) = if i = j then 1 else 0) {r : ℕ} {x : Cl g}
    (hx : Homogeneous g r x) :
    ∑ k, vec g (u k) * con g (Pi.single k 1) x = (r : K) • x := by
  simp only [vec_mul, Finset.sum_add_distrib]
  rw [frame_con_con hs hu, zero_add, euler hs hu hx]

/-- `∑ u_k (e_k ∧ x) = (n - r) x` for `x` of grade `r`. -/
theorem frame_outer (hs : g.IsSymm)
    (hu : ∀ i j, ip g (Pi.single i 1) (u j) = if i = j then 1 else 0) {r : ℕ} {x : Cl g}
    (hx : Homogeneous g r x) :
    ∑ k, vec g (u k) * wedge g (vec g (Pi.single k 1)) x = ((n : K) - r) • x := by
  simp only [wedge_vec, mul_sub, Finset.sum_sub_distrib, ← mul_assoc, ← Finset.sum_mul]
  rw [frame_mul hs hu, frame_con hs hu hx, sub_smul, ← Algebra.smul_def]

end frame

end Spec

namespace GA
variable {n : ℕ} {V : Type*} [DecidableEq V] {K : Type*} [Field K] [DecidableEq K] [Invertible (2 : K)]

section recip
variable {g : Matrix (Fin n) (Fin n) K}

/-- The value of the reciprocal of a basis blade. -/
theorem recipOfBlade_spec (hs : g.IsSymm) {rb : List (Expr K n)} (hrb : rBasis g = some rb) :
    ∃ u : Fin n → Fin n → K, (∀ i j, Spec.ip g (Pi.single i 1) (u j) = if i = j then recipFactor g else 0) ∧
      ∀ {I : List (Fin n)} {E : Expr K n}, recipOfBlade g rb I = some E →
        ∃ k : K, k * recipFactor g ^ I.length = 1 ∧ Valid E ∧
          den g E = k • Spec.wedgeL g (I.reverse.map u) := by
  obtain ⟨-, h2⟩ := rBasis_spec hs hrb
  choose hv u hu hip using h2
  refine ⟨u, fun i j => hip j i, fun {I E} h => ?_⟩
  obtain ⟨h3, h4⟩ := wedge_foldl_spec hv hu I.reverse (scalarE 1) (valid_scalarE 1)
  rw [den_scalarE, map_one, Spec.one_wedge] at h4
  simp only [recipOfBlade] at h
  split_ifs at h with ho h0
  · have e := Option.some.inj h
    subst e
    exact ⟨1, by rw [recipFactor, if_pos ho]; simp, h3, by rw [one_smul, h4]⟩
  · have e := Option.some.inj h
    subst e
    refine ⟨_, ?_, valid_smulE _ h3, by rw [den_smulE, h4]⟩
    rw [recipFactor, if_neg ho, inv_mul_cancel₀ h0]

/-- The reciprocals of the basis blades exist. -/
theorem reciprocalBlade_isSome (hs : g.IsSymm) (hd : g.det ≠ 0) (I : List (Fin n)) :
    (reciprocalBlade g (.blade I)).isSome = true := by
  have he : eSq g ≠ 0 := by
    rw [eSq_eq hs]
    exact mul_ne_zero (pow_ne_zero _ (by norm_num)) hd
  have h := C21_exists hs hd false
  rw [mvr, if_neg (by simp), rBasisMv, Option.isSome_map] at h
  obtain ⟨rb, hrb⟩ := Option.isSome_iff_exists.mp h
  rw [reciprocalBlade, hrb, Option.bind_some, Option.isSome_map, recipOfBlade]
  split_ifs with h1 h2
  · rfl
  · exact absurd h2 (pow_ne_zero _ he)
  · rfl

/-- The reciprocals of the basis vectors. -/
theorem reciprocalBlade_vec (hs : g.IsSymm) (hd : g.det ≠ 0) :
    ∃ u : Fin n → Fin n → K, (∀ i j, Spec.ip g (Pi.single i 1) (u j) = if i = j then 1 else 0) ∧
      ∀ i, ∃ r, reciprocalBlade g (.blade [i]) = some r ∧ Rep g r (Spec.vec g (u i)) := by
  have key : ∀ i : Fin n, ∃ w : Fin n → K,
      (∀ j, Spec.ip g (Pi.single j 1) w = if j = i then 1 else 0) ∧
      ∃ r, reciprocalBlade g (.blade [i]) = some r ∧ Rep g r (Spec.vec g w) := by
    intro i
    obtain ⟨r, hr⟩ := Option.isSome_iff_exists.mp (reciprocalBlade_isSome hs hd [i])
    have hr' := hr
    rw [reciprocalBlade] at hr'
    obtain ⟨rb, hrb, h1⟩ := Option.bind_eq_some_iff.mp hr'
    obtain ⟨E, hE, rfl⟩ := Option.map_eq_some_iff.mp h1
    obtain ⟨u, hu, hall⟩ := recipOfBlade_spec hs hrb
    obtain ⟨k, hk, hv, hden⟩ := hall hE
    refine ⟨k • u i, fun j => ?_, _, hr, ?_⟩
    · rw [show Spec.ip g (Pi.single j 1) (k • u i) = k * Spec.ip g (Pi.single j 1) (u i) by
        simp [Spec.ip], hu]
      split_ifs
      · simpa using hk
      · rw [mul_zero]
    · have := Rep.ofExpr (g := g) hv
      rw [hden] at this
      simpa [Spec.wedgeL_cons, Spec.wedgeL_nil, Spec.wedge_one, Spec.vec_smul] using this
  choose u hu r hr using key
  exact ⟨u, fun i j => hu j i, fun i => ⟨r i, hr i⟩⟩

/-- The reciprocals of the basis blades. -/
theorem reciprocalBlade_dual (hs : g.IsSymm) (hd : g.det ≠ 0) :
    ∃ E : List (Fin n) → Spec.Cl g,
      (∀ I J, I.Pairwise (· < ·) → J.Pairwise (· < ·) →
        Spec.grade g 0 (E I * Spec.blade g J) = if I = J then 1 else 0) ∧
      ∀ I, ∃ r, reciprocalBlade g (.blade I) = some r ∧ Rep g r (E I) := by
  have key : ∀ I : List (Fin n), ∃ x : Spec.Cl g,
      (∀ J, I.Pairwise (· < ·) → J.Pairwise (· < ·) →
        Spec.grade g 0 (x * Spec.blade g J) = if I = J then 1 else 0) ∧
      ∃ r, reciprocalBlade g (.blade I) = some r ∧ Rep g r x := by
    intro I
    obtain ⟨r, hr⟩ := Option.isSome_iff_exists.mp (reciprocalBlade_isSome hs hd I)
    have hr' := hr
    rw [reciprocalBlade] at hr'
    obtain ⟨rb, hrb, h1⟩ := Option.bind_eq_some_iff.mp hr'
    obtain ⟨E, hE, rfl⟩ := Option.map_eq_some_iff.mp h1
    obtain ⟨u, hu, hall⟩ := recipOfBlade_spec hs hrb
    obtain ⟨k, hk, hv, hden⟩ := hall hE
    refine ⟨den g E, fun J hI hJ => ?_, _, hr, Rep.ofExpr hv⟩
    have h2 := C57_reciprocal_blades hs hrb hI hJ hE
    have rJ := Rep.ofExpr (g := g) (valid_bladeE (R := K) hJ)
    rw [den_bladeE] at rJ
    rw [← ((Rep.ofExpr (g := g) hv).mul hs rJ).scalar, h2]
    split_ifs <;> simp
  choose E h1 h2 using key
  exact ⟨E, fun I J => h1 I J, h2⟩

/-- An element is the sum of its coefficients times basis blades. -/
theorem eq_ofCoefs (z : Spec.Cl g) : ∃ c : Finset (Fin n) → K,
    z = ∑ s : Finset (Fin n), c s • Spec.blade g (s.sort (· ≤ ·)) := by
  refine ⟨fun s => (Pi.basisFun K (Fin n)).ExteriorAlgebra.repr (Spec.toExt g z) s, ?_⟩
  apply (Spec.toExt g).injective
  rw [map_sum]
  simp only [map_smul, Spec.toExt_blade, ← Spec.extBasis_apply]
  exact ((Pi.basisFun K (Fin n)).ExteriorAlgebra.sum_repr _).symm

/-- Elements with the same scalar products with all basis blades are equal. -/
theorem eq_of_pairing (hs : g.IsSymm) (hd : g.det ≠ 0) {x y : Spec.Cl g}
    (h : ∀ J : List (Fin n), J.Pairwise (· < ·) →
      Spec.grade g 0 (x * Spec.blade g J) = Spec.grade g 0 (y * Spec.blade g J)) : x = y := by
  obtain ⟨E, hE, -⟩ := reciprocalBlade_dual hs hd
  have sorted : ∀ s : Finset (Fin n), (s.sort (· ≤ ·)).Pairwise (· < ·) := fun s =>
    (Finset.sortedLT_sort s).pairwise
  have h1 : ∀ w : Spec.Cl g, Spec.grade g 0 ((x - y) * w) = 0 := by
    intro w
    obtain ⟨c, rfl⟩ := eq_ofCoefs w
    rw [Finset.mul_sum, map_sum]
    refine Finset.sum_eq_zero fun s _ => ?_
    rw [mul_smul_comm, map_smul, sub_mul, map_sub, h _ (sorted s), sub_self, smul_zero]
  obtain ⟨c, hc⟩ := eq_ofCoefs (x - y)
  rw [← sub_eq_zero, hc]
  refine Finset.sum_eq_zero fun s _ => ?_
  have h2 := h1 (E (s.sort (· ≤ ·)))
  rw [Spec.grade_zero_mul_comm, hc, Finset.mul_sum, map_sum, Finset.sum_eq_single s] at h2
  · rw [mul_smul_comm, map_smul, hE _ _ (sorted s) (sorted s), if_pos rfl,
      ← Algebra.algebraMap_eq_smul_one] at h2
    rw [algebraMap_inj g (a := c s) (b := 0) (h2.trans (map_zero _).symm), zero_smul]
  · intro t _ hts
    rw [mul_smul_comm, map_smul, hE _ _ (sorted s) (sorted t), if_neg, smul_zero]
    intro e
    apply hts
    have := congrArg List.toFinset e
    simpa using this.symm
  · intro hns; exact absurd (Finset.mem_univ s) hns

end recip

section apply
variable {X : Fields V K n} {D : V → Derivation ℤ K K} {val : V → K}

theorem SymbolFields.compat (h : SymbolFields X D val) (v : V) : Spec.Compatible X.g (D v) 0 := by
  intro i j; rw [h.const]; simp

/-- The derivative by a symbol. -/
theorem SymbolFields.diffN_rep (h : SymbolFields X D val) (v : V) {A : Mv K n} {x : Spec.Cl X.g}
    (hA : Rep X.g A x) : Rep X.g (A.diffN X v 1) (Spec.deriv X.g (D v) 0 x) := by
  obtain ⟨v1, d1⟩ := coefDiff_spec (g := X.g) (D v) hA.valid
  have := Rep.ofExpr (g := X.g) v1.expand
  rw [den_expand, d1, hA.den] at this
  rw [Mv.diffN, Function.iterate_one, h.conn, h.diff]
  change Rep X.g (Mv.ofExpr (expand (A.obj.map fun t => (D v t.1, t.2)))) _
  have e : Spec.deriv X.g (D v) 0 x = Spec.cdiff X.g (D v) x := by
    rw [Spec.deriv]
    rw [nabla_zero, add_zero]
  rw [e]
  exact this

theorem Mv.Const.deriv (h : SymbolFields X D val) {v : V} {A : Mv K n} {x : Spec.Cl X.g}
    (hc : A.Const X v) (hA : Rep X.g A x) : Spec.deriv X.g (D v) 0 x = 0 :=
  ((h.diffN_rep v hA).eq_iff h.symm Rep.zero).mp hc

/-- The operator and its action. -/
theorem makeGrad_spec (h : SymbolFields X D val) {ι : Type*} (L : List ι) (s : ι → V) (b : ι → Sym n)
    (E : ι → Spec.Cl X.g)
    (hE : ∀ i ∈ L, ∃ r, reciprocalBlade X.g (b i) = some r ∧ Rep X.g r (E i)) (cmpflg : Bool) :
    ∃ d, makeGrad X.g (L.map fun i => (s i, b i)) cmpflg = some d ∧ d.cmpflg = cmpflg ∧
      ∀ op {F : Mv K n} {x : Spec.Cl X.g}, Rep X.g F x →
        (cmpflg = false → ∃ G, d.mulMv X op F = .inl G ∧
          Rep X.g G (L.map fun i => opS X.g op (E i) (Spec.deriv X.g (D (s i)) 0 x)).sum) ∧
        (cmpflg = true → ∃ G, Dop.mvMul X op F d = .inl G ∧
          Rep X.g G (L.map fun i => opS X.g op (Spec.deriv X.g (D (s i)) 0 x) (E i)).sum) := by
  obtain ⟨R, hR⟩ : ∃ R : ι → Mv K n, ∀ i ∈ L, reciprocalBlade X.g (b i) = some (R i) ∧ Rep X.g (R i) (E i) := by
    classical
    refine ⟨fun i => (reciprocalBlade X.g (b i)).getD Mv.zero, fun i hi => ?_⟩
    obtain ⟨r, h1, h2⟩ := hE i hi
    simp only [h1, Option.getD_some]; exact ⟨trivial, h2⟩
  have hm : ((L.map fun i => (s i, b i)).mapM fun t : V × Sym n =>
      (reciprocalBlade X.g t.2).map fun r => (r, Pdop.single t.1)) =
        some (L.map fun i => (R i, Pdop.single (s i))) := by
    clear hE
    induction L with
    | nil => rfl
    | cons i L ih =>
      rw [List.map_cons, List.mapM_cons, ih fun j hj => hR j (by simp [hj]), (hR i (by simp)).1]
      rfl
  refine ⟨_, by rw [makeGrad, hm]; rfl, rfl, fun op F x hF => ⟨fun hc => ⟨_, by rw [Dop.mulMv, if_pos hc], ?_⟩,
    fun hc => ⟨_, by rw [Dop.mvMul, if_neg (by rw [hc]; exact Bool.noConfusion)], ?_⟩⟩⟩
  · rw [List.map_map]
    have := foldl_add_rep h.symm L (fun i => Mv.mulOp X.g op (R i) (F.diffN X (s i) 1))
      (fun i => opS X.g op (E i) (Spec.deriv X.g (D (s i)) 0 x))
      (fun i hi => mulOp_rep h.symm op (hR i hi).2 (h.diffN_rep (s i) hF)) (Rep.scalarMv (g := X.g) 0)
    rw [map_zero, zero_add] at this
    exact this
  · rw [List.map_map]
    have := foldl_add_rep h.symm L (fun i => Mv.mulOp X.g op (F.diffN X (s i) 1) (R i))
      (fun i => opS X.g op (Spec.deriv X.g (D (s i)) 0 x) (E i))
      (fun i hi => mulOp_rep h.symm op (h.diffN_rep (s i) hF) (hR i hi).2) (Rep.scalarMv (g := X.g) 0)
    rw [map_zero, zero_add] at this
    exact this

end apply

end GA
