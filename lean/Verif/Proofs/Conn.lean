import Verif.Proofs.Deriv
import Verif.Proofs.Flags
import Verif.Proofs.Recip
import Verif.Spec.Conn

/-! Derivatives of multivectors. -/

set_option linter.unusedSectionVars false

namespace GA
variable {n : ℕ} {K : Type*} [Field K] [DecidableEq K] [Invertible (2 : K)]
  {g : Matrix (Fin n) (Fin n) K}

theorem flatMap_sum_spec (f : Fin n → Expr K n) (hf : ∀ k, Valid (f k)) :
    Valid ((List.finRange n).flatMap f) ∧
      den g ((List.finRange n).flatMap f) = ∑ k, den g (f k) := by
  have key : ∀ l : List (Fin n), Valid (l.flatMap f) ∧
      den g (l.flatMap f) = (l.map fun k => den g (f k)).sum := by
    intro l
    induction l with
    | nil => exact ⟨valid_nil, rfl⟩
    | cons k l ih =>
      rw [List.flatMap_cons]
      refine ⟨valid_addE (hf k) ih.1, ?_⟩
      rw [List.map_cons, List.sum_cons, ← ih.2]
      exact den_addE g _ _
  refine ⟨(key _).1, (key _).2.trans ?_⟩
  rw [← List.sum_toFinset _ (List.nodup_finRange n)]
  simp

theorem nabla_blade (Γ : Matrix (Fin n) (Fin n) K) (l : List (Fin n)) :
    Spec.nabla g Γ (Spec.blade g l) = (l.zipIdx.map fun p =>
      Spec.wedge g (Spec.wedge g (Spec.blade g (l.take p.2)) (Spec.vec g fun k => Γ k p.1))
        (Spec.blade g (l.drop (p.2 + 1)))).sum := by
  induction l with
  | nil => rw [Spec.blade_nil, Spec.nabla_one]; rfl
  | cons i l ih =>
    have e1 : ∀ m, Spec.blade g (i :: m) = Spec.wedge g (Spec.vec g (Pi.single i 1)) (Spec.blade g m) := by
      intro m
      have := Spec.wedge_blade (g := g) [i] m
      rw [Spec.blade_singleton] at this
      exact this.symm
    have e2 : Γ.mulVec (Pi.single i 1) = fun k => Γ k i := by
      funext k; simp
    rw [e1, Spec.nabla_wedge, Spec.nabla_vec, ih, e2, List.zipIdx_cons, List.map_cons, List.sum_cons]
    congr 1
    · simp [Spec.blade_nil, Spec.one_wedge]
    · rw [List.zipIdx_succ, List.map_map]
      have : ∀ L : List (Spec.Cl g), Spec.wedge g (Spec.vec g (Pi.single i 1)) L.sum =
          (L.map fun x => Spec.wedge g (Spec.vec g (Pi.single i 1)) x).sum := by
        intro L
        induction L with
        | nil => simp [Spec.wedge_zero]
        | cons a L ih => rw [List.sum_cons, Spec.wedge_add, ih, List.map_cons, List.sum_cons]
      rw [this, List.map_map]
      congr 1
      refine List.map_congr_left fun p _ => ?_
      simp only [Function.comp_apply, List.take_succ_cons, List.drop_succ_cons]
      rw [e1, Spec.wedge_assoc, Spec.wedge_assoc, Spec.wedge_assoc]

theorem nabla_zero (x : Spec.Cl g) : Spec.nabla g (0 : Matrix (Fin n) (Fin n) K) x = 0 := by
  induction x using Spec.blade_induction g with
  | h0 => simp
  | hadd a b ha hb => rw [map_add, ha, hb, add_zero]
  | hsm c l hl =>
    rw [map_smul, nabla_blade]
    have h0 : Spec.vec g (fun _ => (0 : K)) = 0 := map_zero _
    have : ∀ p : Fin n × ℕ, Spec.wedge g (Spec.wedge g (Spec.blade g (l.take p.2))
        (Spec.vec g fun k => (0 : Matrix (Fin n) (Fin n) K) k p.1))
        (Spec.blade g (l.drop (p.2 + 1))) = 0 := by
      intro p
      simp only [Matrix.zero_apply]
      rw [h0, Spec.wedge_zero, Spec.zero_wedge]
    simp only [this]
    simp

theorem bladeDerivation_spec {dei : Fin n → Expr K n} {Γ : Matrix (Fin n) (Fin n) K}
    (h : ∀ j, Valid (dei j) ∧ den g (dei j) = Spec.vec g fun k => Γ k j) {l : List (Fin n)}
    (hl : l.Pairwise (· < ·)) : Valid (bladeDerivation dei l) ∧
      den g (bladeDerivation dei l) = Spec.nabla g Γ (Spec.blade g l) := by
  have key : ∀ (ps : List (Fin n × ℕ)) (E : Expr K n), Valid E →
      Valid (ps.foldl (fun db p => addE db
        (wedge (wedge (bladeE (l.take p.2)) (dei p.1)) (bladeE (l.drop (p.2 + 1))))) E) ∧
      den g (ps.foldl (fun db p => addE db
        (wedge (wedge (bladeE (l.take p.2)) (dei p.1)) (bladeE (l.drop (p.2 + 1))))) E) =
      den g E + (ps.map fun p =>
        Spec.wedge g (Spec.wedge g (Spec.blade g (l.take p.2)) (Spec.vec g fun k => Γ k p.1))
        (Spec.blade g (l.drop (p.2 + 1)))).sum := by
    intro ps
    induction ps with
    | nil => intro E hE; exact ⟨hE, by simp⟩
    | cons p ps ih =>
      intro E hE
      have v1 : Valid (bladeE (l.take p.2) : Expr K n) := valid_bladeE (hl.sublist (List.take_sublist _ _))
      have v2 : Valid (bladeE (l.drop (p.2 + 1)) : Expr K n) :=
        valid_bladeE (hl.sublist (List.drop_sublist _ _))
      have v3 := wedge_valid v1 (h p.1).1
      have v4 := wedge_valid v3 v2
      obtain ⟨h1, h2⟩ := ih _ (valid_addE hE v4)
      refine ⟨h1, ?_⟩
      rw [List.foldl_cons, h2, den_addE, den_wedge g v3 v2, den_wedge g v1 (h p.1).1, den_bladeE,
        den_bladeE, (h p.1).2, List.map_cons, List.sum_cons, add_assoc]
  obtain ⟨h1, h2⟩ := key l.zipIdx [] valid_nil
  refine ⟨h1, ?_⟩
  rw [nabla_blade]
  exact h2.trans (by simp)

theorem coefDiff_spec (D : Derivation ℤ K K) {E : Expr K n} (hE : Valid E) :
    Valid (E.map fun t => (D t.1, t.2)) ∧
      den g (E.map fun t => (D t.1, t.2)) = Spec.cdiff g D (den g E) := by
  constructor
  · intro t ht
    obtain ⟨s, hs, rfl⟩ := List.mem_map.mp ht
    exact hE s hs
  · induction E with
    | nil => rw [List.map_nil, den_nil, Spec.cdiff_zero]
    | cons t E ih =>
      obtain ⟨l, hl, -⟩ := hE t (by simp)
      have e : den g (t :: E) = t.1 • symDen g t.2 + den g E := by simp [den]
      have e' : ∀ a : K × Sym n, ∀ F : Expr K n, den g (a :: F) = a.1 • symDen g a.2 + den g F := by
        intro a F; simp [den]
      rw [List.map_cons, e', ih fun s hs => hE s (by simp [hs]), e, Spec.cdiff_add, Spec.cdiff_smul, hl,
        symDen, Spec.cdiff_blade, smul_zero, add_zero]

/-- The value of the derivative of a multivector. -/
theorem pDiff_rep (hs : g.IsSymm) {conn : Option (Fin n → Fin n → Expr K n)}
    {Γ : Fin n → Matrix (Fin n) (Fin n) K} (hc : IsConnection g conn Γ) (D : Derivation ℤ K K)
    (i : Fin n) {A : Mv K n} {x : Spec.Cl g} (hA : Rep g A x) :
    ∃ B, A.pDiff g conn D (some i) = some B ∧ Rep g B (Spec.deriv g D (Γ i) x) := by
  obtain ⟨v1, d1⟩ := coefDiff_spec (g := g) D hA.valid
  have r0 : Rep g (Mv.ofExpr (expand (A.obj.map fun t => (D t.1, t.2)))) (Spec.cdiff g D x) := by
    have := Rep.ofExpr (g := g) v1.expand
    rw [den_expand, d1, hA.den] at this
    exact this
  cases conn with
  | none =>
    have hc' : Γ = 0 := hc
    refine ⟨_, rfl, r0.congr ?_⟩
    rw [Spec.deriv, hc', Pi.zero_apply, nabla_zero, add_zero]
  | some de =>
    by_cases hsc : A.isScalar g = true
    · obtain ⟨c, hc'⟩ := (isScalar_iff hs hA.wf).mp hsc
      refine ⟨_, by rw [Mv.pDiff]; simp only [hsc, if_true], r0.congr ?_⟩
      rw [Spec.deriv, ← hA.val, hc', Algebra.algebraMap_eq_smul_one, map_smul, Spec.nabla_one, smul_zero,
        add_zero]
    · have key : ∀ (ts : Expr K n) (B : Mv K n) (y : Spec.Cl g), Valid ts → Rep g B y →
          ∃ B', (ts.filter fun t => decide (t.2 ≠ .blade [])).foldlM (fun (dA : Mv K n) t =>
            (some i).map fun i => Mv.ofExpr (addE dA.obj (smulE t.1 (symDerivation (de i) t.2)))) B
              = some B' ∧ Rep g B' (y + Spec.nabla g (Γ i) (den g ts)) := by
        intro ts
        induction ts with
        | nil => intro B y _ hB; exact ⟨B, rfl, hB.congr (by simp)⟩
        | cons t ts ih =>
          intro B y hts hB
          obtain ⟨l, hl, hl'⟩ := hts t (by simp)
          have hts' : Valid ts := fun s hs => hts s (by simp [hs])
          have e : den g (t :: ts) = t.1 • symDen g t.2 + den g ts := by simp [den]
          obtain ⟨v2, d2⟩ := bladeDerivation_spec (g := g) (fun j => hc i j) hl'
          by_cases h0 : l = []
          · subst h0
            obtain ⟨B', hB', hr⟩ := ih B y hts' hB
            refine ⟨B', by rw [List.filter_cons_of_neg (by simp [hl])]; exact hB', hr.congr ?_⟩
            rw [e, hl, map_add, map_smul, symDen, Spec.blade_nil, Spec.nabla_one, smul_zero, zero_add]
          · have hr := Rep.ofExpr (g := g) (valid_addE hB.valid (valid_smulE t.1 v2))
            rw [den_addE, den_smulE, hB.den, d2] at hr
            obtain ⟨B', hB', hr'⟩ := ih _ _ hts' hr
            refine ⟨B', ?_, hr'.congr ?_⟩
            · rw [List.filter_cons_of_pos (by simp [hl, h0]), List.foldlM_cons, hl]
              exact hB'
            · rw [e, hl, map_add, map_smul, symDen, add_assoc]
      obtain ⟨B', hB', hr⟩ := key A.obj _ _ hA.valid r0
      refine ⟨B', ?_, hr.congr ?_⟩
      · rw [Mv.pDiff]; simp only [hsc]; exact hB'
      · rw [hA.den]; rfl

/-! ### The Christoffel connection -/

theorem ip_col (hs : g.IsSymm) (M : Matrix (Fin n) (Fin n) K) (j l : Fin n) :
    Spec.ip g (fun k => M k j) (Pi.single l 1) = ∑ k, M k j * g k l := by
  rw [Spec.ip_comm, Spec.ip_single hs]
  exact Finset.sum_congr rfl fun k _ => by rw [hs.apply, mul_comm]

theorem compatible_of_ip (hs : g.IsSymm) {D : Derivation ℤ K K} {M : Matrix (Fin n) (Fin n) K}
    (h : ∀ j l, D (g j l) = Spec.ip g (fun k => M k j) (Pi.single l 1) +
      Spec.ip g (fun k => M k l) (Pi.single j 1)) : Spec.Compatible g D M := by
  intro j l
  rw [h, ip_col hs, ip_col hs]
  congr 1
  exact Finset.sum_congr rfl fun k _ => by rw [hs.apply, mul_comm]

theorem normMetric_symm (hs : g.IsSymm) (N : Fin n → K) : (normMetric N g).IsSymm := by
  ext i j
  simp only [normMetric, Matrix.transpose_apply, Matrix.of_apply, mul_comm (N i), hs.apply]

theorem currentMetric_symm (hs : g.IsSymm) (N : Option (Fin n → K)) :
    (currentMetric N g).IsSymm := by
  cases N with
  | none => exact hs
  | some N => exact normMetric_symm hs N

theorem gamma1_compat (D : Fin n → K → K) (hs : g.IsSymm) (i j k : Fin n) :
    gamma1 D g i j k + gamma1 D g i k j = D i (g j k) := by
  simp only [gamma1, dg]
  rw [hs.apply j k]
  have h2 : (2 : K) * ⅟2 = 1 := mul_invOf_self 2
  linear_combination (D i (g j k)) * h2

theorem de_spec (hs : g.IsSymm) (D : Fin n → Derivation ℤ K K) {N : Option (Fin n → K)}
    {de' : Fin n → Fin n → Expr K n} (h : de (fun i => D i) g N = some de') :
    ∃ Γ : Fin n → Matrix (Fin n) (Fin n) K, IsConnection (currentMetric N g) (some de') Γ ∧
      (∀ i, Spec.Compatible (currentMetric N g) (D i) (Γ i)) ∧
      (N = none → ∀ i j l, ∑ k, Γ i k j * g k l = gamma1 (fun i => D i) g i j l) ∧
      (∀ N', N = some N' → (∀ i, N' i ≠ 0) ∧ ∀ i j l,
        ∑ k, Γ i k j * currentMetric N g k l =
          (N' j)⁻¹ * (gamma1 (fun i => D i) g i j l / N' l - D i (N' j) * currentMetric N g j l)) := by
  have hsc := currentMetric_symm hs N
  rw [de] at h
  split_ifs at h with h1 h2 h0
  · simp at h
  rw [Option.bind_eq_some_iff] at h
  obtain ⟨rb, hrb, h⟩ := h
  have e := Option.some.inj h
  subst e
  obtain ⟨-, hr⟩ := rBasis_spec hsc hrb
  choose hv u hu hip using hr
  cases N with
  | none =>
    simp only [currentMetric] at *
    have hc0 : recipFactor g ≠ 0 := by
      rw [recipFactor]
      split_ifs with ho
      · exact one_ne_zero
      · exact fun h => h0 ⟨by simpa using ho, h⟩
    have hkey : ∀ i j l, Spec.ip g (fun k => (recipFactor g)⁻¹ * ∑ m, gamma1 (fun i => D i) g i j m * u m k)
        (Pi.single l 1) = gamma1 (fun i => D i) g i j l := by
      intro i j l
      have e1 : (fun k => (recipFactor g)⁻¹ * ∑ m, gamma1 (fun i => D i) g i j m * u m k) =
          (recipFactor g)⁻¹ • ∑ m, gamma1 (fun i => D i) g i j m • u m := by
        funext k
        simp [Finset.sum_apply]
      rw [Spec.ip_comm, e1]
      simp only [Spec.ip, map_smul, map_sum]
      simp only [Spec.ip] at hip
      simp only [hip, smul_eq_mul]
      rw [Finset.sum_eq_single l]
      · rw [if_pos rfl]; field_simp
      · intro m _ hm; rw [if_neg (Ne.symm hm), mul_zero]
      · simp
    refine ⟨fun i => Matrix.of fun k j => (recipFactor g)⁻¹ * ∑ m, gamma1 (fun i => D i) g i j m * u m k,
      ?_, ?_, ?_, fun N' h => by cases h⟩
    · intro i j
      obtain ⟨v1, d1⟩ := flatMap_sum_spec (g := g) (fun k => smulE (gamma1 (fun i => D i) g i j k)
        (rb.getD k errorE)) fun k => valid_smulE _ (hv k)
      have e1 : (Spec.vec g fun k => (Matrix.of fun k j =>
          (recipFactor g)⁻¹ * ∑ m, gamma1 (fun i => D i) g i j m * u m k) k j) =
          (recipFactor g)⁻¹ • ∑ m, gamma1 (fun i => D i) g i j m • Spec.vec g (u m) := by
        simp only [Spec.vec, ← map_smul, ← map_sum]
        congr 1
        funext k
        simp [Finset.sum_apply]
      simp only [den_smulE, hu] at d1
      simp only [deEntry]
      rw [e1]
      split_ifs with ho
      · refine ⟨v1, d1.trans ?_⟩
        rw [recipFactor, if_pos ho, inv_one, one_smul]
      · refine ⟨valid_smulE _ v1, ?_⟩
        rw [den_smulE, d1, recipFactor, if_neg ho]; rfl
    · intro i
      refine compatible_of_ip hs fun j l => ?_
      simp only [Matrix.of_apply]
      rw [hkey, hkey, gamma1_compat _ hs]
    · intro _ i j l
      rw [← ip_col hs]
      exact hkey i j l
  | some N =>
    have ho : isOrtho g = true := by
      by_contra hno
      exact h1 ⟨rfl, by simpa using hno⟩
    have hN : ∀ i, N i ≠ 0 := by
      intro i hi
      exact h2 (by simpa using ⟨i, hi⟩)
    have hoc : isOrtho (currentMetric (some N) g) = true := by
      rw [isOrtho_iff] at ho ⊢
      intro i j hij
      simp [currentMetric, normMetric, ho i j hij]
    have hf : recipFactor (currentMetric (some N) g) = 1 := by rw [recipFactor, if_pos hoc]
    set gc := currentMetric (some N) g with hgc
    have hgce : ∀ i j, gc i j = g i j / (N i * N j) := fun i j => rfl
    set γ := gamma1 (fun i => ⇑(D i)) g with hγ
    have hkey : ∀ i j l, Spec.ip gc ((N j)⁻¹ • (∑ m, (γ i j m / N m) • u m - D i (N j) • Pi.single j 1))
        (Pi.single l 1) = (N j)⁻¹ * (γ i j l / N l - D i (N j) * gc j l) := by
      intro i j l
      rw [Spec.ip_comm]
      simp only [Spec.ip] at hip
      simp only [Spec.ip, map_smul, map_sum, map_sub, smul_eq_mul, hip, hf]
      have h3 : QuadraticMap.associated (R := K) (Spec.Q gc) (Pi.single l 1) (Pi.single j 1) = gc j l := by
        rw [Spec.associated_single gc (fun a b => hsc.apply b a), hsc.apply]
      rw [h3, Finset.sum_eq_single l]
      · rw [if_pos rfl, mul_one]
      · intro m _ hm; rw [if_neg (Ne.symm hm), mul_zero]
      · simp
    refine ⟨fun i => Matrix.of fun k j =>
      ((N j)⁻¹ • (∑ m, (γ i j m / N m) • u m - D i (N j) • (Pi.single j 1 : Fin n → K))) k, ?_, ?_, ?_, ?_⟩
    · intro i j
      obtain ⟨v1, d1⟩ := flatMap_sum_spec (g := gc) (fun k => smulE (γ i j k / N k)
        (rb.getD k errorE)) fun k => valid_smulE _ (hv k)
      have v2 : Valid ([(D i (N j), .blade [j])] : Expr K n) := by
        have := valid_smulE (D i (N j)) (valid_bladeE (R := K) (l := [j]) (by simp))
        rwa [smulE, bladeE, List.map_singleton, mul_one] at this
      have d2 : den gc ([(D i (N j), .blade [j])] : Expr K n) = D i (N j) • Spec.vec gc (Pi.single j 1) := by
        have := Spec.blade_singleton gc j
        simp [den, symDen, this, Spec.e]
      simp only [den_smulE, hu] at d1
      simp only [deEntry, ho, if_true]
      refine ⟨valid_smulE _ (valid_subE v1 v2), ?_⟩
      rw [den_smulE, den_subE, d2, d1]
      simp only [Matrix.of_apply, Spec.vec, ← map_smul, ← map_sum, ← map_sub]
    · intro i
      refine compatible_of_ip hsc fun j l => ?_
      have h4 := hkey i j l
      have h5 := hkey i l j
      simp only [Matrix.of_apply]
      rw [show (fun k => ((N j)⁻¹ • (∑ m, (γ i j m / N m) • u m - D i (N j) • (Pi.single j 1 : Fin n → K))) k)
        = _ from rfl, h4, show (fun k => ((N l)⁻¹ • (∑ m, (γ i l m / N m) • u m -
          D i (N l) • (Pi.single l 1 : Fin n → K))) k) = _ from rfl, h5, hgce, hgce, hs.apply j l,
        Derivation.leibniz_div, Derivation.leibniz]
      have h6 := gamma1_compat (fun i => ⇑(D i)) hs i j l
      rw [← hγ] at h6
      have := hN j
      have := hN l
      simp only [smul_eq_mul]
      rw [← h6]
      field_simp
      ring
    · intro h; cases h
    · rintro N' h
      cases h
      refine ⟨hN, fun i j l => ?_⟩
      rw [← hkey i j l, ← ip_col hsc]
      rfl

theorem connectFlg_false {D : Fin n → K → K} :
    connectFlg D g = false ↔ ∀ i j k, D k (g i j) = 0 := by
  simp only [connectFlg, dg, List.any_eq_false, List.mem_finRange, true_imp_iff]
  constructor
  · intro h i j k
    have := h i
    rw [List.any_eq_true] at this
    by_contra hne
    exact this ⟨j, by simp, List.any_eq_true.mpr ⟨k, by simp, decide_eq_true hne⟩⟩
  · intro h i
    rw [List.any_eq_true]
    rintro ⟨j, -, hj⟩
    obtain ⟨k, -, hk⟩ := List.any_eq_true.mp hj
    exact of_decide_eq_true hk (h i j k)

/-- The connection of an algebra is compatible with its metric. -/
theorem connOf_spec (hs : g.IsSymm) (D : Fin n → Derivation ℤ K K) {N : Option (Fin n → K)}
    (hN : ∀ N', N = some N' → ∀ i, N' i ^ 2 = g i i ∨ N' i ^ 2 = - g i i)
    {conn : Option (Fin n → Fin n → Expr K n)} (h : connOf (fun i => D i) g N = some conn) :
    ∃ Γ : Fin n → Matrix (Fin n) (Fin n) K, IsConnection (currentMetric N g) conn Γ ∧
      (∀ i, Spec.Compatible (currentMetric N g) (D i) (Γ i)) := by
  rw [connOf] at h
  split_ifs at h with hf
  · rw [Option.map_eq_some_iff] at h
    obtain ⟨de', h1, rfl⟩ := h
    obtain ⟨Γ, h2, h3, -⟩ := de_spec hs D h1
    exact ⟨Γ, h2, h3⟩
  · have e := Option.some.inj h
    subst e
    refine ⟨0, rfl, fun i j k => ?_⟩
    rw [Bool.not_eq_true, connectFlg_false] at hf
    have : D i (currentMetric N g j k) = 0 := by
      cases N with
      | none => exact hf j k i
      | some N =>
        have h0 : ∀ j, D i (N j) = 0 := by
          intro j
          have h2 : (2 : K) ≠ 0 := (isUnit_of_invertible (2 : K)).ne_zero
          have h1 : D i (N j ^ 2) = 0 := by
            rcases hN N rfl j with h | h
            · rw [h]; exact hf j j i
            · rw [h, map_neg, neg_eq_zero]; exact hf j j i
          rw [sq, Derivation.leibniz, smul_eq_mul, ← two_mul] at h1
          rcases mul_eq_zero.mp h1 with h | h
          · exact absurd h h2
          · rcases mul_eq_zero.mp h with h | h
            · rw [h, map_zero]
            · exact h
        have h3 := hf j k i
        simp only [currentMetric, normMetric, Matrix.of_apply]
        rw [Derivation.leibniz_div, Derivation.leibniz, h0, h0]
        have h3' : D i (g j k) = 0 := h3
        simp [h3']
    rw [this]
    simp

end GA
