import Verif.Proofs.Conn
import Verif.Proofs.RatFun
import Verif.Props.C21

/-!
# C43, C44, C59: derivatives of multivector fields, Christoffel symbols, product rules

`A.pDiff g conn D (some i)` models `Ga.pDiff(A, coords[i])`; `D` is the derivative of coefficients,
`conn` the derivatives of the basis vectors (`Ga.de`), `none` if `connect_flg` is false.  The result
`none` is an exception.
-/

set_option linter.unusedSectionVars false
set_option maxRecDepth 10000

namespace GA
variable {n : ℕ} {K : Type*} [Field K] [DecidableEq K] [Invertible (2 : K)]
  {g : Matrix (Fin n) (Fin n) K} {conn : Option (Fin n → Fin n → Expr K n)}
  {Γ : Fin n → Matrix (Fin n) (Fin n) K}

/-! ### C43 -/

/-- C43: the derivative of a sum. -/
theorem C43_add (hs : g.IsSymm) (hc : IsConnection g conn Γ) (D : Derivation ℤ K K) (i : Fin n)
    {A B : Mv K n} (hA : A.WF g) (hA' : A.isBladeRep = true) (hB : B.WF g)
    (hB' : B.isBladeRep = true) :
    ∃ A' B' C', A.pDiff g conn D (some i) = some A' ∧ B.pDiff g conn D (some i) = some B' ∧
      (A.add g B).pDiff g conn D (some i) = some C' ∧ C'.eq g (A'.add g B') = true := by
  have rA := Rep.of_wf hA hA'
  have rB := Rep.of_wf hB hB'
  obtain ⟨A', h1, r1⟩ := pDiff_rep hs hc D i rA
  obtain ⟨B', h2, r2⟩ := pDiff_rep hs hc D i rB
  obtain ⟨C', h3, r3⟩ := pDiff_rep hs hc D i (Rep.add hs rA rB)
  exact ⟨A', B', C', h1, h2, h3, (r3.eq_iff hs (Rep.add hs r1 r2)).mpr (Spec.deriv_add _ _ _ _)⟩

/-- C43: the derivative of a scalar function times a multivector field. -/
theorem C43_smul (hs : g.IsSymm) (hc : IsConnection g conn Γ) (D : Derivation ℤ K K) (i : Fin n)
    (f : K) {A : Mv K n} (hA : A.WF g) (hA' : A.isBladeRep = true) :
    ∃ A' C', A.pDiff g conn D (some i) = some A' ∧ (A.smul f).pDiff g conn D (some i) = some C' ∧
      C'.eq g ((A.smul (D f)).add g (A'.smul f)) = true := by
  have rA := Rep.of_wf hA hA'
  obtain ⟨A', h1, r1⟩ := pDiff_rep hs hc D i rA
  obtain ⟨C', h3, r3⟩ := pDiff_rep hs hc D i (rA.smul f)
  exact ⟨A', C', h1, h3, (r3.eq_iff hs (Rep.add hs (rA.smul _) (r1.smul _))).mpr
    (Spec.deriv_smul _ _ _ _)⟩

/-- C43: the product rule for the outer product. -/
theorem C43_wedge (hs : g.IsSymm) (hc : IsConnection g conn Γ) (D : Derivation ℤ K K) (i : Fin n)
    {A B : Mv K n} (hA : A.WF g) (hA' : A.isBladeRep = true) (hB : B.WF g)
    (hB' : B.isBladeRep = true) :
    ∃ A' B' C', A.pDiff g conn D (some i) = some A' ∧ B.pDiff g conn D (some i) = some B' ∧
      (A.wedge g B).pDiff g conn D (some i) = some C' ∧
      C'.eq g ((A'.wedge g B).add g (A.wedge g B')) = true := by
  have rA := Rep.of_wf hA hA'
  have rB := Rep.of_wf hB hB'
  obtain ⟨A', h1, r1⟩ := pDiff_rep hs hc D i rA
  obtain ⟨B', h2, r2⟩ := pDiff_rep hs hc D i rB
  obtain ⟨C', h3, r3⟩ := pDiff_rep hs hc D i (Rep.wedge hs rA rB)
  exact ⟨A', B', C', h1, h2, h3,
    (r3.eq_iff hs (Rep.add hs (Rep.wedge hs r1 rB) (Rep.wedge hs rA r2))).mpr
      (Spec.deriv_wedge _ _ _ _)⟩

/-- C43: the derivative of a vector field. -/
theorem C43_vector (hs : g.IsSymm) (hc : IsConnection g conn Γ) (D : Derivation ℤ K K) (i : Fin n)
    (v : Fin n → K) :
    ∃ C', (Mv.vector v).pDiff g conn D (some i) = some C' ∧
      C'.eq g (Mv.vector fun j => D (v j) + ∑ k, Γ i j k * v k) = true := by
  obtain ⟨C', h3, r3⟩ := pDiff_rep hs hc D i (Rep.vector (g := g) v)
  exact ⟨C', h3, (r3.eq_iff hs (Rep.vector _)).mpr (Spec.deriv_vec _ _ _)⟩

/-- C43: the derivative of a scalar function. -/
theorem C43_scalar (hs : g.IsSymm) (hc : IsConnection g conn Γ) (D : Derivation ℤ K K) (i : Fin n)
    (f : K) :
    ∃ C', (Mv.scalarMv f).pDiff g conn D (some i) = some C' ∧ C'.eq g (Mv.scalarMv (D f)) = true := by
  obtain ⟨C', h3, r3⟩ := pDiff_rep hs hc D i (Rep.scalarMv (g := g) f)
  exact ⟨C', h3, (r3.eq_iff hs (Rep.scalarMv _)).mpr (Spec.deriv_algebraMap _ _ _)⟩

/-- C43: the derivative keeps grades. -/
theorem C43_grade (hs : g.IsSymm) (hc : IsConnection g conn Γ) (D : Derivation ℤ K K) (i : Fin n)
    (r : ℕ) {A : Mv K n} (hA : A.WF g) (hA' : A.isBladeRep = true) :
    ∃ A' C', A.pDiff g conn D (some i) = some A' ∧
      (A.getGrade r).pDiff g conn D (some i) = some C' ∧ C'.eq g (A'.getGrade r) = true := by
  have rA := Rep.of_wf hA hA'
  obtain ⟨A', h1, r1⟩ := pDiff_rep hs hc D i rA
  obtain ⟨C', h3, r3⟩ := pDiff_rep hs hc D i (rA.getGrade r)
  exact ⟨A', C', h1, h3, (r3.eq_iff hs (r1.getGrade r)).mpr (Spec.deriv_grade _ _ _ _)⟩

/-- C43: `blade_derivation` of a basis vector is its given derivative, of the scalar blade zero, and
of `e_I ∧ e_J` (`I` before `J`) follows the product rule. -/
theorem C43_blade_derivation (hs : g.IsSymm) {dei : Fin n → Expr K n}
    {Γ : Matrix (Fin n) (Fin n) K}
    (h : ∀ j, Valid (dei j) ∧ den g (dei j) = Spec.vec g fun k => Γ k j) :
    (Mv.ofExpr (bladeDerivation dei [])).eq g Mv.zero = true ∧
    (∀ j, (Mv.ofExpr (bladeDerivation dei [j])).eq g (Mv.ofExpr (dei j)) = true) ∧
    ∀ I J : List (Fin n), (I ++ J).Pairwise (· < ·) →
      (Mv.ofExpr (bladeDerivation dei (I ++ J))).eq g
        (((Mv.ofExpr (bladeDerivation dei I)).wedge g (Mv.ofExpr (bladeE J))).add g
          ((Mv.ofExpr (bladeE I)).wedge g (Mv.ofExpr (bladeDerivation dei J)))) = true := by
  have rb : ∀ {l : List (Fin n)}, l.Pairwise (· < ·) →
      Rep g (Mv.ofExpr (bladeDerivation dei l)) (Spec.nabla g Γ (Spec.blade g l)) := by
    intro l hl
    obtain ⟨v, d⟩ := bladeDerivation_spec (g := g) h hl
    rw [← d]; exact Rep.ofExpr v
  have re : ∀ {l : List (Fin n)}, l.Pairwise (· < ·) →
      Rep g (Mv.ofExpr (bladeE l)) (Spec.blade g l) := by
    intro l hl
    have := Rep.ofExpr (g := g) (valid_bladeE (R := K) hl)
    rwa [den_bladeE] at this
  refine ⟨?_, fun j => ?_, fun I J hIJ => ?_⟩
  · rw [(rb List.Pairwise.nil).eq_iff hs Rep.zero, Spec.blade_nil, Spec.nabla_one]
  · rw [(rb (List.pairwise_singleton _ _)).eq_iff hs (Rep.ofExpr (h j).1), (h j).2, Spec.blade_singleton,
      Spec.e, Spec.nabla_vec]
    congr 1
    funext k; simp
  · obtain ⟨hI, hJ, -⟩ := List.pairwise_append.mp hIJ
    rw [(rb hIJ).eq_iff hs (Rep.add hs (Rep.wedge hs (rb hI) (re hJ)) (Rep.wedge hs (re hI) (rb hJ))),
      ← Spec.wedge_blade, Spec.nabla_wedge]

/-- C43: a list of orders means: differentiate `orders i` times by coordinate `i`, for each `i` in
order. -/
theorem C43_orders (hs : g.IsSymm) (hc : IsConnection g conn Γ) (D : Fin n → Derivation ℤ K K)
    (orders : Fin n → ℕ) {A : Mv K n} (hA : A.WF g) (hA' : A.isBladeRep = true) :
    ∃ B, A.pDiffOrders g conn (fun i => D i) orders = some B ∧ B.WF g ∧ B.isBladeRep = true ∧
      B.val g = (List.finRange n).foldl
        (fun x i => (Spec.deriv g (D i) (Γ i))^[orders i] x) (A.val g) := by
  have h1 : ∀ (k : ℕ) (i : Fin n) {A : Mv K n} {x : Spec.Cl g}, Rep g A x → ∃ B,
      (List.replicate k i).foldlM (fun dA i => Mv.pDiff g conn (D i) (some i) dA) A = some B ∧
        Rep g B ((Spec.deriv g (D i) (Γ i))^[k] x) := by
    intro k i
    induction k with
    | zero => intro A x h; exact ⟨A, rfl, h⟩
    | succ k ih =>
      intro A x h
      obtain ⟨A', e, h'⟩ := pDiff_rep hs hc (D i) i h
      obtain ⟨B, e', hB⟩ := ih h'
      refine ⟨B, ?_, hB⟩
      rw [List.replicate_succ, List.foldlM_cons, e]
      exact e'
  have h2 : ∀ (l : List (Fin n)) {A : Mv K n} {x : Spec.Cl g}, Rep g A x → ∃ B,
      l.foldlM (fun dA i => (List.replicate (orders i) i).foldlM
        (fun dA i => Mv.pDiff g conn (D i) (some i) dA) dA) A = some B ∧
        Rep g B (l.foldl (fun x i => (Spec.deriv g (D i) (Γ i))^[orders i] x) x) := by
    intro l
    induction l with
    | nil => intro A x h; exact ⟨A, rfl, h⟩
    | cons i l ih =>
      intro A x h
      obtain ⟨A', e, h'⟩ := h1 (orders i) i h
      obtain ⟨B, e', hB⟩ := ih h'
      refine ⟨B, ?_, hB⟩
      rw [List.foldlM_cons, e]
      exact e'
  obtain ⟨B, e, hB⟩ := h2 (List.finRange n) (Rep.of_wf hA hA')
  exact ⟨B, e, hB.wf, hB.flag, hB.val⟩

/-- C43: in an algebra with a connection, differentiating a field that is not a scalar by a symbol
that is not a coordinate raises. -/
theorem C43_not_a_coordinate_raises (hs : g.IsSymm) (de : Fin n → Fin n → Expr K n) (D : K → K)
    {A : Mv K n} (hA : A.WF g) (hA' : ∀ c, A.val g ≠ algebraMap K _ c) :
    A.pDiff g (some de) D none = none := by
  have h1 : ¬ A.isScalar g = true := by
    rw [isScalar_iff hs hA]
    rintro ⟨c, hc⟩; exact hA' c hc
  rw [Mv.pDiff]
  simp only [h1]
  obtain ⟨t, ht⟩ : ∃ t, t ∈ A.obj.filter fun t : K × Sym n => decide (t.2 ≠ .blade []) := by
    by_contra hcon
    push Not at hcon
    have h2 : ∀ t ∈ A.obj, t.2 = .blade [] := by
      intro t ht
      by_contra h3
      exact hcon t (List.mem_filter.mpr ⟨ht, by simpa using h3⟩)
    have h3 : ∀ E : Expr K n, (∀ t ∈ E, t.2 = .blade []) → ∃ c, den g E = algebraMap K _ c := by
      intro E
      induction E with
      | nil => intro _; exact ⟨0, by simp⟩
      | cons t E ih =>
        intro hE
        obtain ⟨c, hc⟩ := ih fun s hs => hE s (by simp [hs])
        refine ⟨t.1 + c, ?_⟩
        have e : den g (t :: E) = t.1 • symDen g t.2 + den g E := by simp [den]
        rw [e, hc, hE t (by simp), symDen, Spec.blade_nil, map_add, Algebra.algebraMap_eq_smul_one t.1]
    obtain ⟨c, hc⟩ := h3 A.obj h2
    exact hA' c hc
  rw [if_neg (by simp)]
  cases hl : A.obj.filter fun t : K × Sym n => decide (t.2 ≠ .blade []) with
  | nil => rw [hl] at ht; simp at ht
  | cons t l => rfl

/-! ### C44 -/

theorem christoffel_one {D : Fin n → K → K} {N : Option (Fin n → K)}
    {G : Fin n → Fin n → Fin n → K} (h : christoffelSymbols D g N 1 = some (some G)) :
    G = gamma1 D g := by
  rw [christoffelSymbols] at h
  by_cases h1 : connectFlg D g = false
  · rw [if_pos h1] at h; simp at h
  · rw [if_neg h1, if_pos rfl] at h
    exact (Option.some.inj (Option.some.inj h)).symm

theorem christoffel_two {D : Fin n → K → K} {N : Option (Fin n → K)}
    {H : Fin n → Fin n → Fin n → K} (h : christoffelSymbols D g N 2 = some (some H)) :
    ∃ gi, gInv (currentMetric N g) = some gi ∧ H = fun i j k => ∑ l, gamma1 D g i j l * gi l k := by
  rw [christoffelSymbols] at h
  by_cases h1 : connectFlg D g = false
  · rw [if_pos h1] at h; simp at h
  · rw [if_neg h1, if_neg (by norm_num), if_pos rfl, Option.map_eq_some_iff] at h
    obtain ⟨gi, h2, h3⟩ := h
    exact ⟨gi, h2, (Option.some.inj h3).symm⟩

/-- C44: symmetry and metric compatibility of the Christoffel symbols of the first kind. -/
theorem C44_first_kind (hs : g.IsSymm) (D : Fin n → K → K) {N : Option (Fin n → K)}
    {G : Fin n → Fin n → Fin n → K} (h : christoffelSymbols D g N 1 = some (some G)) :
    (∀ i j k, G i j k = G j i k) ∧ ∀ i j k, G i j k + G i k j = D i (g j k) := by
  rw [christoffel_one h]
  refine ⟨fun i j k => ?_, gamma1_compat D hs⟩
  simp only [gamma1, dg]
  rw [hs.apply i j, add_comm (D i (g j k))]

/-- C44: the Christoffel symbols of the first kind are the only ones with this symmetry and
compatibility. -/
theorem C44_unique (hs : g.IsSymm) (D : Fin n → K → K) {N : Option (Fin n → K)}
    {G H : Fin n → Fin n → Fin n → K} (h : christoffelSymbols D g N 1 = some (some G))
    (h1 : ∀ i j k, H i j k = H j i k) (h2 : ∀ i j k, H i j k + H i k j = D i (g j k)) : H = G := by
  have hG := C44_first_kind hs D h
  funext i j k
  have t2 : (2 : K) ≠ 0 := (isUnit_of_invertible (2 : K)).ne_zero
  apply mul_left_cancel₀ t2
  have e : D j (g i k) = G j i k + G j k i := (hG.2 j i k).symm
  linear_combination h2 i j k + h2 j i k - h2 k i j - (hG.2 i j k) - (hG.2 j i k) + hG.2 k i j
    + h1 i j k - h1 i k j - h1 j k i - hG.1 i j k + hG.1 i k j + hG.1 j k i

/-- C44: `Christoffel_symbols` returns `None` exactly when all derivatives of the metric vanish. -/
theorem C44_none (D : Fin n → K → K) (N : Option (Fin n → K)) :
    christoffelSymbols D g N 1 = some none ↔ ∀ i j k, D k (g i j) = 0 := by
  rw [← connectFlg_false, christoffelSymbols]
  by_cases h : connectFlg D g = false
  · simp [h]
  · rw [if_neg h, if_pos rfl]; simp [h]

/-- C44: the symbols of the second kind are symmetric and lower back to those of the first kind with
the metric `Ga.g` of the algebra. -/
theorem C44_second_kind (hs : g.IsSymm) (D : Fin n → K → K) {N : Option (Fin n → K)}
    {G H : Fin n → Fin n → Fin n → K} (h : christoffelSymbols D g N 1 = some (some G))
    (h' : christoffelSymbols D g N 2 = some (some H)) :
    (∀ i j k, H i j k = H j i k) ∧
      ∀ i j k, ∑ l, H i j l * currentMetric N g l k = G i j k := by
  have hG := C44_first_kind hs D h
  rw [christoffel_one h] at hG ⊢
  obtain ⟨gi, hgi, rfl⟩ := christoffel_two h'
  obtain ⟨h4, -⟩ := C22_inverse_metric (currentMetric_symm hs N) hgi
  refine ⟨fun i j k => Finset.sum_congr rfl fun l _ => by rw [hG.1], fun i j k => ?_⟩
  calc ∑ l, (∑ m, gamma1 D g i j m * gi m l) * currentMetric N g l k
      = ∑ m, gamma1 D g i j m * ∑ l, gi m l * currentMetric N g l k := by
        simp only [Finset.sum_mul, Finset.mul_sum]
        rw [Finset.sum_comm]
        exact Finset.sum_congr rfl fun m _ => Finset.sum_congr rfl fun l _ => by ring
    _ = ∑ m, gamma1 D g i j m * (1 : Matrix (Fin n) (Fin n) K) m k := by
        rw [← h4]; rfl
    _ = gamma1 D g i j k := by simp [Matrix.one_apply]

/-- C44: without normalisation, the derivative of basis vector `j` by coordinate `i` has the
components `Γ_ij^k` and satisfies `(∂_i e_j) | e_k = Γ_ijk`; it is symmetric in `i` and `j`. -/
theorem C44_derivatives (hs : g.IsSymm) (D : Fin n → Derivation ℤ K K)
    {G H : Fin n → Fin n → Fin n → K} (h : christoffelSymbols (fun i => D i) g none 1 = some (some G))
    (h' : christoffelSymbols (fun i => D i) g none 2 = some (some H))
    {de' : Fin n → Fin n → Expr K n} (hde : de (fun i => D i) g none = some de') (i j : Fin n) :
    (Mv.ofExpr (de' i j)).eq g (Mv.vector fun k => H i j k) = true ∧
    (∀ k, ((Mv.ofExpr (de' i j)).dot g (Mv.ofExpr (bladeE [k]))).eq g (Mv.scalarMv (G i j k)) = true) ∧
    (Mv.ofExpr (de' i j)).eq g (Mv.ofExpr (de' j i)) = true := by
  obtain ⟨Γ, h1, -, h3, -⟩ := de_spec hs D hde
  have hG := C44_first_kind hs _ h
  have hH := C44_second_kind hs _ h h'
  have hGe := christoffel_one h
  have r : ∀ i j, Rep g (Mv.ofExpr (de' i j)) (Spec.vec g fun k => Γ i k j) := by
    intro i j
    have h2 : Valid (de' i j) ∧ den g (de' i j) = Spec.vec g fun k => Γ i k j := h1 i j
    rw [← h2.2]; exact Rep.ofExpr h2.1
  -- the components are determined by the inner products
  have hinv : ∃ gi : Matrix (Fin n) (Fin n) K, g * gi = 1 := by
    obtain ⟨gi, hgi, -⟩ := christoffel_two h'
    exact ⟨gi, (C22_inverse_metric (currentMetric_symm hs none) hgi).2⟩
  obtain ⟨gi, hgi⟩ := hinv
  have hΓ : ∀ i j k, Γ i k j = H i j k := by
    intro i j k
    have e1 : ∀ v : Fin n → K, Matrix.vecMul (Matrix.vecMul v g) gi = v := by
      intro v; rw [Matrix.vecMul_vecMul, hgi, Matrix.vecMul_one]
    have e2 : Matrix.vecMul (fun k => Γ i k j) g = Matrix.vecMul (H i j) g := by
      funext l
      have e3 := h3 rfl i j l
      have e4 := hH.2 i j l
      rw [hGe] at e4
      exact e3.trans e4.symm
    have := congrArg (fun w => Matrix.vecMul w gi k) e2
    simpa only [e1] using this
  refine ⟨?_, fun k => ?_, ?_⟩
  · rw [(r i j).eq_iff hs (Rep.vector _)]
    simp only [hΓ]
  · rw [(Rep.dot hs (r i j) (basis_rep k)).eq_iff hs (Rep.scalarMv _), Spec.hestenesDot_vec_ip,
      ip_col hs, h3 rfl, hGe]
  · rw [(r i j).eq_iff hs (r j i)]
    simp only [hΓ, hH.1 i j]

/-! ### C59 -/

section C59
variable {D : Fin n → Derivation ℤ K K} {N : Option (Fin n → K)}

/-- C59: the product rule for the geometric product, in the algebra constructed with metric tensor
`g` (normalised if `N = some e_norm`). -/
theorem C59_mul (hs : g.IsSymm)
    (hN : ∀ N', N = some N' → ∀ i, N' i ^ 2 = g i i ∨ N' i ^ 2 = - g i i)
    (h : connOf (fun i => D i) g N = some conn) (i : Fin n) {A B : Mv K n}
    (hA : A.WF (currentMetric N g)) (hA' : A.isBladeRep = true)
    (hB : B.WF (currentMetric N g)) (hB' : B.isBladeRep = true) :
    ∃ A' B' C', A.pDiff (currentMetric N g) conn (D i) (some i) = some A' ∧
      B.pDiff (currentMetric N g) conn (D i) (some i) = some B' ∧
      (A.mul (currentMetric N g) B).pDiff (currentMetric N g) conn (D i) (some i) = some C' ∧
      C'.eq (currentMetric N g) ((A'.mul (currentMetric N g) B).add (currentMetric N g)
        (A.mul (currentMetric N g) B')) = true := by
  have hsc := currentMetric_symm hs N
  obtain ⟨Γ, hc, hcomp⟩ := connOf_spec hs D hN h
  have rA := Rep.of_wf hA hA'
  have rB := Rep.of_wf hB hB'
  obtain ⟨A', h1, r1⟩ := pDiff_rep hsc hc (D i) i rA
  obtain ⟨B', h2, r2⟩ := pDiff_rep hsc hc (D i) i rB
  obtain ⟨C', h3, r3⟩ := pDiff_rep hsc hc (D i) i (Rep.mul hsc rA rB)
  exact ⟨A', B', C', h1, h2, h3, (r3.eq_iff hsc (Rep.add hsc (Rep.mul hsc r1 rB)
    (Rep.mul hsc rA r2))).mpr (Spec.deriv_mul hsc (hcomp i) _ _)⟩

/-- C59: the product rules for `|`, `<` and `>`. -/
theorem C59_inner (hs : g.IsSymm)
    (hN : ∀ N', N = some N' → ∀ i, N' i ^ 2 = g i i ∨ N' i ^ 2 = - g i i)
    (h : connOf (fun i => D i) g N = some conn) (i : Fin n) {A B : Mv K n}
    (hA : A.WF (currentMetric N g)) (hA' : A.isBladeRep = true)
    (hB : B.WF (currentMetric N g)) (hB' : B.isBladeRep = true)
    (prod : Mv K n → Mv K n → Mv K n)
    (hp : prod = Mv.dot (currentMetric N g) ∨ prod = Mv.left (currentMetric N g) ∨
      prod = Mv.right (currentMetric N g)) :
    ∃ A' B' C', A.pDiff (currentMetric N g) conn (D i) (some i) = some A' ∧
      B.pDiff (currentMetric N g) conn (D i) (some i) = some B' ∧
      (prod A B).pDiff (currentMetric N g) conn (D i) (some i) = some C' ∧
      C'.eq (currentMetric N g) ((prod A' B).add (currentMetric N g) (prod A B')) = true := by
  have hsc := currentMetric_symm hs N
  obtain ⟨Γ, hc, hcomp⟩ := connOf_spec hs D hN h
  have rA := Rep.of_wf hA hA'
  have rB := Rep.of_wf hB hB'
  obtain ⟨A', h1, r1⟩ := pDiff_rep hsc hc (D i) i rA
  obtain ⟨B', h2, r2⟩ := pDiff_rep hsc hc (D i) i rB
  rcases hp with rfl | rfl | rfl
  · obtain ⟨C', h3, r3⟩ := pDiff_rep hsc hc (D i) i (Rep.dot hsc rA rB)
    exact ⟨A', B', C', h1, h2, h3, (r3.eq_iff hsc (Rep.add hsc (Rep.dot hsc r1 rB)
      (Rep.dot hsc rA r2))).mpr (Spec.deriv_gradedProduct hsc (hcomp i) _ _ _)⟩
  · obtain ⟨C', h3, r3⟩ := pDiff_rep hsc hc (D i) i (Rep.left hsc rA rB)
    exact ⟨A', B', C', h1, h2, h3, (r3.eq_iff hsc (Rep.add hsc (Rep.left hsc r1 rB)
      (Rep.left hsc rA r2))).mpr (Spec.deriv_gradedProduct hsc (hcomp i) _ _ _)⟩
  · obtain ⟨C', h3, r3⟩ := pDiff_rep hsc hc (D i) i (Rep.right hsc rA rB)
    exact ⟨A', B', C', h1, h2, h3, (r3.eq_iff hsc (Rep.add hsc (Rep.right hsc r1 rB)
      (Rep.right hsc rA r2))).mpr (Spec.deriv_gradedProduct hsc (hcomp i) _ _ _)⟩

end C59

/-! ### Concrete case: polar coordinates `(r, θ)` of the plane -/

namespace Ex

/-- The metric `diag(1, r²)`. -/
noncomputable def polar : Matrix (Fin 2) (Fin 2) (Fun 2) := Matrix.diagonal ![1, coord 0 ^ 2]
/-- The norms `(1, r)` of the basis vectors. -/
noncomputable def polarN : Fin 2 → Fun 2 := ![1, coord 0]

theorem polar_symm : polar.IsSymm := Matrix.isSymm_diagonal _

theorem polarN_sq : ∀ N', some polarN = some N' → ∀ i, N' i ^ 2 = polar i i ∨ N' i ^ 2 = - polar i i := by
  intro N' h i
  have e := Option.some.inj h
  subst e
  left
  fin_cases i <;> simp [polar, polarN]

theorem polar_d (i j k : Fin 2) : partialD k (polar i j) =
    if i = 1 ∧ j = 1 ∧ k = 0 then 2 * coord 0 else 0 := by
  have h1 : ∀ k : Fin 2, partialD k (coord 0 ^ 2 : Fun 2) = 2 * coord 0 * (if k = 0 then 1 else 0) := by
    intro k
    rw [sq, Derivation.leibniz, partialD_coord]
    simp only [smul_eq_mul]; ring
  fin_cases i <;> fin_cases j <;> simp [polar, h1]

theorem polar_connect : connectFlg (fun i => partialD i) polar = true := by
  by_contra h
  rw [Bool.not_eq_true, connectFlg_false] at h
  have := h 1 1 0
  rw [polar_d, if_pos ⟨rfl, rfl, rfl⟩] at this
  exact mul_ne_zero two_ne_zero (coord_ne_zero 0) this

theorem polar_ortho : isOrtho polar = true := by
  rw [isOrtho_iff]
  intro i j hij
  exact Matrix.diagonal_apply_ne _ (ne_of_lt hij)

theorem norm_polar : currentMetric (some polarN) polar = 1 := by
  have := coord_ne_zero (n := 2) 0
  ext i j
  fin_cases i <;> fin_cases j <;>
    simp [currentMetric, normMetric, polar, polarN]
  field_simp

theorem rBasis_isSome {g : Matrix (Fin 2) (Fin 2) (Fun 2)} (ho : isOrtho g = true)
    (h : ∀ i, g i i ≠ 0) : ∃ rb, rBasis g = some rb := by
  rw [rBasis, if_pos ho]
  refine Option.isSome_iff_exists.mp (mapM_some _ _ fun i _ => ?_)
  rw [if_neg (h i)]; rfl

theorem polar_de (N : Option (Fin 2 → Fun 2)) (hN : N = none ∨ N = some polarN) :
    ∃ d, de (fun i => partialD i) polar N = some d := by
  have hr : ∃ rb, rBasis (currentMetric N polar) = some rb := by
    rcases hN with rfl | rfl
    · refine rBasis_isSome polar_ortho fun i => ?_
      have := coord_ne_zero (n := 2) 0
      fin_cases i <;> simp [currentMetric, polar, this]
    · rw [norm_polar]
      refine rBasis_isSome ?_ fun i => by simp
      rw [isOrtho_iff]
      exact fun i j h => Matrix.one_apply_ne (ne_of_lt h)
  obtain ⟨rb, hrb⟩ := hr
  refine ⟨deEntry (fun i => partialD i) polar N rb, ?_⟩
  have h2 : N.any (fun N => decide (∃ i, N i = 0)) = false := by
    rcases hN with rfl | rfl
    · rfl
    · have := coord_ne_zero (n := 2) 0
      simp [polarN, Fin.exists_fin_two, this]
  rw [de, if_neg (by simp [polar_ortho]), if_neg (by rw [h2]; exact Bool.false_ne_true), hrb]
  simp [polar_ortho]

/-- The hypotheses of C43 and C59 are met: a connection of the polar basis, normalised or not. -/
example (N : Option (Fin 2 → Fun 2)) (hN : N = none ∨ N = some polarN) :
    ∃ d, connOf (fun i => partialD i) polar N = some (some d) := by
  obtain ⟨d, hd⟩ := polar_de N hN
  exact ⟨d, by rw [connOf, if_pos polar_connect, hd]; rfl⟩

theorem gInv_one : gInv (1 : Matrix (Fin 2) (Fin 2) (Fun 2)) = some 1 := by
  obtain ⟨rb, hrb⟩ := rBasis_isSome (g := 1) (by
    rw [isOrtho_iff]; exact fun i j h => Matrix.one_apply_ne (ne_of_lt h)) (fun i => by simp)
  have ho : isOrtho (1 : Matrix (Fin 2) (Fin 2) (Fun 2)) = true := by
    rw [isOrtho_iff]; exact fun i j h => Matrix.one_apply_ne (ne_of_lt h)
  have hg : ∃ m, gInv (1 : Matrix (Fin 2) (Fin 2) (Fun 2)) = some m := by
    rw [gInv, hrb]
    simp [ho]
  obtain ⟨m, hm⟩ := hg
  have := (C22_inverse_metric Matrix.isSymm_one hm).1
  rw [mul_one] at this
  rw [hm, this]

theorem one_ortho : isOrtho (1 : Matrix (Fin 2) (Fin 2) (Fun 2)) = true := by
  rw [isOrtho_iff]; exact fun i j h => Matrix.one_apply_ne (ne_of_lt h)

theorem rBasis_one : rBasis (1 : Matrix (Fin 2) (Fin 2) (Fun 2)) =
    some [[(1, .blade [0])], [(1, .blade [1])]] := by
  rw [rBasis, if_pos one_ortho]
  simp [List.finRange_succ, List.mapM_cons]

theorem polar_gamma (k : Fin 2) : gamma1 (fun i => partialD i) polar 0 1 k =
    if k = 1 then coord 0 else 0 := by
  have h2 : (2 : Fun 2) * ⅟2 = 1 := mul_invOf_self 2
  simp only [gamma1, dg, polar_d]
  fin_cases k
  · simp
  · simp

end Ex

/-- C44 does not extend to algebras constructed with `norm=True`: for normalised polar coordinates
the symbols of the second kind mix the derivatives of the original metric with the inverse of the
normalised one.  `Γ_01^1` is returned as `r`, although `Γ_011 = r` and the second kind symbol is
`1/r` (`Γ_01^k g_k1 = Γ_011` fails for the metric tensor the user gave), and the derivative
`∂_r e_θ` of the normalised basis vector that the algebra itself uses is `0`. -/
theorem C44_normalized_counterexample : ∃ H d,
    christoffelSymbols (fun i => Ex.partialD i) Ex.polar (some Ex.polarN) 2 = some (some H) ∧
    de (fun i => Ex.partialD i) Ex.polar (some Ex.polarN) = some d ∧
    H 0 1 1 = Ex.coord 0 ∧ (∑ k, H 0 1 k * Ex.polar k 1) ≠ gamma1 (fun i => Ex.partialD i) Ex.polar 0 1 1 ∧
    den (1 : Matrix (Fin 2) (Fin 2) (Ex.Fun 2)) (d 0 1) = 0 := by
  obtain ⟨d, hd⟩ := Ex.polar_de (some Ex.polarN) (Or.inr rfl)
  refine ⟨fun i j k => ∑ l, gamma1 (fun i => Ex.partialD i) Ex.polar i j l *
    (1 : Matrix (Fin 2) (Fin 2) (Ex.Fun 2)) l k, d, ?_, hd, ?_⟩
  · rw [christoffelSymbols, if_neg (by simp [Ex.polar_connect]), if_neg (by norm_num), if_pos rfl,
      Ex.norm_polar, Ex.gInv_one]
    rfl
  have h0 := Ex.coord_ne_zero (n := 2) 0
  refine ⟨by simp [Ex.polar_gamma, Matrix.one_apply], ?_, ?_⟩
  · simp only [Ex.polar_gamma, Matrix.one_apply]
    have e1 : Ex.polar 1 1 = Ex.coord 0 ^ 2 := by simp [Ex.polar]
    intro h
    have e2 : Ex.coord 0 * Ex.polar 1 1 = Ex.coord 0 := by simpa using h
    have e3 : Ex.polar 1 1 = 1 := mul_left_cancel₀ h0 (e2.trans (mul_one _).symm)
    have e4 := Ex.polar_d 1 1 0
    rw [e3, Derivation.map_one_eq_zero, if_pos ⟨rfl, rfl, rfl⟩] at e4
    exact mul_ne_zero two_ne_zero h0 e4.symm
  · rw [de, if_neg (by simp [Ex.polar_ortho])] at hd
    by_cases h1 : (some Ex.polarN).any (fun N => decide (∃ i, N i = 0)) = true
    · rw [if_pos h1] at hd; cases hd
    rw [if_neg h1, Ex.norm_polar, Ex.rBasis_one, Option.bind_some, if_neg (by simp [Ex.polar_ortho])] at hd
    have e := Option.some.inj hd
    rw [← e]
    simp only [deEntry, Ex.polar_ortho, if_true, Ex.polar_gamma]
    simp [List.finRange_succ, den, smulE, subE, addE, negE, Ex.polarN, Ex.partialD_coord]
    rw [div_self h0, mul_one, add_neg_cancel]

end GA
