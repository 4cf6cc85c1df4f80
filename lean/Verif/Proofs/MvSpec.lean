import Verif.Proofs.Calc
import Verif.Spec.Mv

/-! Meaning and well-formedness of the results of the operations of `Mv`. -/

set_option linter.unusedSectionVars false

namespace GA
variable {n : ℕ} {R : Type*} [CommRing R] [DecidableEq R]

theorem Valid.syms {A : Expr R n} (h : Valid A) : AllSyms IsBl A := h
theorem Valid.of {A : Expr R n} (h : AllSyms IsBl A) : Valid A := h
theorem Valid.expand {A : Expr R n} (h : Valid A) : Valid (expand A) := h.syms.expand

theorem isBl_ne_error {s : Sym n} (h : IsBl s) : s ≠ .error := by
  obtain ⟨l, rfl, -⟩ := h; simp
theorem isBs_ne_error {s : Sym n} (h : IsBs s) : s ≠ .error := by
  obtain ⟨l, rfl, -⟩ := h; rw [mkBase]; split_ifs <;> simp

theorem expand_ne_zero {P : Sym n → Prop} (hP : ∀ s, P s → s ≠ .error) {E : Expr R n}
    (hE : AllSyms P E) : ∀ t ∈ expand E, t.1 ≠ 0 := fun t ht =>
  (mem_expand ht).2.resolve_right (hP _ (hE.expand t ht))

theorem isBl_of_mem_flat {s : Sym n} : s ∈ flat (blades n) ↔ IsBl s := by
  rw [flat_blades, List.mem_map]
  simp only [mem_flat_indexes, mkBlade, IsBl]
  exact ⟨fun ⟨l, h, e⟩ => ⟨l, e.symm, h⟩, fun ⟨l, e, h⟩ => ⟨l, h, e.symm⟩⟩

section
variable [Invertible (2 : R)] (g : Matrix (Fin n) (Fin n) R)

/-- Coordinate with respect to the basis blade `l`. -/
noncomputable def bladeCoord (l : List (Fin n)) : Spec.Cl g →ₗ[R] R :=
  (Finsupp.lapply l.toFinset ∘ₗ
    (Pi.basisFun R (Fin n)).ExteriorAlgebra.repr.toLinearMap) ∘ₗ (Spec.toExt g).toLinearMap

theorem bladeCoord_den {A : Expr R n} (hA : Valid A) {l : List (Fin n)} (hl : l.Pairwise (· < ·)) :
    bladeCoord g l (den g A) = coeff A l := by
  have h := toExt_den g hA l.toFinset
  rw [sort_toFinset hl] at h
  exact h

theorem bladeCoord_blade {k l : List (Fin n)} (hk : k.Pairwise (· < ·)) (hl : l.Pairwise (· < ·)) :
    bladeCoord g l (Spec.blade g k) = if k = l then 1 else 0 := by
  have h := bladeCoord_den g (valid_bladeE (R := R) hk) hl
  rw [den_bladeE] at h
  rw [h]
  simp [coeff, bladeE]

/-- The highest coefficients of an expression in base representation. -/
theorem base_top {E : Expr R n} {k : ℕ} (hE : BsLe k E) {l : List (Fin n)}
    (hlt : l.Pairwise (· < ·)) (hlen : l.length = k) :
    bladeCoord g l (Spec.grade g k (den g E)) =
      lin (fun s => if s = mkBase l then (1 : R) else 0) E := by
  rw [den_eq_lin, map_lin, map_lin]
  refine lin_congr _ _ _ fun u hu => ?_
  obtain ⟨⟨m, hm, hmt⟩, hm2⟩ := hE u hu
  rw [hm] at hm2 ⊢
  rw [symLen_mkBase] at hm2
  rw [symDen_mkBase]
  by_cases h : m.length = k
  · rw [Spec.grade_base_of_eq g h, bladeCoord_blade g hmt hlt]
    exact if_congr ⟨fun h => by rw [h], fun h => mkBase_inj h⟩ rfl rfl
  · rw [Spec.grade_base_of_lt g (by omega), map_zero, if_neg]
    intro h'
    exact h (by rw [mkBase_inj h', hlen])

/-- Like terms collected, no zero coefficient. -/
def Canon (E : Expr R n) : Prop := (E.map Prod.snd).Nodup ∧ ∀ t ∈ E, t.1 ≠ 0

theorem canon_expand {P : Sym n → Prop} (hP : ∀ s, P s → s ≠ .error) {E : Expr R n}
    (hE : AllSyms P E) : Canon (expand E) := ⟨expand_nodup E, expand_ne_zero hP hE⟩

theorem coeff_of_mem {E : Expr R n} (hc : Canon E) {t : R × Sym n} (ht : t ∈ E) {l : List (Fin n)}
    (hl : t.2 = .blade l) : coeff E l = t.1 := by
  rw [coeff_eq_lin, ← hl, coef_of_mem_nodup hc.1 ht]

theorem canon_bl_len {E : Expr R n} (hc : Canon E) (hE : AllSyms IsBl E) {k : ℕ}
    (h : ∀ r, r ≠ k → Spec.grade g r (den g E) = 0) : ∀ t ∈ E, symLen t.2 = k := by
  intro t ht
  obtain ⟨l, hl, hlt⟩ := hE t ht
  by_contra hne
  rw [hl] at hne
  have hne : l.length ≠ k := hne
  have h1 := h l.length hne
  have h2 := congrArg (bladeCoord g l) h1
  rw [← den_filter_len g hE, bladeCoord_den g (allSyms_filter hE _) hlt, map_zero] at h2
  have hmem : t ∈ E.filter fun t => decide (symLen t.2 = l.length) := by
    rw [List.mem_filter]; refine ⟨ht, ?_⟩; rw [hl]; simp [symLen]
  have hc' : Canon (E.filter fun t => decide (symLen t.2 = l.length)) :=
    ⟨hc.1.sublist (List.filter_sublist.map _), fun t ht => hc.2 t (List.mem_of_mem_filter ht)⟩
  rw [coeff_of_mem hc' hmem hl] at h2
  exact hc.2 t ht h2

theorem canon_bs_len {E : Expr R n} (hc : Canon E) (hE : AllSyms IsBs E)
    (h : ∀ r, r ≠ 0 → Spec.grade g r (den g E) = 0) : ∀ t ∈ E, symLen t.2 = 0 := by
  have key : ∀ k, k ≤ n → BsLe k E → BsLe 0 E := by
    intro k
    induction k with
    | zero => intro _ h; exact h
    | succ k ih =>
      intro hk hEk
      refine ih (by omega) fun t ht => ?_
      obtain ⟨h1, h2⟩ := hEk t ht
      refine ⟨h1, ?_⟩
      by_contra hlt
      obtain ⟨l, hl, hlt'⟩ := h1
      have hlen : l.length = k + 1 := by rw [hl, symLen_mkBase] at hlt h2; omega
      have h3 := base_top g hEk hlt' hlen
      rw [h (k + 1) (by omega), map_zero, ← hl, coef_of_mem_nodup hc.1 ht] at h3
      exact hc.2 t ht h3.symm
  intro t ht
  have := key n le_rfl (fun t ht => ⟨hE t ht, by
    obtain ⟨l, hl, hlt⟩ := hE t ht
    rw [hl, symLen_mkBase]; exact length_le_of_lt hlt⟩) t ht
  omega

theorem grade_algebraMap (c : R) {r : ℕ} (hr : r ≠ 0) :
    Spec.grade g r (algebraMap R (Spec.Cl g) c) = 0 := by
  rw [Algebra.algebraMap_eq_smul_one, map_smul, ← Spec.blade_nil g, Spec.grade_blade,
    if_neg (by simpa using hr.symm), smul_zero]

theorem grade_zero_algebraMap (c : R) :
    Spec.grade g 0 (algebraMap R (Spec.Cl g) c) = algebraMap R (Spec.Cl g) c := by
  rw [Algebra.algebraMap_eq_smul_one, map_smul, ← Spec.blade_nil g, Spec.grade_blade]
  simp

theorem algebraMap_inj [Nontrivial R] {a b : R} (h : algebraMap R (Spec.Cl g) a = algebraMap R _ b) : a = b := by
  have := congrArg (Spec.toExt g) h
  rw [Spec.toExt_algebraMap, Spec.toExt_algebraMap] at this
  simpa using congrArg ExteriorAlgebra.algebraMapInv this

/-! ### Well-formedness -/

/-- The symbols a multivector may contain. -/
def RepSym (b : Bool) (s : Sym n) : Prop := if b = true ∨ isOrtho g = true then IsBl s else IsBs s

theorem Mv.wf_iff {A : Mv R n} : A.WF g ↔ Canon A.obj ∧ AllSyms (RepSym g A.isBladeRep) A.obj := by
  rw [Mv.WF, ← and_assoc]
  refine and_congr Iff.rfl (forall_congr' fun t => imp_congr Iff.rfl ?_)
  rw [RepSym]
  split_ifs with h
  · exact ⟨fun ⟨l, a, b⟩ => ⟨l, b, a⟩, fun ⟨l, a, b⟩ => ⟨l, b, a⟩⟩
  · exact ⟨fun ⟨l, a, b⟩ => ⟨l, b, a⟩, fun ⟨l, a, b⟩ => ⟨l, b, a⟩⟩

variable {g}

theorem repSym_true {s : Sym n} : RepSym g true s ↔ IsBl s := by simp [RepSym]
theorem repSym_one (b : Bool) : RepSym (n := n) g b (.blade []) := by
  rw [RepSym]; split_ifs
  · exact isBl_one
  · exact isBs_one
theorem repSym_ne_error {b : Bool} {s : Sym n} (h : RepSym g b s) : s ≠ .error := by
  rw [RepSym] at h; split_ifs at h
  · exact isBl_ne_error h
  · exact isBs_ne_error h
theorem repSym_mulSym {b : Bool} {s : Sym n} (h : RepSym g b s) : MulSym g s := by
  rw [RepSym] at h
  split_ifs at h with h'
  · exact isBl_mulSym g h
  · rw [MulSym, if_neg (fun h => h' (Or.inr h))]; exact Or.inr h
theorem isBl_of_ortho {b : Bool} {s : Sym n} (ho : isOrtho g = true) : RepSym g b s ↔ IsBl s := by
  simp [RepSym, ho]

theorem Mv.WF.syms {A : Mv R n} (h : A.WF g) : AllSyms (RepSym g A.isBladeRep) A.obj :=
  ((Mv.wf_iff g).mp h).2
theorem Mv.WF.canon {A : Mv R n} (h : A.WF g) : Canon A.obj := ((Mv.wf_iff g).mp h).1
theorem Mv.WF.mulSym {A : Mv R n} (h : A.WF g) : AllSyms (MulSym g) A.obj :=
  h.syms.mono fun _ => repSym_mulSym

/-- Blade representation, or orthogonal basis: only basis blades occur. -/
theorem Mv.WF.valid {A : Mv R n} (h : A.WF g) (hb : A.isBladeRep = true ∨ isOrtho g = true) :
    Valid A.obj := Valid.of (h.syms.mono fun s hs => by
  rw [RepSym, if_pos hb] at hs; exact hs)

theorem wf_of_valid {A : Mv R n} (hc : Canon A.obj) (hv : Valid A.obj)
    (hb : A.isBladeRep = true ∨ isOrtho g = true) : A.WF g :=
  (Mv.wf_iff g).mpr ⟨hc, hv.syms.mono fun _ h => by rw [RepSym, if_pos hb]; exact h⟩

theorem ofExpr_flag {E : Expr R n} : (Mv.ofExpr E).isBladeRep = true ↔ AllSyms IsBl (expand E) := by
  simp only [Mv.ofExpr, List.all_eq_true, decide_eq_true_eq, isBl_of_mem_flat, AllSyms]

theorem ofExpr_val (E : Expr R n) : (Mv.ofExpr E).val g = den g E := by
  simp [Mv.val, Mv.ofExpr]

theorem ofExpr_valid {E : Expr R n} (hE : Valid E) :
    (Mv.ofExpr E).WF g ∧ (Mv.ofExpr E).isBladeRep = true := by
  have hf : (Mv.ofExpr E).isBladeRep = true := ofExpr_flag.mpr hE.expand
  exact ⟨wf_of_valid (canon_expand (P := IsBl) (fun s hs => isBl_ne_error hs) hE)
    hE.expand (Or.inl hf), hf⟩

theorem ofExpr_rep {E : Expr R n} {b : Bool} (hE : AllSyms (RepSym g b) E) :
    (Mv.ofExpr E).WF g := by
  by_cases hb : b = true ∨ isOrtho g = true
  · exact (ofExpr_valid (E := E) (Valid.of (hE.mono fun s hs => by
      rw [RepSym, if_pos hb] at hs; exact hs))).1
  · have hE' : AllSyms IsBs E := hE.mono fun s hs => by rw [RepSym, if_neg hb] at hs; exact hs
    by_cases hf : (Mv.ofExpr E).isBladeRep = true
    · exact wf_of_valid (canon_expand (P := IsBs) (fun s hs => isBs_ne_error hs) hE')
        (ofExpr_flag.mp hf) (Or.inl hf)
    · refine (Mv.wf_iff g).mpr ⟨canon_expand (P := IsBs) (fun s hs => isBs_ne_error hs) hE', ?_⟩
      refine AllSyms.mono (AllSyms.expand hE') fun s hs => ?_
      rw [RepSym, if_neg]
      · exact hs
      · rintro (h | h)
        · exact hf h
        · exact hb (Or.inr h)

theorem repSym_isAny {b : Bool} {s : Sym n} (h : RepSym g b s) : IsAny s := by
  rw [RepSym] at h
  split_ifs at h
  · exact Or.inl h
  · exact Or.inr h

variable (hs : g.IsSymm)

include hs in
theorem bladeRep_spec {A : Mv R n} (hA : A.WF g) :
    (A.bladeRep g).WF g ∧ (A.bladeRep g).isBladeRep = true ∧ (A.bladeRep g).val g = A.val g := by
  rw [Mv.bladeRep]
  split_ifs with h
  · exact ⟨hA, h, rfl⟩
  · have h2 : Valid (baseToBladeRep g A.obj) ∧ den g (baseToBladeRep g A.obj) = den g A.obj := by
      rw [baseToBladeRep]
      split_ifs with ho
      · exact ⟨hA.valid (Or.inr ho), rfl⟩
      · exact toBlade_spec g hs (hA.syms.mono fun _ => repSym_isAny)
    refine ⟨wf_of_valid (canon_expand (P := IsBl) (fun s hs => isBl_ne_error hs) h2.1)
      h2.1.expand (Or.inl rfl), rfl, ?_⟩
    simp only [Mv.val, den_expand]
    exact h2.2

include hs in
theorem bladeRep_valid {A : Mv R n} (hA : A.WF g) : Valid (A.bladeRep g).obj :=
  (bladeRep_spec hs hA).1.valid (Or.inl (bladeRep_spec hs hA).2.1)

include hs in
theorem bladeRep_den {A : Mv R n} (hA : A.WF g) : den g (A.bladeRep g).obj = A.val g :=
  (bladeRep_spec hs hA).2.2

include hs in
theorem baseRep_spec {A : Mv R n} (hA : A.WF g) :
    (A.baseRep g).WF g ∧ (A.baseRep g).isBladeRep = false ∧ (A.baseRep g).val g = A.val g := by
  rw [Mv.baseRep]
  split_ifs with h
  · have hv := hA.valid (Or.inl h)
    by_cases ho : isOrtho g = true
    · simp only [bladeToBaseRep, if_pos ho]
      exact ⟨wf_of_valid (canon_expand (P := IsBl) (fun s hs => isBl_ne_error hs) hv)
        hv.expand (Or.inr ho), trivial, by simp [Mv.val]⟩
    · obtain ⟨h1, h2⟩ := toBase_spec g hs (A := A.obj) (hA.syms.mono fun _ => repSym_isAny)
      simp only [bladeToBaseRep, if_neg ho]
      refine ⟨(Mv.wf_iff g).mpr ⟨canon_expand (P := IsBs) (fun s hs => isBs_ne_error hs) h1, ?_⟩,
        trivial, ?_⟩
      · refine h1.expand.mono fun s hs' => ?_
        rw [RepSym, if_neg (by simp [ho])]
        exact hs'
      · simp only [Mv.val, den_expand]; exact h2
  · exact ⟨hA, by simpa using h, rfl⟩

/-! ### Linear operations -/

theorem neg_spec {A : Mv R n} (hA : A.WF g) : A.neg.WF g ∧ A.neg.val g = -A.val g :=
  ⟨ofExpr_rep hA.syms.negE, by rw [Mv.neg, ofExpr_val, den_negE]; rfl⟩

theorem smul_spec (c : R) {A : Mv R n} (hA : A.WF g) :
    (A.smul c).WF g ∧ (A.smul c).val g = c • A.val g :=
  ⟨ofExpr_rep (hA.syms.smulE c).expand, by rw [Mv.smul, ofExpr_val, den_expand, den_smulE]; rfl⟩

theorem scalarMv_spec (c : R) : (Mv.scalarMv c : Mv R n).WF g ∧
    (Mv.scalarMv c : Mv R n).isBladeRep = true ∧
    (Mv.scalarMv c : Mv R n).val g = algebraMap R _ c :=
  ⟨(ofExpr_valid (valid_scalarE c)).1, (ofExpr_valid (g := g) (valid_scalarE c)).2,
    by rw [Mv.scalarMv, ofExpr_val, den_scalarE]⟩

theorem vector_spec (v : Fin n → R) : (Mv.vector v).WF g ∧ (Mv.vector v).isBladeRep = true ∧
    (Mv.vector v).val g = Spec.vec g v :=
  ⟨(ofExpr_valid (valid_vecE v)).1, (ofExpr_valid (g := g) (valid_vecE v)).2,
    by rw [Mv.vector, ofExpr_val, den_vecE]⟩

theorem zero_spec : (Mv.zero : Mv R n).WF g ∧ (Mv.zero : Mv R n).val g = 0 :=
  ⟨wf_of_valid ⟨by simp [Mv.zero], by simp [Mv.zero]⟩ (by intro t ht; simp [Mv.zero] at ht)
    (Or.inl rfl), rfl⟩

include hs in
theorem arith_spec {op : Expr R n → Expr R n → Expr R n}
    (hop : ∀ (P : Sym n → Prop) {A B}, AllSyms P A → AllSyms P B → AllSyms P (op A B))
    {μ : Spec.Cl g → Spec.Cl g → Spec.Cl g} (hμ : ∀ A B, den g (op A B) = μ (den g A) (den g B))
    {A B : Mv R n} (hA : A.WF g) (hB : B.WF g) :
    (Mv.arith g op A B).WF g ∧ (Mv.arith g op A B).val g = μ (A.val g) (B.val g) := by
  rw [Mv.arith]
  split_ifs with h1 h2
  · refine ⟨ofExpr_rep (b := A.isBladeRep) (hop _ hA.syms (h1 ▸ hB.syms)), ?_⟩
    rw [ofExpr_val, hμ]; rfl
  · refine ⟨(ofExpr_valid (hop IsBl (hA.valid (Or.inl h2)).syms (bladeRep_valid hs hB).syms)).1, ?_⟩
    rw [ofExpr_val, hμ, bladeRep_den hs hB]; rfl
  · have hB' : B.isBladeRep = true := by
      cases hA1 : A.isBladeRep <;> cases hB1 : B.isBladeRep <;> simp_all
    refine ⟨(ofExpr_valid (hop IsBl (bladeRep_valid hs hA).syms (hB.valid (Or.inl hB')).syms)).1, ?_⟩
    rw [ofExpr_val, hμ, bladeRep_den hs hA]; rfl

include hs in
theorem add_spec {A B : Mv R n} (hA : A.WF g) (hB : B.WF g) :
    (A.add g B).WF g ∧ (A.add g B).val g = A.val g + B.val g :=
  arith_spec hs (fun _ _ _ h1 h2 => h1.addE h2) (den_addE g) hA hB

include hs in
theorem sub_spec {A B : Mv R n} (hA : A.WF g) (hB : B.WF g) :
    (A.sub g B).WF g ∧ (A.sub g B).val g = A.val g - B.val g :=
  arith_spec hs (fun _ _ _ h1 h2 => h1.subE h2) (den_subE g) hA hB

theorem allSyms_scalarE {P : Sym n → Prop} (h : P (.blade [])) (c : R) : AllSyms P (scalarE c) := by
  intro t ht; rw [scalarE, List.mem_singleton] at ht; subst ht; exact h

theorem addScalar_spec {A : Mv R n} (hA : A.WF g) (c : R) :
    (A.addScalar c).WF g ∧ (A.addScalar c).val g = A.val g + algebraMap R _ c :=
  ⟨ofExpr_rep (hA.syms.addE (allSyms_scalarE (repSym_one _) c)),
    by rw [Mv.addScalar, ofExpr_val, den_addE, den_scalarE]; rfl⟩

theorem scalarSub_spec {A : Mv R n} (hA : A.WF g) (c : R) :
    (Mv.scalarSub c A).WF g ∧ (Mv.scalarSub c A).val g = algebraMap R _ c - A.val g :=
  ⟨ofExpr_rep ((allSyms_scalarE (repSym_one _) c).subE hA.syms),
    by rw [Mv.scalarSub, ofExpr_val, den_subE, den_scalarE]; rfl⟩

/-! ### Equality with zero -/

theorem eq_nil_of_len_zero {A : Mv R n} (hA : A.WF g)
    (h : ∀ t ∈ A.obj, t.2 = .blade []) (h0 : A.val g = 0) : A.obj = [] := by
  cases hA' : A.obj with
  | nil => rfl
  | cons t E =>
    exfalso
    have ht : t ∈ A.obj := by rw [hA']; simp
    have hv : Valid A.obj := fun u hu => ⟨[], h u hu, List.Pairwise.nil⟩
    have h1 := bladeCoord_den g hv (l := []) List.Pairwise.nil
    rw [show den g A.obj = 0 from h0, map_zero, coeff_of_mem hA.canon ht (h t ht)] at h1
    exact hA.canon.2 t ht h1.symm

theorem symLen_zero {s : Sym n} (h : IsBl s ∨ IsBs s) (h0 : symLen s = 0) : s = .blade [] := by
  rcases h with ⟨l, rfl, -⟩ | ⟨l, rfl, -⟩
  · rw [List.eq_nil_of_length_eq_zero h0]
  · rw [symLen_mkBase] at h0
    rw [List.eq_nil_of_length_eq_zero h0]; rfl

theorem len_zero_of_scalar {A : Mv R n} (hA : A.WF g)
    (h : ∀ r, r ≠ 0 → Spec.grade g r (A.val g) = 0) : ∀ t ∈ A.obj, t.2 = .blade [] := by
  intro t ht
  by_cases hb : A.isBladeRep = true ∨ isOrtho g = true
  · exact symLen_zero (Or.inl (hA.valid hb t ht)) (canon_bl_len g hA.canon (hA.valid hb) h t ht)
  · have hE : AllSyms IsBs A.obj := hA.syms.mono fun s hs => by
      rw [RepSym, if_neg hb] at hs; exact hs
    exact symLen_zero (Or.inr (hE t ht)) (canon_bs_len g hA.canon hE h t ht)

theorem val_eq_zero {A : Mv R n} (hA : A.WF g) : A.val g = 0 ↔ A.obj = [] := by
  constructor
  · intro h
    refine eq_nil_of_len_zero hA (len_zero_of_scalar hA fun r _ => ?_) h
    rw [h, map_zero]
  · intro h; simp [Mv.val, h]

include hs in
theorem eq_spec {A B : Mv R n} (hA : A.WF g) (hB : B.WF g) :
    A.eq g B = true ↔ A.val g = B.val g := by
  rw [Mv.eq, decide_eq_true_eq, ← val_eq_zero (sub_spec hs hA hB).1, (sub_spec hs hA hB).2,
    sub_eq_zero]

/-! ### Grades -/

theorem mem_sortedInsert (r s : ℕ) (L : List ℕ) : s ∈ sortedInsert r L ↔ s = r ∨ s ∈ L := by
  induction L with
  | nil => simp [sortedInsert]
  | cons a L ih =>
    rw [sortedInsert]
    split_ifs with h1 h2
    · simp
    · subst h2; simp
    · simp only [List.mem_cons, ih]; tauto

theorem pairwise_sortedInsert (r : ℕ) {L : List ℕ} (h : L.Pairwise (· < ·)) :
    (sortedInsert r L).Pairwise (· < ·) := by
  induction L with
  | nil => simp [sortedInsert]
  | cons a L ih =>
    rw [List.pairwise_cons] at h
    rw [sortedInsert]
    split_ifs with h1 h2
    · refine List.pairwise_cons.mpr ⟨fun b hb => ?_, List.pairwise_cons.mpr h⟩
      rcases List.mem_cons.mp hb with rfl | hb
      · exact h1
      · exact h1.trans (h.1 b hb)
    · exact List.pairwise_cons.mpr h
    · refine List.pairwise_cons.mpr ⟨fun b hb => ?_, ih h.2⟩
      rcases (mem_sortedInsert r b L).mp hb with rfl | hb
      · omega
      · exact h.1 b hb

theorem mapM_grades {E : Expr R n} (hE : AllSyms IsBl E) :
    (E.mapM fun t => (bladesToGrades n).get? t.2) = some (E.map fun t => symLen t.2) := by
  induction E with
  | nil => rfl
  | cons t E ih =>
    rw [allSyms_cons] at hE
    rw [List.mapM_cons, grade_of_isBl hE.1, ih hE.2]
    rfl

theorem gradesOf_spec {E : Expr R n} (hE : Valid E) :
    ∃ L : List ℕ, gradesOf E = some L ∧ L.Pairwise (· < ·) ∧
      ∀ r, r ∈ L ↔ (∃ t ∈ expand E, symLen t.2 = r) ∨ (expand E = [] ∧ r = 0) := by
  rw [gradesOf]
  have hE' := hE.expand.syms
  generalize expand E = F at hE'
  cases F with
  | nil => exact ⟨[0], rfl, by simp, by simp⟩
  | cons t F =>
    simp only [mapM_grades hE', Option.map_some]
    refine ⟨_, rfl, ?_, ?_⟩
    · generalize ((t :: F).map fun t => symLen t.2) = l
      induction l with
      | nil => simp
      | cons a l ih => exact pairwise_sortedInsert a ih
    · intro r
      have : ∀ l : List ℕ, r ∈ l.foldr sortedInsert [] ↔ r ∈ l := by
        intro l
        induction l with
        | nil => simp
        | cons a l ih => rw [List.foldr_cons, mem_sortedInsert, ih, List.mem_cons]
      rw [this, List.mem_map]
      simp

theorem sorted_eq_singleton {L : List ℕ} (h : L.Pairwise (· < ·)) {k : ℕ}
    (hm : ∀ r, r ∈ L ↔ r = k) : L = [k] := by
  match L, h with
  | [], _ => exact absurd ((hm k).mpr rfl) (by simp)
  | [a], _ => rw [(hm a).mp (by simp)]
  | a :: b :: L, h =>
    have h1 := (hm a).mp (by simp)
    have h2 := (hm b).mp (by simp)
    have := (List.pairwise_cons.mp h).1 b (by simp)
    omega

theorem gradesOf_eq_singleton {E : Expr R n} (hE : Valid E) (k : ℕ) :
    gradesOf E = some [k] ↔ (∀ t ∈ expand E, symLen t.2 = k) ∧ (expand E = [] → k = 0) := by
  obtain ⟨L, hL, hp, hm⟩ := gradesOf_spec hE
  rw [hL, Option.some.injEq]
  constructor
  · rintro rfl
    refine ⟨fun t ht => ?_, fun h => ?_⟩
    · have := (hm (symLen t.2)).mpr (Or.inl ⟨t, ht, rfl⟩)
      simpa using this
    · have := (hm 0).mpr (Or.inr ⟨h, rfl⟩)
      simp at this; exact this.symm
  · rintro ⟨h1, h2⟩
    refine sorted_eq_singleton hp fun r => ?_
    rw [hm]
    constructor
    · rintro (⟨t, ht, rfl⟩ | ⟨h, rfl⟩)
      · exact h1 t ht
      · exact (h2 h).symm
    · rintro rfl
      cases hF : expand E with
      | nil => exact Or.inr ⟨rfl, h2 hF⟩
      | cons t F => exact Or.inl ⟨t, by simp, h1 t (by rw [hF]; simp)⟩

include hs in
theorem toBladeRep_valid {A : Mv R n} (hA : A.WF g) :
    Valid (baseToBladeRep g A.obj) ∧ den g (baseToBladeRep g A.obj) = A.val g := by
  rw [baseToBladeRep]
  split_ifs with ho
  · exact ⟨hA.valid (Or.inr ho), rfl⟩
  · exact toBlade_spec g hs (hA.syms.mono fun _ => repSym_isAny)

/-- All terms of an expanded expression have grade `k` iff its meaning has only grade `k`. -/
theorem expand_len_iff {E : Expr R n} (hE : Valid E) (k : ℕ) :
    (∀ t ∈ expand E, symLen t.2 = k) ↔ ∀ r, r ≠ k → Spec.grade g r (den g E) = 0 := by
  constructor
  · intro h r hr
    rw [← den_expand, ← den_filter_len g (AllSyms.expand hE),
      List.filter_eq_nil_iff.mpr fun t ht => by simpa [h t ht] using hr.symm]
    rfl
  · intro h
    exact canon_bl_len g (canon_expand (P := IsBl) (fun s hs => isBl_ne_error hs) hE)
      (AllSyms.expand hE) (by rwa [den_expand])

theorem expand_eq_nil {E : Expr R n} (hE : Valid E) : expand E = [] ↔ den g E = 0 := by
  have h := val_eq_zero (ofExpr_valid (g := g) hE).1
  rw [ofExpr_val] at h
  exact h.symm

include hs in
theorem grades_eq_singleton {A : Mv R n} (hA : A.WF g) (k : ℕ) :
    grades g A.obj = some [k] ↔
      (∀ r, r ≠ k → Spec.grade g r (A.val g) = 0) ∧ (A.val g = 0 → k = 0) := by
  obtain ⟨h1, h2⟩ := toBladeRep_valid hs hA
  rw [grades, gradesOf_eq_singleton h1, expand_len_iff (g := g) h1, expand_eq_nil (g := g) h1, h2]

theorem eq_algebraMap_iff (x : Spec.Cl g) :
    (∀ r, r ≠ 0 → Spec.grade g r x = 0) ↔ ∃ c, x = algebraMap R _ c := by
  constructor
  · intro h
    obtain ⟨E, hE, rfl⟩ := exists_expr g x
    refine ⟨scalarPart E, ?_⟩
    rw [algebraMap_scalarPart g hE, ← sum_grade g (den g E), map_sum]
    rw [Finset.sum_eq_single 0, Finset.sum_eq_single 0]
    · conv_rhs => rw [← den_getGrade g hE 0, ← den_getGrade g (getGrade_valid hE 0)]
      rw [← den_getGrade g hE 0]
      have : ∀ t ∈ expand (getGrade E 0), symLen t.2 = 0 := by
        refine (expand_len_iff (g := g) (getGrade_valid hE 0) 0).mpr fun r hr => ?_
        rw [← den_filter_len g (getGrade_valid hE 0), List.filter_eq_nil_iff.mpr]
        · rfl
        · intro t ht; simpa [getGrade_len hE 0 t ht] using hr.symm
      rw [den_getGrade g (getGrade_valid hE 0), ← den_expand g (getGrade E 0),
        ← den_filter_len g (AllSyms.expand (getGrade_valid hE 0)), List.filter_eq_self.mpr]
      intro t ht; simpa using this t ht
    · intro r _ hr; rw [h r hr, map_zero]
    · intro h; simp at h
    · intro r _ hr; exact h r hr
    · intro h; simp at h
  · rintro ⟨c, rfl⟩ r hr
    exact grade_algebraMap g c hr

include hs in
theorem isScalar_iff {A : Mv R n} (hA : A.WF g) :
    A.isScalar g = true ↔ ∃ c, A.val g = algebraMap R _ c := by
  rw [Mv.isScalar, decide_eq_true_eq, grades_eq_singleton hs hA, ← eq_algebraMap_iff]
  simp

include hs in
theorem isVector_iff {A : Mv R n} (hA : A.WF g) :
    A.isVector g = true ↔ A.val g ≠ 0 ∧ ∀ r, r ≠ 1 → Spec.grade g r (A.val g) = 0 := by
  rw [Mv.isVector, decide_eq_true_eq, grades_eq_singleton hs hA]
  simp [and_comm]

theorem scalarPart_of_val {A : Mv R n} (hA : A.WF g) {c : R}
    (h : A.val g = algebraMap R _ c) : scalarPart A.obj = c := by
  have h1 : ∀ t ∈ A.obj, t.2 = .blade [] := len_zero_of_scalar hA fun r hr => by
    rw [h, grade_algebraMap g c hr]
  have hv : Valid A.obj := fun u hu => ⟨[], h1 u hu, List.Pairwise.nil⟩
  rw [scalarPart_eq_coeff, ← bladeCoord_den g hv List.Pairwise.nil, show den g A.obj = _ from h,
    Algebra.algebraMap_eq_smul_one, ← Spec.blade_nil g, map_smul,
    bladeCoord_blade g List.Pairwise.nil List.Pairwise.nil]
  simp

/-! ### Products -/

theorem scalarTimes_spec {A B : Mv R n} (hA : A.WF g) (hB : B.WF g) {c : R}
    (h : A.val g = algebraMap R _ c) :
    (A.scalarTimes B).WF g ∧ (A.scalarTimes B).val g = A.val g * B.val g := by
  have h1 : ∀ t ∈ A.obj, t.2 = .blade [] := len_zero_of_scalar hA fun r hr => by
    rw [h, grade_algebraMap g c hr]
  constructor
  · refine ofExpr_rep (b := B.isBladeRep) (AllSyms.expand (allSyms_flatMap fun t ht => ?_))
    rw [if_pos (h1 t ht)]
    exact hB.syms.smulE _
  · rw [Mv.scalarTimes, ofExpr_val, den_expand, den_eq_lin,
      lin_flatMap (symDen g) A.obj _ fun _ => B.val g]
    · have : ∀ s : Sym n, s = .blade [] → B.val g = symDen g s * B.val g := by
        rintro s rfl; simp [symDen, Spec.blade_nil]
      rw [lin_congr (fun _ => B.val g) A.obj (fun s => LinearMap.mulRight R (B.val g) (symDen g s))
        (fun t ht => this _ (h1 t ht)), ← map_lin]
      rfl
    · intro t ht
      simp only [if_pos (h1 t ht), lin_smulE]
      rfl

include hs in
theorem mul_spec' {A B : Mv R n} (hA : A.WF g) (hB : B.WF g) :
    (A.mul g B).WF g ∧ (A.mul g B).val g = A.val g * B.val g := by
  have key : ∀ {C D : Mv R n}, C.WF g → D.WF g →
      (Mv.bladeRep g ⟨(Mv.ofExpr (GA.mul g C.obj D.obj)).obj, false⟩).WF g ∧
      (Mv.bladeRep g ⟨(Mv.ofExpr (GA.mul g C.obj D.obj)).obj, false⟩).val g =
        C.val g * D.val g := by
    intro C D hC hD
    obtain ⟨h1, h2⟩ := mul_spec g hs hC.mulSym hD.mulSym
    have h3 : AllSyms IsBl (Mv.ofExpr (GA.mul g C.obj D.obj)).obj := AllSyms.expand h1
    rw [Mv.bladeRep, if_neg (by simp)]
    have h4 : Valid (baseToBladeRep g (Mv.ofExpr (GA.mul g C.obj D.obj)).obj) ∧
        den g (baseToBladeRep g (Mv.ofExpr (GA.mul g C.obj D.obj)).obj) = C.val g * D.val g := by
      have h5 : den g (Mv.ofExpr (GA.mul g C.obj D.obj)).obj = C.val g * D.val g := by
        exact (den_expand g _).trans h2
      rw [baseToBladeRep]
      split_ifs with ho
      · exact ⟨h3, h5⟩
      · obtain ⟨a, b⟩ := toBlade_spec g hs (h3.mono fun _ => Or.inl)
        exact ⟨a, b.trans h5⟩
    refine ⟨wf_of_valid (canon_expand (P := IsBl) (fun s hs => isBl_ne_error hs) h4.1)
      h4.1.expand (Or.inl rfl), ?_⟩
    rw [Mv.val, den_expand]; exact h4.2
  rw [Mv.mul]
  split_ifs with h1 h2 h3 h4
  · obtain ⟨c, hc⟩ := (isScalar_iff hs hA).mp h1
    exact scalarTimes_spec hA hB hc
  · have := key (baseRep_spec hs hA).1 (baseRep_spec hs hB).1
    rwa [(baseRep_spec hs hA).2.2, (baseRep_spec hs hB).2.2] at this
  · have := key (baseRep_spec hs hA).1 hB
    rwa [(baseRep_spec hs hA).2.2] at this
  · have := key hA (baseRep_spec hs hB).1
    rwa [(baseRep_spec hs hB).2.2] at this
  · obtain ⟨h1, h2⟩ := mul_spec g hs hA.mulSym hB.mulSym
    exact ⟨(ofExpr_valid h1).1, by rw [ofExpr_val, h2]; rfl⟩

include hs in
theorem dot_spec {A B : Mv R n} (hA : A.WF g) (hB : B.WF g) :
    (A.dot g B).WF g ∧ (A.dot g B).val g = Spec.hestenesDot g (A.val g) (B.val g) := by
  obtain ⟨h1, h2⟩ := hestenesDot_spec g hs (bladeRep_valid hs hA) (bladeRep_valid hs hB)
  exact ⟨(ofExpr_valid h1).1, by
    rw [Mv.dot, ofExpr_val, h2, bladeRep_den hs hA, bladeRep_den hs hB]⟩

include hs in
theorem left_spec {A B : Mv R n} (hA : A.WF g) (hB : B.WF g) :
    (A.left g B).WF g ∧ (A.left g B).val g = Spec.leftContraction g (A.val g) (B.val g) := by
  obtain ⟨h1, h2⟩ := leftContract_spec g hs (bladeRep_valid hs hA) (bladeRep_valid hs hB)
  exact ⟨(ofExpr_valid h1).1, by
    rw [Mv.left, ofExpr_val, h2, bladeRep_den hs hA, bladeRep_den hs hB]⟩

include hs in
theorem right_spec {A B : Mv R n} (hA : A.WF g) (hB : B.WF g) :
    (A.right g B).WF g ∧ (A.right g B).val g = Spec.rightContraction g (A.val g) (B.val g) := by
  obtain ⟨h1, h2⟩ := rightContract_spec g hs (bladeRep_valid hs hA) (bladeRep_valid hs hB)
  exact ⟨(ofExpr_valid h1).1, by
    rw [Mv.right, ofExpr_val, h2, bladeRep_den hs hA, bladeRep_den hs hB]⟩

theorem wedge_algebraMap (c : R) (x : Spec.Cl g) :
    Spec.wedge g (algebraMap R _ c) x = algebraMap R _ c * x := by
  rw [Spec.wedge, Spec.toExt_algebraMap, ← Algebra.smul_def, map_smul, LinearEquiv.symm_apply_apply,
    Algebra.smul_def]

include hs in
theorem wedge_spec' {A B : Mv R n} (hA : A.WF g) (hB : B.WF g) :
    (A.wedge g B).WF g ∧ (A.wedge g B).val g = Spec.wedge g (A.val g) (B.val g) := by
  rw [Mv.wedge]
  split_ifs with h
  · obtain ⟨c, hc⟩ := (isScalar_iff hs hA).mp h
    rw [hc, wedge_algebraMap, ← hc]
    exact mul_spec' hs hA hB
  · have h1 := wedge_valid (bladeRep_valid hs hA) (bladeRep_valid hs hB)
    exact ⟨(ofExpr_valid h1).1, by
      rw [ofExpr_val, den_wedge g (bladeRep_valid hs hA) (bladeRep_valid hs hB),
        bladeRep_den hs hA, bladeRep_den hs hB]⟩

include hs in
theorem pow_spec {A : Mv R n} (hA : A.WF g) (k : ℕ) :
    (A.pow g k).WF g ∧ (A.pow g k).val g = A.val g ^ k := by
  induction k with
  | zero => exact ⟨(scalarMv_spec 1).1, by rw [Mv.pow, (scalarMv_spec 1).2.2]; simp⟩
  | succ k ih =>
    rw [Mv.pow]
    refine ⟨(mul_spec' hs ih.1 hA).1, ?_⟩
    rw [(mul_spec' hs ih.1 hA).2, ih.2, pow_succ]

include hs in
theorem antiComm_spec {A B : Mv R n} (hA : A.WF g) (hB : B.WF g) :
    (A.antiComm g B).WF g ∧ (A.antiComm g B).val g =
      (⅟2 : R) • (A.val g * B.val g + B.val g * A.val g) := by
  have h1 := mul_spec' hs hA hB
  have h2 := mul_spec' hs hB hA
  have h3 := add_spec hs h1.1 h2.1
  have h4 := smul_spec ⅟(2 : R) h3.1
  exact ⟨h4.1, by rw [Mv.antiComm, h4.2, h3.2, h1.2, h2.2]⟩

include hs in
theorem comm_spec {A B : Mv R n} (hA : A.WF g) (hB : B.WF g) :
    (A.comm g B).WF g ∧ (A.comm g B).val g =
      (⅟2 : R) • (A.val g * B.val g - B.val g * A.val g) := by
  have h1 := mul_spec' hs hA hB
  have h2 := mul_spec' hs hB hA
  have h3 := sub_spec hs h1.1 h2.1
  have h4 := smul_spec ⅟(2 : R) h3.1
  exact ⟨h4.1, by rw [Mv.comm, h4.2, h3.2, h1.2, h2.2]⟩

/-! ### Grade selection and involutions -/

theorem getGrade_spec {A : Mv R n} (hA : A.WF g) (hb : A.isBladeRep = true ∨ isOrtho g = true)
    (r : ℕ) : (A.getGrade r).WF g ∧ (A.getGrade r).isBladeRep = true ∧
      (A.getGrade r).val g = Spec.grade g r (A.val g) :=
  ⟨(ofExpr_valid (getGrade_valid (hA.valid hb) r)).1,
    (ofExpr_valid (g := g) (getGrade_valid (hA.valid hb) r)).2,
    by rw [Mv.getGrade, ofExpr_val, den_getGrade g (hA.valid hb)]; rfl⟩

theorem even_spec {A : Mv R n} (hA : A.WF g) (hb : A.isBladeRep = true ∨ isOrtho g = true) :
    A.even.WF g ∧ A.even.isBladeRep = true ∧
      (2 : R) • A.even.val g = A.val g + CliffordAlgebra.involute (A.val g) :=
  ⟨(ofExpr_valid (evenOdd_valid (hA.valid hb) true)).1,
    (ofExpr_valid (g := g) (evenOdd_valid (hA.valid hb) true)).2, by
    rw [Mv.even, ofExpr_val, two_smul_den_evenOdd g (hA.valid hb)]; simp [Mv.val]⟩

theorem odd_spec {A : Mv R n} (hA : A.WF g) (hb : A.isBladeRep = true ∨ isOrtho g = true) :
    A.odd.WF g ∧ A.odd.isBladeRep = true ∧
      (2 : R) • A.odd.val g = A.val g - CliffordAlgebra.involute (A.val g) :=
  ⟨(ofExpr_valid (evenOdd_valid (hA.valid hb) false)).1,
    (ofExpr_valid (g := g) (evenOdd_valid (hA.valid hb) false)).2, by
    rw [Mv.odd, ofExpr_val, two_smul_den_evenOdd g (hA.valid hb)]; simp [Mv.val, sub_eq_add_neg]⟩

include hs in
theorem gInvol_spec {A : Mv R n} (hA : A.WF g) (hb : A.isBladeRep = true ∨ isOrtho g = true) :
    (A.gInvol g).WF g ∧ (A.gInvol g).val g = CliffordAlgebra.involute (A.val g) := by
  have h1 := even_spec hA hb
  have h2 := odd_spec hA hb
  have h3 := sub_spec hs h1.1 h2.1
  refine ⟨h3.1, Spec.two_cancel (R := R) ?_⟩
  rw [Mv.gInvol, h3.2, smul_sub, h1.2.2, h2.2.2, two_smul]
  abel

include hs in
theorem rev_spec {A : Mv R n} (hA : A.WF g) :
    (A.rev g).WF g ∧ (A.rev g).isBladeRep = true ∧
      (A.rev g).val g = CliffordAlgebra.reverse (A.val g) :=
  ⟨(ofExpr_valid (reverse_valid (bladeRep_valid hs hA))).1,
    (ofExpr_valid (g := g) (reverse_valid (bladeRep_valid hs hA))).2,
    by rw [Mv.rev, ofExpr_val, den_reverse g (bladeRep_valid hs hA), bladeRep_den hs hA]⟩

include hs in
theorem ccon_spec {A : Mv R n} (hA : A.WF g) (hb : A.isBladeRep = true ∨ isOrtho g = true) :
    (A.ccon g).WF g ∧ (A.ccon g).isBladeRep = true ∧
      (A.ccon g).val g = CliffordAlgebra.reverse (CliffordAlgebra.involute (A.val g)) := by
  have h1 := gInvol_spec hs hA hb
  have h2 := rev_spec hs h1.1
  exact ⟨h2.1, h2.2.1, by rw [Mv.ccon, h2.2.2, h1.2]⟩

/-- The scalar part of a multivector in blade representation. -/
theorem scalar_spec {A : Mv R n} (hA : A.WF g) (hb : A.isBladeRep = true ∨ isOrtho g = true) :
    algebraMap R _ A.scalar = Spec.grade g 0 (A.val g) :=
  algebraMap_scalarPart g (hA.valid hb)

end
end GA
