import Verif.Proofs.DopExpand
import Verif.Props.C42

/-!
# C71: expansion of operators by basis blades

`Dop.ofSdops X [(s₁, M₁), …] b` models `Dop([(s₁, M₁), …], cmpflg=b)` with scalar operators `sᵢ` and
multivectors `Mᵢ`; `s.callMv X F` models `s(F)`; `d.components X` models `d.components()`, `none` is an
exception.  `flat (indexes n)` is the list of the index tuples of the basis blades, in the order of
`Ga.blades.flat` (see C01).
-/

set_option linter.unusedSectionVars false
set_option maxRecDepth 10000

namespace GA
variable {n : ℕ} {K : Type*} [Field K] [DecidableEq K] [Invertible (2 : K)]

section algebra
variable {g0 : Matrix (Fin n) (Fin n) K} {D : Fin n → Derivation ℤ K K} {N : Option (Fin n → K)}
  {conn : Option (Fin n → Fin n → Expr K n)}

theorem sum_fun_apply {α M : Type*} [AddCommMonoid M] {ι : Type*} (l : List ι) (f : ι → α → M) (a : α) :
    (l.map f).sum a = (l.map fun i => f i a).sum := by
  induction l with
  | nil => rfl
  | cons i l ih => rw [List.map_cons, List.sum_cons, Pi.add_apply, ih, List.map_cons, List.sum_cons]

variable (hs : g0.IsSymm)
  (hN : ∀ N', N = some N' → ∀ i, N' i ^ 2 = g0 i i ∨ N' i ^ 2 = - g0 i i)
  (h : connOf (fun i => D i) g0 N = some conn)

include hs hN h

/-- C71: `Dop([(s₁, M₁), …]) op F` is the sum of the `Mᵢ op sᵢ(F)`. -/
theorem C71_of_sdops (hf : CommutingDerivatives (Fields.ofMetric (fun i => D i) g0 N conn))
    (op : ProdOp) {l : List (Sdop K (Fin n) × Mv K n)} {F : Mv K n}
    (hl : ∀ t ∈ l, t.1.WF ∧ t.2.WF (currentMetric N g0) ∧ t.2.isBladeRep = true)
    (hF : F.WF (currentMetric N g0)) (hF' : F.isBladeRep = true) :
    (Dop.ofSdops (Fields.ofMetric (fun i => D i) g0 N conn) l false).WF
      (Fields.ofMetric (fun i => D i) g0 N conn) ∧
    ∃ G, (Dop.ofSdops (Fields.ofMetric (fun i => D i) g0 N conn) l false).mulMv
        (Fields.ofMetric (fun i => D i) g0 N conn) op F = .inl G ∧
      G.eq (currentMetric N g0) ((l.map fun t => Mv.mulOp (currentMetric N g0) op t.2
        (t.1.callMv (Fields.ofMetric (fun i => D i) g0 N conn) F)).foldl
          (Mv.add (currentMetric N g0)) (Mv.scalarMv 0)) = true := by
  obtain ⟨Γ, hE⟩ := env_of hs hN h hf
  have rF := Rep.of_wf hF hF'
  obtain ⟨h1, h2, h3⟩ := Dop.ofSdops_spec hE false (l := l) hl
  obtain ⟨G, G1, G2⟩ := Dop.apply_right hE op h1 h2 rF
  refine ⟨h1, G, G1, ?_⟩
  have r := foldl_add_rep hE.symm l (fun t => Mv.mulOp (currentMetric N g0) op t.2
        (t.1.callMv (Fields.ofMetric (fun i => D i) g0 N conn) F)) (fun t => opS (currentMetric N g0) op
          (t.2.val (currentMetric N g0))
          (cactS (Fields.ofMetric (fun i => D i) g0 N conn) D Γ t.1 (F.val (currentMetric N g0))))
      (fun t ht => mulOp_rep hE.symm op (Rep.of_wf (hl t ht).2.1 (hl t ht).2.2)
        (Sdop.callMv_rep hE t.1 rF)) (Rep.scalarMv 0)
  refine (G2.eq_iff hE.symm r).mpr ?_
  rw [map_zero, zero_add, h3]
  exact sum_fun_apply _ _ _

/-- C71: on the left, `F op Dop([(s₁, M₁), …], cmpflg=True)` is the sum of the `sᵢ(F) op Mᵢ`. -/
theorem C71_of_sdops_left (hf : CommutingDerivatives (Fields.ofMetric (fun i => D i) g0 N conn))
    (op : ProdOp) {l : List (Sdop K (Fin n) × Mv K n)} {F : Mv K n}
    (hl : ∀ t ∈ l, t.1.WF ∧ t.2.WF (currentMetric N g0) ∧ t.2.isBladeRep = true)
    (hF : F.WF (currentMetric N g0)) (hF' : F.isBladeRep = true) :
    ∃ G, Dop.mvMul (Fields.ofMetric (fun i => D i) g0 N conn) op F
        (Dop.ofSdops (Fields.ofMetric (fun i => D i) g0 N conn) l true) = .inl G ∧
      G.eq (currentMetric N g0) ((l.map fun t => Mv.mulOp (currentMetric N g0) op
        (t.1.callMv (Fields.ofMetric (fun i => D i) g0 N conn) F) t.2).foldl
          (Mv.add (currentMetric N g0)) (Mv.scalarMv 0)) = true := by
  obtain ⟨Γ, hE⟩ := env_of hs hN h hf
  have rF := Rep.of_wf hF hF'
  obtain ⟨h1, h2, h3⟩ := Dop.ofSdops_spec hE true (l := l) hl
  obtain ⟨G, G1, G2⟩ := Dop.apply_left hE op h1 h2 rF
  refine ⟨G, G1, ?_⟩
  have r := foldl_add_rep hE.symm l (fun t => Mv.mulOp (currentMetric N g0) op
        (t.1.callMv (Fields.ofMetric (fun i => D i) g0 N conn) F) t.2) (fun t => opS (currentMetric N g0) op
          (cactS (Fields.ofMetric (fun i => D i) g0 N conn) D Γ t.1 (F.val (currentMetric N g0)))
          (t.2.val (currentMetric N g0)))
      (fun t ht => mulOp_rep hE.symm op (Sdop.callMv_rep hE t.1 rF)
        (Rep.of_wf (hl t ht).2.1 (hl t ht).2.2)) (Rep.scalarMv 0)
  refine (G2.eq_iff hE.symm r).mpr ?_
  rw [map_zero, zero_add, h3]
  exact sum_fun_apply _ _ _

/-- C71, for operators on the right (for operators on the left it is false, see below): `components`
succeeds.  There is one component for each of some basis blades `I`, in the order of the basis blades; the
coefficients of that component are multiples of the blade `I`; and for every product and every field `F`
the sum of the `c op F` over the components `c` is `d op F`. -/
theorem C71_components_partial (hf : CommutingDerivatives (Fields.ofMetric (fun i => D i) g0 N conn))
    {d : Dop (Fin n) K n} (hd : d.WF (Fields.ofMetric (fun i => D i) g0 N conn))
    (hdf : d.cmpflg = false) :
    ∃ (cs : List (Dop (Fin n) K n)) (Is : List (List (Fin n))),
      d.components (Fields.ofMetric (fun i => D i) g0 N conn) = some cs ∧
      Is.Sublist (flat (indexes n)) ∧
      List.Forall₂ (fun c I => c.WF (Fields.ofMetric (fun i => D i) g0 N conn) ∧ c.cmpflg = false ∧
        ∀ t ∈ c.terms, ∃ a : K, t.1.val (currentMetric N g0) = a • Spec.blade (currentMetric N g0) I)
        cs Is ∧
      ∀ (op : ProdOp) (F : Mv K n), F.WF (currentMetric N g0) → F.isBladeRep = true →
        ∃ (Gs : List (Mv K n)) (G : Mv K n),
          cs.map (fun c => c.mulMv (Fields.ofMetric (fun i => D i) g0 N conn) op F) = Gs.map .inl ∧
          d.mulMv (Fields.ofMetric (fun i => D i) g0 N conn) op F = .inl G ∧
          (Gs.foldl (Mv.add (currentMetric N g0)) (Mv.scalarMv 0)).eq (currentMetric N g0) G = true := by
  obtain ⟨Γ, hE⟩ := env_of hs hN h hf
  set X := Fields.ofMetric (fun i => D i) g0 N conn with hX
  obtain ⟨l, l1, l2, l3, l4⟩ := Dop.mvExpand_spec hE (d := d) hd
  have hsub : ∀ t ∈ l, t.2.Pairwise (· < ·) := fun t ht =>
    mem_flat_indexes.mp (l3.subset (List.mem_map_of_mem ht))
  have hb : ∀ t ∈ l, Rep X.g (Mv.ofExpr [((1 : K), Sym.blade t.2)]) (Spec.blade X.g t.2) := by
    intro t ht
    refine (Rep.ofExpr (g := X.g) (E := [((1 : K), Sym.blade t.2)]) fun u hu => ?_).congr ?_
    · rw [List.mem_singleton] at hu
      exact ⟨t.2, by rw [hu], hsub t ht⟩
    · simp [den, symDen]
  let cf : Sdop K (Fin n) × List (Fin n) → Dop (Fin n) K n := fun t =>
    Dop.ofSdops X [(t.1, Mv.ofExpr [((1 : K), Sym.blade t.2)])] false
  have hc : ∀ t ∈ l, (cf t).Good X ∧ (cf t).cmpflg = false ∧
      ∀ op, (cf t).actS X D Γ op = eact X D Γ op false (Spec.blade X.g t.2) t.1 := by
    intro t ht
    obtain ⟨h1, h2, h3⟩ := Dop.ofSdops_spec hE false
      (l := [(t.1, Mv.ofExpr [((1 : K), Sym.blade t.2)])])
      (fun u hu => by rw [List.mem_singleton] at hu; subst hu; exact ⟨l2 t ht, (hb t ht).good⟩)
    refine ⟨h1, h2, fun op => (h3 op).trans ?_⟩
    rw [List.map_cons, List.map_nil, List.sum_cons, List.sum_nil, add_zero, (hb t ht).val]
  refine ⟨l.map cf, l.map Prod.snd, ?_, l3, ?_, ?_⟩
  · rw [Dop.components, l1, Option.map_some, List.map_map]
    rfl
  · rw [List.forall₂_map_left_iff, List.forall₂_map_right_iff, List.forall₂_same]
    intro t ht
    refine ⟨(hc t ht).1, (hc t ht).2.1, ?_⟩
    have key : ∀ ts : List (Mv K n × Pdop (Fin n)), ∀ acc : List (Mv K n × Pdop (Fin n)),
        (∀ u ∈ ts, ∃ a : K, Rep X.g u.1 (a • Spec.blade X.g t.2)) →
        (∀ u ∈ acc, ∃ a : K, Rep X.g u.1 (a • Spec.blade X.g t.2)) →
        ∀ u ∈ ts.foldl (fun new t => if Mv.eqZero X.g t.1 then new
          else accum (Mv.add X.g) new t.1 t.2) acc, ∃ a : K, Rep X.g u.1 (a • Spec.blade X.g t.2) := by
      intro ts
      induction ts with
      | nil => exact fun acc _ ha => ha
      | cons v ts ih =>
        intro acc hv ha
        rw [List.foldl_cons]
        refine ih _ (fun u hu => hv u (by simp [hu])) ?_
        split_ifs
        · exact ha
        · have hacc : ∀ acc : List (Mv K n × Pdop (Fin n)),
              (∀ u ∈ acc, ∃ a : K, Rep X.g u.1 (a • Spec.blade X.g t.2)) →
              ∀ u ∈ accum (Mv.add X.g) acc v.1 v.2, ∃ a : K, Rep X.g u.1 (a • Spec.blade X.g t.2) := by
            intro acc
            induction acc with
            | nil =>
              intro _ u hu
              rw [accum, List.mem_singleton] at hu
              subst hu
              exact hv v (by simp)
            | cons w acc iha =>
              intro hw u hu
              rw [accum] at hu
              split_ifs at hu
              · rcases List.mem_cons.mp hu with rfl | hu
                · obtain ⟨a, ra⟩ := hw w (by simp)
                  obtain ⟨b, rb⟩ := hv v (by simp)
                  exact ⟨a + b, (Rep.add hE.symm ra rb).congr (add_smul _ _ _).symm⟩
                · exact hw u (by simp [hu])
              · rcases List.mem_cons.mp hu with rfl | hu
                · exact hw _ (by simp)
                · exact iha (fun x hx => hw x (by simp [hx])) u hu
          exact hacc acc ha
    intro u hu
    obtain ⟨a, ra⟩ := key _ [] (fun u hu => by
      rw [List.flatMap_cons, List.flatMap_nil, List.append_nil] at hu
      obtain ⟨c, -, rfl⟩ := List.mem_map.mp hu
      exact ⟨c.1, Rep.smul c.1 (hb t ht)⟩) (by simp) u hu
    exact ⟨a, ra.val⟩
  · intro op F hF hF'
    have rF := Rep.of_wf hF hF'
    obtain ⟨G, G1, G2⟩ := Dop.apply_right hE op hd hdf rF
    let gf : Sdop K (Fin n) × List (Fin n) → Mv K n := fun t =>
      ((cf t).terms.map fun u => Mv.mulOp X.g op u.1 (u.2.call (Mv.diffN X) F)).foldl (Mv.add X.g)
        (Mv.scalarMv 0)
    have hg : ∀ t ∈ l, (cf t).mulMv X op F = .inl (gf t) ∧
        Rep X.g (gf t) ((cf t).actS X D Γ op (F.val X.g)) := by
      intro t ht
      obtain ⟨H, H1, H2⟩ := Dop.apply_right hE op (hc t ht).1 (hc t ht).2.1 rF
      have e : (cf t).mulMv X op F = .inl (gf t) := by rw [Dop.mulMv, if_pos (hc t ht).2.1]
      rw [e] at H1
      rw [Sum.inl.inj H1]
      exact ⟨e.trans H1, H2⟩
    refine ⟨l.map gf, G, ?_, G1, ?_⟩
    · rw [List.map_map, List.map_map]
      exact List.map_congr_left fun t ht => (hg t ht).1
    · have r := foldl_add_rep hE.symm l gf (fun t => (cf t).actS X D Γ op (F.val X.g))
        (fun t ht => (hg t ht).2) (Rep.scalarMv 0)
      refine (r.eq_iff hE.symm G2).mpr ?_
      rw [map_zero, zero_add, ← l4 op, hdf]
      refine Eq.trans ?_ (sum_fun_apply _ _ _).symm
      congr 1
      exact List.map_congr_left fun t ht => by rw [(hc t ht).2.2 op]; rfl

/-- C71: `is_scalar` holds exactly if all coefficients are scalars; then `d * F` for a scalar field `F` is a
scalar field. -/
theorem C71_is_scalar (hf : CommutingDerivatives (Fields.ofMetric (fun i => D i) g0 N conn))
    {d : Dop (Fin n) K n} (hd : d.WF (Fields.ofMetric (fun i => D i) g0 N conn))
    (hdf : d.cmpflg = false) :
    (d.isScalar (Fields.ofMetric (fun i => D i) g0 N conn) = true ↔
      ∀ t ∈ d.terms, ∃ c, t.1.val (currentMetric N g0) = algebraMap K _ c) ∧
    (d.isScalar (Fields.ofMetric (fun i => D i) g0 N conn) = true → ∀ f : K,
      ∃ G, d.mulMv (Fields.ofMetric (fun i => D i) g0 N conn) .geo (Mv.scalarMv f) = .inl G ∧
        G.isScalar (currentMetric N g0) = true) := by
  obtain ⟨Γ, hE⟩ := env_of hs hN h hf
  have h1 : d.isScalar (Fields.ofMetric (fun i => D i) g0 N conn) = true ↔
      ∀ t ∈ d.terms, ∃ c, t.1.val (currentMetric N g0) = algebraMap K _ c := by
    rw [Dop.isScalar, List.all_eq_true]
    exact forall₂_congr fun t ht => isScalar_iff hE.symm (hd t ht).1.1
  refine ⟨h1, fun hsc f => ?_⟩
  obtain ⟨G, G1, G2⟩ := Dop.apply_right hE .geo hd hdf (Rep.scalarMv f)
  refine ⟨G, G1, (isScalar_iff hE.symm G2.wf).mpr ?_⟩
  rw [G2.val, Dop.actS, hdf]
  have hp : ∀ (p : Pdop (Fin n)) (f : K), ∃ c, p.call (basicDiff
      (grd (Fields.ofMetric (fun i => D i) g0 N conn) D Γ)) (algebraMap K _ f) = algebraMap K _ c := by
    have hk : ∀ (i : Fin n) (k : ℕ) (f : K), ∃ c,
        (grd (Fields.ofMetric (fun i => D i) g0 N conn) D Γ i)^[k] (algebraMap K _ f) =
          algebraMap K _ c := by
      intro i k
      induction k with
      | zero => exact fun f => ⟨f, rfl⟩
      | succ k ih =>
        intro f
        rw [Function.iterate_succ_apply]
        have : grd (Fields.ofMetric (fun i => D i) g0 N conn) D Γ i (algebraMap K _ f) =
            algebraMap K _ (D i f) := Spec.deriv_algebraMap _ _ _
        rw [this]
        exact ih _
    intro p
    induction p with
    | nil => exact fun f => ⟨f, rfl⟩
    | cons t p ih =>
      intro f
      obtain ⟨c, hc⟩ := hk t.1 t.2 f
      obtain ⟨c', hc'⟩ := ih c
      refine ⟨c', ?_⟩
      rw [Pdop.call, List.foldl_cons, basicDiff, hc]
      exact hc'
  have h2 := h1.mp hsc
  revert h2
  generalize d.terms = ts
  clear hsc h1 G1 G2
  induction ts with
  | nil => exact fun _ => ⟨0, (map_zero _).symm⟩
  | cons t ts ih =>
    intro h2
    obtain ⟨c, hc⟩ := ih fun u hu => h2 u (by simp [hu])
    obtain ⟨a, ha⟩ := h2 t (by simp)
    obtain ⟨b, hb⟩ := hp t.2 f
    refine ⟨a * b + c, ?_⟩
    rw [tsum_cons, Pi.add_apply, hc, map_add, map_mul]
    exact congrArg (· + _) (congrArg₂ (· * ·) ha hb)

end algebra

/-! ### Operators on the left -/

/-- C71 is false for operators on the left: the components of `e_x ∂_x`, operating on the left in an algebra
with constant metric, operate on the right.  So `F * d` is a multivector, but `F * c` is an operator for the
only component `c`, and `d + c`, `d - c` and `d == c` raise. -/
theorem C71_left_counterexample :
    ∃ (c d : Dop (Fin 2) (Ex.Fun 2) 2), d.cmpflg = true ∧
      d.WF (Fields.ofMetric (fun i => Ex.partialD i) 1 none none) ∧
      d.components (Fields.ofMetric (fun i => Ex.partialD i) 1 none none) = some [c] ∧
      c.cmpflg = false ∧
      (∀ F, ∃ G e, Dop.mvMul (Fields.ofMetric (fun i => Ex.partialD i) 1 none none) .geo F d = .inl G ∧
        Dop.mvMul (Fields.ofMetric (fun i => Ex.partialD i) 1 none none) .geo F c = .inr e) ∧
      Dop.add (Fields.ofMetric (fun i => Ex.partialD i) 1 none none) d c = none ∧
      Dop.sub (Fields.ofMetric (fun i => Ex.partialD i) 1 none none) d c = none ∧
      Dop.eq (Fields.ofMetric (fun i => Ex.partialD i) 1 none none) d c = none := by
  set X : Fields (Fin 2) (Ex.Fun 2) 2 := Fields.ofMetric (fun i => Ex.partialD i) 1 none none
  let d : Dop (Fin 2) (Ex.Fun 2) 2 := ⟨[(Mv.ofExpr (bladeE [0]), [(0, 1)])], true⟩
  have hd : d.WF X := by
    intro t ht
    rw [List.mem_singleton] at ht
    subst ht
    exact ⟨(basis_rep 0).good, by simp [Pdop.WF]⟩
  have hs : X.g.IsSymm := Matrix.isSymm_one
  have e1 : (Mv.ofExpr (bladeE [0]) : Mv (Ex.Fun 2) 2).obj = [((1 : Ex.Fun 2), Sym.blade [0])] := by
    simp [Mv.ofExpr, bladeE, expand, gatherE, addTerm]
  have hsc : (Mv.ofExpr (bladeE [0]) : Mv (Ex.Fun 2) 2).isScalar X.g = false := by
    rw [← Bool.not_eq_true, isScalar_iff hs (basis_rep 0).wf, (basis_rep 0).val]
    rintro ⟨c, hc⟩
    have h1 := congrArg (Spec.grade X.g 1) hc
    rw [grade_algebraMap X.g c one_ne_zero] at h1
    have h3 : Spec.vec X.g (Pi.single 0 1) = Spec.blade X.g [0] := (Spec.blade_singleton ..).symm
    have h2 := Spec.grade_blade (g := X.g) 1 [0]
    rw [if_pos (by rfl), ← h3, h1] at h2
    replace h2 := congrFun (vec_inj X.g (h2.symm.trans (map_zero _).symm)) 0
    simp at h2
  have hexp : d.mvExpand X = some [([((1 : Ex.Fun 2), [(0, 1)])], Sym.blade [0])] := by
    have hl : d.expandLoop X = [([((1 : Ex.Fun 2), [(0, 1)])], Sym.blade [0])] := by
      rw [Dop.expandLoop, List.foldl_cons, List.foldl_nil, hsc, if_neg (by simp), e1,
        linearExpand_canon ⟨by simp, by simp⟩ (by simp)]
      rfl
    rw [Dop.mvExpand, hl]
    rfl
  have hne : true ≠ false := by simp
  refine ⟨Dop.ofSdops X [([((1 : Ex.Fun 2), [(0, 1)])], Mv.ofExpr [((1 : Ex.Fun 2), Sym.blade [0])])] false, d,
    rfl, hd, ?_, rfl, fun F => ⟨_, _, if_neg (by simp [d]), if_pos rfl⟩, ?_⟩
  · rw [Dop.components, hexp]; rfl
  · obtain ⟨k1, k2, -, k4⟩ := C42_incompatible_raises X .geo (d := d)
      (e := Dop.ofSdops X [([((1 : Ex.Fun 2), [(0, 1)])], Mv.ofExpr [((1 : Ex.Fun 2), Sym.blade [0])])] false) hne
    exact ⟨k1, k2, k4⟩

/-! ### Concrete cases -/

namespace Ex

/-- The hypotheses of `C71_components_partial` are met by `e_θ ∂_r + r² ∂_θ ∂_r` in polar coordinates. -/
example : ∃ conn cs, connOf (fun i => partialD i) polar none = some conn ∧
    (dpol false).components (Fields.ofMetric (fun i => partialD i) polar none conn) = some cs := by
  obtain ⟨conn, h1, h2⟩ := polar_commuting
  obtain ⟨cs, Is, h3, -⟩ := C71_components_partial polar_symm (by simp) h1 h2 (dpol_wf _ false) rfl
  exact ⟨conn, cs, h1, h3⟩

/-- The hypotheses of `C71_of_sdops` are met by `[(r ∂_r + 1, e_θ), (∂_θ, 1)]` in polar coordinates. -/
example : ∃ conn G, connOf (fun i => partialD i) polar none = some conn ∧
    (Dop.ofSdops (Fields.ofMetric (fun i => partialD i) polar none conn)
      [([(coord 0, [(0, 1)]), (1, [])], Mv.ofExpr (bladeE [1])), ([(1, [(1, 1)])], Mv.scalarMv 1)] false).mulMv
      (Fields.ofMetric (fun i => partialD i) polar none conn) .outer (Mv.vector ![coord 0, coord 1]) = .inl G := by
  obtain ⟨conn, h1, h2⟩ := polar_commuting
  obtain ⟨-, G, h3, -⟩ := C71_of_sdops polar_symm (by simp) h1 h2 .outer
    (l := [([(coord 0, [(0, 1)]), (1, [])], Mv.ofExpr (bladeE [1])), ([(1, [(1, 1)])], Mv.scalarMv 1)])
    (by
      intro t ht
      simp only [List.mem_cons, List.not_mem_nil, or_false] at ht
      rcases ht with rfl | rfl
      · exact ⟨by simp [Sdop.WF, Pdop.WF], (basis_rep (g := polar) 1).wf, (basis_rep (g := polar) 1).flag⟩
      · exact ⟨by simp [Sdop.WF, Pdop.WF], (Rep.scalarMv (g := polar) 1).wf,
          (Rep.scalarMv (g := polar) 1).flag⟩)
    (Rep.vector (g := polar) ![coord 0, coord 1]).wf (Rep.vector (g := polar) ![coord 0, coord 1]).flag
  exact ⟨conn, G, h1, h3⟩

end Ex

end GA
