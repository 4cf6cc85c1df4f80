import Verif.Proofs.Subs
import Verif.Model.SymEq
import Verif.Props.C06
import Mathlib.Algebra.MvPolynomial.Eval
import Mathlib.Analysis.SpecialFunctions.Trigonometric.Basic

/-!
# C86: coefficients whose equality SymPy does not recognise

`R` is the ring of SymPy expressions: two expressions are the same element if `expand` brings them to the
same form.  `φ` gives the value of an expression in a ring `S`, for instance of functions, so that
different expressions, such as `sin(x)**2 + cos(x)**2` and `1`, may have the same value.  The library
decides with expressions: whether a term vanishes, whether the basis is orthogonal, whether a factor is a
scalar.  `p.run g a` is the library's result of the calculation `p`, `p.value` its mathematical value
(`Spec/Program`), `eqModes` models `==` with the simplification it applies.
-/

set_option linter.unusedSectionVars false
set_option maxRecDepth 10000

namespace GA
open Spec (Change exists_change)
variable {n : ℕ} {R S : Type*} [CommRing R] [DecidableEq R] [Invertible (2 : R)]
  [CommRing S] [DecidableEq S] [Invertible (2 : S)] (φ : R →+* S)
  {g : Matrix (Fin n) (Fin n) R} {a : ℕ → Mv R n} {A B : Mv R n}

/-- The meaning of a multivector whose coefficients have the values `φ` gives them. -/
noncomputable def Mv.valueOf (φ : R →+* S) (g : Matrix (Fin n) (Fin n) R) (A : Mv R n) :
    Spec.Cl (g.map φ) := den (g.map φ) (A.obj.map fun t => (φ t.1, t.2))

/-- C86: the result of every calculation has the value of the calculation, also if the library fails to
see that an expression is zero. -/
theorem C86_result (hs : g.IsSymm) (ha : ∀ i, (a i).WF g) (hb : ∀ i, (a i).isBladeRep = true)
    (p : Calc R) :
    (p.run g a).valueOf φ g = (p.map φ).value (g.map φ) fun i => (a i).valueOf φ g := by
  obtain ⟨Ψ⟩ := exists_change φ g
  have hr := fun i => Rep.of_wf (ha i) (hb i)
  obtain ⟨z, h, h'⟩ := calc_rep Ψ hs hr (fun i => (hr i).subs Ψ) p
  have h1 := calc_value (isSymm_map hs) (fun i => (hr i).subs Ψ) (p.map φ)
  have h2 : (fun i => (a i).valueOf φ g) = fun i => Ψ.hom ((a i).val g) :=
    funext fun i => den_map Ψ _
  rw [h2, ← h1.val, h'.val, ← h.val]
  exact den_map Ψ _

/-- A list of functions that keep the value of an expression keeps it. -/
theorem modes_value {modes : List (R → R)} (hm : ∀ f ∈ modes, ∀ c, φ (f c) = φ c) (c : R) :
    φ (modes.foldl (fun c f => f c) c) = φ c := by
  induction modes generalizing c with
  | nil => rfl
  | cons f modes ih =>
    rw [List.foldl_cons, ih fun f' hf' => hm f' (by simp [hf']), hm f (by simp)]

theorem valueOf_ofExpr (Ψ : Change φ g) (E : Expr R n) : (Mv.ofExpr E).valueOf φ g = Ψ.hom (den g E) := by
  rw [Mv.valueOf, den_map Ψ]; exact congrArg Ψ.hom (ofExpr_val E)

/-- C86: `simplify` with functions that keep the value of an expression keeps the value of the
multivector, in either representation. -/
theorem C86_simplify {modes : List (R → R)} (hm : ∀ f ∈ modes, ∀ c, φ (f c) = φ c) (A : Mv R n) :
    (A.simplify modes).valueOf φ g = A.valueOf φ g := by
  obtain ⟨Ψ⟩ := exists_change φ g
  rw [Mv.simplify, valueOf_ofExpr φ Ψ, ← den_map Ψ, List.map_map]
  have : ((fun t : R × Sym n => (φ t.1, t.2)) ∘ fun t : R × Sym n =>
      (modes.foldl (fun c f => f c) t.1, t.2)) = fun t => (φ t.1, t.2) := by
    funext t
    rw [Function.comp_apply, modes_value φ hm]
  rw [this, den_map Ψ, den_linearExpand, Mv.valueOf, den_map Ψ]

/-- C86: so does `Simp.apply`, which the connection coefficients and operators go through. -/
theorem C86_simp_apply {modes : List (R → R)} (hm : ∀ f ∈ modes, ∀ c, φ (f c) = φ c) (E : Expr R n) :
    den (g.map φ) ((simpApply modes E).map fun t => (φ t.1, t.2)) =
      den (g.map φ) (E.map fun t => (φ t.1, t.2)) := by
  obtain ⟨Ψ⟩ := exists_change φ g
  have key : ∀ (L acc : Expr R n), den (g.map φ) ((L.foldl (fun obj t =>
      addE obj [(modes.foldl (fun c f => f c) t.1, t.2)]) acc).map fun t => (φ t.1, t.2)) =
      den (g.map φ) (acc.map fun t => (φ t.1, t.2)) + den (g.map φ) (L.map fun t => (φ t.1, t.2)) := by
    intro L
    induction L with
    | nil => intro acc; simp [den]
    | cons t L ih =>
      intro acc
      rw [List.foldl_cons, ih, addE, List.map_append]
      simp only [den_eq_lin, lin_append, List.map_cons, List.map_nil, lin_cons, modes_value φ hm]
      simp [add_assoc]
  rw [simpApply, key, den_map Ψ (linearExpand E), den_linearExpand, den_map Ψ E]
  simp [den]

theorem valueOf_sub (Ψ : Change φ g) (hs : g.IsSymm) (hA : A.WF g) (hB : B.WF g) :
    (A.sub g B).valueOf φ g = A.valueOf φ g - B.valueOf φ g := by
  have h := (sub_spec hs hA hB).2
  rw [Mv.valueOf, den_map Ψ, Mv.valueOf, den_map Ψ, Mv.valueOf, den_map Ψ, ← map_sub]
  exact congrArg Ψ.hom h

/-- C86: what `==` confirms is true: the multivectors have the same value, whichever simplification is
used, as long as it keeps the values of expressions.  The operands may be in either representation. -/
theorem C86_eq_sound {modes : List (R → R)} (hm : ∀ f ∈ modes, ∀ c, φ (f c) = φ c) (hs : g.IsSymm)
    (hA : A.WF g) (hB : B.WF g) (he : A.eqModes g modes B = true) :
    A.valueOf φ g = B.valueOf φ g := by
  obtain ⟨Ψ⟩ := exists_change φ g
  have h0 : ((A.sub g B).expandMv.simplify modes).valueOf φ g = 0 := by
    rw [Mv.valueOf, of_decide_eq_true he]
    simp [den]
  rw [C86_simplify φ hm, Mv.expandMv, Mv.subs, valueOf_ofExpr φ Ψ] at h0
  have h1 : den g ((linearExpand (A.sub g B).obj).map fun t => (id t.1, t.2)) =
      den g (A.sub g B).obj := by
    simp [den_linearExpand]
  rw [h1, ← den_map Ψ] at h0
  have h2 : (A.sub g B).valueOf φ g = 0 := h0
  rwa [valueOf_sub φ Ψ hs hA hB, sub_eq_zero] at h2

/-- C86: if the simplification finds every expression with the value zero, then `==` recognises all equal
multivectors in blade representation. -/
theorem C86_eq_complete {modes : List (R → R)}
    (hz : ∀ c, φ c = 0 → modes.foldl (fun c f => f c) c = 0) (hs : g.IsSymm)
    (hA : A.WF g) (hB : B.WF g) (hA' : A.isBladeRep = true) (hB' : B.isBladeRep = true)
    (he : A.valueOf φ g = B.valueOf φ g) : A.eqModes g modes B = true := by
  obtain ⟨Ψ⟩ := exists_change φ g
  have hr := Rep.sub hs (Rep.of_wf hA hA') (Rep.of_wf hB hB')
  have h1 : (A.sub g B).valueOf φ g = 0 := by rw [valueOf_sub φ Ψ hs hA hB, he, sub_self]
  rw [Mv.eqModes, decide_eq_true_eq]
  have hv := valid_linearExpand hr.valid
  have e : (A.sub g B).expandMv = Mv.ofExpr (linearExpand (A.sub g B).obj) := by
    simp [Mv.expandMv, Mv.subs]
  -- every coefficient of the difference has the value zero
  have key : ∀ t ∈ linearExpand (A.sub g B).expandMv.obj, modes.foldl (fun c f => f c) t.1 = 0 := by
    intro t ht
    have hv2 : Valid (A.sub g B).expandMv.obj := by rw [e]; exact hv.expand
    obtain ⟨l, hl, hlt⟩ := valid_linearExpand hv2 t ht
    refine hz _ ?_
    rw [term_coef ht, hl, ← coeff_eq_coefOf]
    have hsub := (Rep.of_wf (g := g) (A := A.sub g B) hr.wf hr.flag).subs Ψ
    have h2 : Ψ.hom ((A.sub g B).val g) = 0 := by
      rw [← h1]; exact (den_map Ψ _).symm
    have h3 : den (g.map φ) ((linearExpand (A.sub g B).obj).map fun t => (φ t.1, t.2)) = 0 := by
      rw [den_map Ψ, den_linearExpand]; exact h2
    have h4 := (den_eq_iff (g.map φ) (valid_mapTo hv φ) (B := []) (by intro t ht; simp at ht)).mp
      (by rw [h3]; simp [den]) l hlt
    have h5 : coeff (A.sub g B).expandMv.obj l = coeff (linearExpand (A.sub g B).obj) l := by
      rw [e, Mv.ofExpr, coeff_eq_lin, coeff_eq_lin, lin_expand]
    rw [h5]
    have h6 : ∀ E : Expr R n, coeff (E.map fun t => (φ t.1, t.2)) l = φ (coeff E l) := by
      intro E
      rw [coeff_eq_lin, coeff_eq_lin]
      induction E with
      | nil => simp
      | cons t E ih =>
        rw [List.map_cons, lin_cons, lin_cons, ih, map_add]
        congr 1
        simp only [smul_eq_mul, map_mul]
        split_ifs <;> simp
    rw [← h6, h4]
    simp [coeff_eq_lin]
  rw [Mv.simplify, List.map_congr_left (g := fun t => ((0 : R), t.2))
    (fun t ht => by rw [key t ht])]
  have hd : Valid ((linearExpand (A.sub g B).expandMv.obj).map fun t => ((0 : R), t.2)) :=
    valid_map (valid_linearExpand (E := (A.sub g B).expandMv.obj) (by rw [e]; exact hv.expand)) fun _ => 0
  have hz' := Rep.ofExpr (g := g) hd
  have h7 := (val_eq_zero (g := g) hz'.wf).mp
  refine h7 (hz'.val.trans ?_)
  generalize linearExpand (A.sub g B).expandMv.obj = L
  induction L with
  | nil => rfl
  | cons t L ih => rw [List.map_cons, den_eq_lin, lin_cons, zero_smul, zero_add, ← den_eq_lin, ih]

/-! Expressions in `s = sin(t)` and `c = cos(t)`, whose values are functions of `t`. -/

namespace Ex
open MvPolynomial

/-- SymPy expressions in `sin(t)` and `cos(t)`. -/
abbrev TrigE := MvPolynomial (Fin 2) ℚ

noncomputable instance : DecidableEq TrigE := Classical.decEq _
noncomputable instance : DecidableEq (ℝ → ℝ) := Classical.decEq _
noncomputable instance : Invertible (2 : TrigE) := ⟨MvPolynomial.C (1 / 2), by
    rw [show (2 : TrigE) = MvPolynomial.C 2 from (map_ofNat MvPolynomial.C 2).symm, ← C_mul]
    norm_num, by
    rw [show (2 : TrigE) = MvPolynomial.C 2 from (map_ofNat MvPolynomial.C 2).symm, ← C_mul]
    norm_num⟩
noncomputable instance : Invertible (2 : ℝ → ℝ) := ⟨fun _ => 1 / 2, by ext; simp, by ext; simp⟩

/-- The value of an expression, a function of `t`. -/
noncomputable def trigVal : TrigE →+* (ℝ → ℝ) :=
  eval₂Hom (algebraMap ℚ (ℝ → ℝ)) ![Real.sin, Real.cos]

/-- `sin(t)**2 + cos(t)**2 - 1` -/
noncomputable def pyth : TrigE := X 0 ^ 2 + X 1 ^ 2 - 1

theorem pyth_val : trigVal pyth = 0 := by
  funext t
  simp [pyth, trigVal]

theorem pyth_ne : pyth ≠ 0 := by
  intro h
  have := congrArg (eval (0 : Fin 2 → ℚ)) h
  simp [pyth] at this

/-- A metric whose off-diagonal entry is zero, which `expand` does not show. -/
noncomputable def gT : Matrix (Fin 2) (Fin 2) TrigE := !![1, pyth; pyth, -1]
theorem gT_symm : gT.IsSymm := by
  ext i j : 1; fin_cases i <;> fin_cases j <;> rfl

/-- A simplification that finds every zero. -/
noncomputable def trigSimp (c : TrigE) : TrigE := if trigVal c = 0 then 0 else c

end Ex

/-- C86: without a simplification that knows the relation between sine and cosine `==` denies that
`(sin(t)**2 + cos(t)**2) * e_1` and `e_1` are equal; and the basis of the metric with off-diagonal entries
`sin(t)**2 + cos(t)**2 - 1` counts as not orthogonal. -/
theorem C86_incomplete_counterexample :
    let A := Mv.vector (n := 2) ![Ex.pyth + 1, 0]
    let B := Mv.vector (n := 2) ![(1 : Ex.TrigE), 0]
    A.eqModes Ex.gT [] B = false ∧ A.valueOf Ex.trigVal Ex.gT = B.valueOf Ex.trigVal Ex.gT ∧
      isOrtho Ex.gT = false ∧ (∀ i j, i ≠ j → (Ex.gT.map Ex.trigVal) i j = 0) := by
  intro A B
  have hA := Rep.vector (g := Ex.gT) ![Ex.pyth + 1, 0]
  have hB := Rep.vector (g := Ex.gT) ![(1 : Ex.TrigE), 0]
  obtain ⟨Ψ⟩ := exists_change Ex.trigVal Ex.gT
  refine ⟨?_, ?_, ?_, ?_⟩
  · rw [Bool.eq_false_iff]
    intro h
    have h1 := C86_eq_sound (RingHom.id Ex.TrigE) (by simp) Ex.gT_symm hA.wf hB.wf h
    have h2 : ∀ C : Mv Ex.TrigE 2, C.valueOf (RingHom.id Ex.TrigE) Ex.gT =
        C.val (Ex.gT.map (RingHom.id Ex.TrigE)) := by
      intro C
      simp [Mv.valueOf, Mv.val]
    have h3 : Ex.gT.map (RingHom.id Ex.TrigE) = Ex.gT := by ext i j; rfl
    rw [h2, h2, h3, hA.val, hB.val] at h1
    have h4 := congrArg (Spec.toExt Ex.gT) h1
    rw [Spec.toExt_vec, Spec.toExt_vec, ExteriorAlgebra.ι_inj] at h4
    have h5 := congrFun h4 0
    simp only [Matrix.cons_val_zero, add_eq_right] at h5
    exact Ex.pyth_ne h5
  · rw [Mv.valueOf, den_map Ψ, Mv.valueOf, den_map Ψ]
    rw [show den Ex.gT A.obj = _ from hA.val, show den Ex.gT B.obj = _ from hB.val, Ψ.vec, Ψ.vec]
    congr 1
    funext i
    fin_cases i
    · simp [Ex.pyth_val]
    · rfl
  · rw [Bool.eq_false_iff]
    intro h
    rw [isOrtho_iff] at h
    exact Ex.pyth_ne (h 0 1 (by decide))
  · intro i j hij
    fin_cases i <;> fin_cases j
    · exact absurd rfl hij
    · exact Ex.pyth_val
    · exact Ex.pyth_val
    · exact absurd rfl hij

theorem trig_scalars : (Mv.scalarMv (Ex.pyth + 1) : Mv Ex.TrigE 2).eqModes Ex.gT [Ex.trigSimp]
      (Mv.scalarMv 1) = true ∧
    (Mv.scalarMv (Ex.pyth + 1) : Mv Ex.TrigE 2).obj = [(Ex.pyth + 1, .blade [])] ∧
    (Mv.scalarMv 1 : Mv Ex.TrigE 2).obj = [(1, .blade [])] := by
  have hA := Rep.scalarMv (g := Ex.gT) (Ex.pyth + 1)
  have hB := Rep.scalarMv (g := Ex.gT) 1
  obtain ⟨Ψ⟩ := exists_change Ex.trigVal Ex.gT
  have h1 : Ex.pyth + 1 ≠ 0 := by
    intro h
    have := congrArg Ex.trigVal h
    rw [map_add, Ex.pyth_val, map_one, map_zero, zero_add] at this
    exact one_ne_zero this
  have key : ∀ c : Ex.TrigE, c ≠ 0 → (Mv.scalarMv c : Mv Ex.TrigE 2).obj = [(c, .blade [])] := by
    intro c hc
    simp [Mv.scalarMv, Mv.ofExpr, scalarE, expand, gatherE, addTerm, hc]
  refine ⟨?_, key _ h1, key _ one_ne_zero⟩
  refine C86_eq_complete Ex.trigVal (fun c hc => by simp [Ex.trigSimp, hc]) Ex.gT_symm hA.wf hB.wf
    hA.flag hB.flag ?_
  rw [Mv.valueOf, den_map Ψ, Mv.valueOf, den_map Ψ]
  rw [show den Ex.gT _ = _ from hA.val, show den Ex.gT _ = _ from hB.val, Ψ.scalar, Ψ.scalar, map_add,
    Ex.pyth_val, zero_add]

/-- C86: `==` with a scalar expression compares without simplification: the multivector
`sin(t)**2 + cos(t)**2` equals the multivector `1` but not the number `1`, even if the simplification finds
every zero. -/
theorem C86_scalar_counterexample :
    (Mv.scalarMv (Ex.pyth + 1) : Mv Ex.TrigE 2).eqModes Ex.gT [Ex.trigSimp] (Mv.scalarMv 1) = true ∧
    (Mv.scalarMv (Ex.pyth + 1) : Mv Ex.TrigE 2).eqScalar Ex.gT 1 = false := by
  obtain ⟨h1, h2, h3⟩ := trig_scalars
  refine ⟨h1, ?_⟩
  have h4 : expand (scalarE 1) = (Mv.scalarMv 1 : Mv Ex.TrigE 2).obj := rfl
  rw [Mv.eqScalar, Bool.and_eq_false_iff]
  right
  rw [decide_eq_false_iff_not, h4, h2, h3]
  intro h
  simp only [List.cons.injEq, Prod.mk.injEq, and_true, add_eq_right] at h
  exact Ex.pyth_ne h

/-- C86: equal multivectors then have different hash values, so that a set or dictionary holds both,
whenever the hash of SymPy expressions distinguishes these two. -/
theorem C86_hash_counterexample (hashObj hashPair : Multiset (Ex.TrigE × Sym 2) → ℤ)
    (hh : hashObj {(Ex.pyth + 1, .blade [])} ≠ hashObj {(1, .blade [])}) :
    (Mv.scalarMv (Ex.pyth + 1) : Mv Ex.TrigE 2).eqModes Ex.gT [Ex.trigSimp] (Mv.scalarMv 1) = true ∧
    (Mv.scalarMv (Ex.pyth + 1) : Mv Ex.TrigE 2).hash Ex.gT hashObj hashPair ≠
      (Mv.scalarMv 1 : Mv Ex.TrigE 2).hash Ex.gT hashObj hashPair := by
  obtain ⟨h1, h2, h3⟩ := trig_scalars
  refine ⟨h1, ?_⟩
  have hA := Rep.scalarMv (g := Ex.gT) (Ex.pyth + 1)
  have hB := Rep.scalarMv (g := Ex.gT) 1
  rw [Mv.hash, if_pos ((isScalar_iff Ex.gT_symm hA.wf).mpr ⟨_, hA.val⟩), Mv.hash,
    if_pos ((isScalar_iff Ex.gT_symm hB.wf).mpr ⟨_, hB.val⟩), h2, h3]
  exact hh

/-- `trigSimp` meets the hypotheses of `C86_eq_sound` and `C86_eq_complete`. -/
example : (∀ f ∈ [Ex.trigSimp], ∀ c, Ex.trigVal (f c) = Ex.trigVal c) ∧
    ∀ c, Ex.trigVal c = 0 → [Ex.trigSimp].foldl (fun c f => f c) c = 0 := by
  constructor
  · intro f hf c
    rw [List.mem_singleton] at hf
    rw [hf, Ex.trigSimp]
    split_ifs with h
    · rw [map_zero, h]
    · rfl
  · intro c hc
    simp [Ex.trigSimp, hc]
/-- With it `==` recognises the two vectors. -/
example : (Mv.vector (n := 2) ![Ex.pyth + 1, 0]).eqModes Ex.gT [Ex.trigSimp]
    (Mv.vector ![(1 : Ex.TrigE), 0]) = true :=
  C86_eq_complete Ex.trigVal (fun c hc => by simp [Ex.trigSimp, hc]) Ex.gT_symm
    (Rep.vector (g := Ex.gT) _).wf (Rep.vector (g := Ex.gT) _).wf (Rep.vector (g := Ex.gT) _).flag
    (Rep.vector (g := Ex.gT) _).flag C86_incomplete_counterexample.2.1
/-- The product of the basis vectors for this metric has the value of an orthogonal product. -/
example : (Calc.run Ex.gT (fun i => Mv.vector (n := 2) fun j => if i = (j : ℕ) then 1 else 0)
      (.add (.mul (.var 0) (.var 1)) (.mul (.var 1) (.var 0)))).valueOf Ex.trigVal Ex.gT =
    Spec.e _ 0 * Spec.e _ 1 + Spec.e _ 1 * Spec.e _ 0 := by
  rw [C86_result _ Ex.gT_symm (fun i => (Rep.vector (g := Ex.gT) _).wf)
    (fun i => (Rep.vector (g := Ex.gT) _).flag)]
  obtain ⟨Ψ⟩ := exists_change Ex.trigVal Ex.gT
  have : ∀ k : Fin 2, (Mv.vector (n := 2) fun j => if (k : ℕ) = (j : ℕ) then (1 : Ex.TrigE) else 0).valueOf
      Ex.trigVal Ex.gT = Spec.e _ k := by
    intro k
    rw [Mv.valueOf, den_map Ψ, ← Ψ.e, Spec.e]
    refine congrArg Ψ.hom ((Rep.vector (g := Ex.gT) _).val.trans (congrArg _ (funext fun j => ?_)))
    by_cases h : k = j
    · subst h; simp
    · rw [if_neg (fun h' => h (Fin.ext h')), Pi.single_eq_of_ne (Ne.symm h)]
  simp only [Calc.map, Calc.value]
  have h0 := this 0
  have h1 := this 1
  simp only [Fin.val_zero, Fin.val_one] at h0 h1
  rw [h0, h1]

end GA
