import Verif.Model.Param
import Verif.Proofs.Coef
import Verif.Proofs.Conn
import Verif.Proofs.RatFun

/-!
# C67: derivatives by coordinates and by parameters

`A.diff X D x` models `A.diff(x)` in an algebra with the attributes `X`; `D x` is the derivative by the
symbol `x` on coefficients.  `X.parametric fs` declares that the coordinates are the functions `fs` of
parameters.

The claim for parameters is false, see `C67_parameter_counterexample`, and so is the one for coordinates
in algebras with a connection, see `C67_connection_counterexample`: `Mv.diff` and `Mv.pdiff` pass the SymPy
expression of the multivector to `Ga.pDiff`, which needs the multivector itself.
-/

set_option linter.unusedSectionVars false
set_option maxRecDepth 10000

namespace GA
variable {n : ℕ} {K V : Type*} [Field K] [DecidableEq K] [Invertible (2 : K)] [DecidableEq V]
  {g : Matrix (Fin n) (Fin n) K}

theorem diffE_rep (D : K → K) (h0 : D 0 = 0) {A : Mv K n} (hA : A.WF g) (hA' : A.isBladeRep = true)
    {c : Finset (Fin n) → K} (hc : A.val g = Spec.ofCoefs g c) :
    Rep g (Mv.ofExpr (diffE D A.obj)) (Spec.ofCoefs g fun s => D (c s)) := by
  have hv := valid_map (hA.valid (Or.inl hA')) D
  refine (Rep.ofExpr (g := g) hv).congr (den_ofCoefs hv fun l hl => ?_)
  rw [coeff_eq_coefOf, coefOf_map hA.1 D h0, ← coeff_eq_coefOf,
    coeff_of_rep (hA.valid (Or.inl hA')) hc hl]

/-- C67 (proved part): in an algebra without connection the derivative by a coordinate, and `pdiff` by any
symbol, is the derivative of the field. -/
theorem C67_coordinate_partial {X : DiffGa n K V} (hX : X.conn = none) (D : V → K → K) {x : V}
    (h0 : D x 0 = 0) {A : Mv K n} (hA : A.WF X.g) (hA' : A.isBladeRep = true)
    {c : Finset (Fin n) → K} (hc : A.val X.g = Spec.ofCoefs X.g c) :
    (∀ cs, X.coords = some cs → (∃ i, cs i = x) →
      ∃ B, A.diff X D x = some B ∧ B.WF X.g ∧ B.isBladeRep = true ∧
        B.val X.g = Spec.ofCoefs X.g fun s => D x (c s)) ∧
    ∃ B, A.pdiff X D x = some B ∧ B.WF X.g ∧ B.isBladeRep = true ∧
      B.val X.g = Spec.ofCoefs X.g fun s => D x (c s) := by
  have hv := valid_map (hA.valid (Or.inl hA')) (D x)
  have hr : Rep X.g (Mv.ofExpr (expand (diffE (D x) A.obj))) (Spec.ofCoefs X.g fun s => D x (c s)) := by
    refine (Rep.ofExpr (g := X.g) hv.expand).congr ?_
    rw [den_expand]
    have := (diffE_rep (D x) h0 hA hA' hc).val
    rwa [ofExpr_val] at this
  refine ⟨fun cs hcs ⟨i, hi⟩ => ⟨_, ?_, hr.wf, hr.flag, hr.val⟩, _, ?_, hr.wf, hr.flag, hr.val⟩
  · rw [Mv.diff, hcs]
    dsimp only
    rw [if_pos (List.mem_ofFn' cs _ |>.mpr ⟨i, hi⟩), hX, pDiffObj]
  · rw [Mv.pdiff, hX, pDiffObj]

/-- The claim for coordinates is false in every algebra with a connection: `diff` by a coordinate, and
`pdiff` by any symbol, of any multivector raises an exception. -/
theorem C67_connection_counterexample {X : DiffGa n K V} (hX : X.conn ≠ none) (D : V → K → K)
    (A : Mv K n) (x : V) :
    (∀ cs, X.coords = some cs → (∃ i, cs i = x) → A.diff X D x = none) ∧ A.pdiff X D x = none := by
  obtain ⟨de, h⟩ := Option.ne_none_iff_exists'.mp hX
  refine ⟨fun cs hcs ⟨i, hi⟩ => ?_, ?_⟩
  · rw [Mv.diff, hcs]
    dsimp only
    rw [if_pos (List.mem_ofFn' cs _ |>.mpr ⟨i, hi⟩), h, pDiffObj]
  · rw [Mv.pdiff, h, pDiffObj]

theorem get?_parametric {ps : List (V × K)} {d : Dict V K} {x : V}
    (h : (ps.foldl (fun d p => Dict.set d p.1 p.2) d).get? x ≠ none) :
    d.get? x ≠ none ∨ x ∈ ps.map Prod.fst := by
  induction ps generalizing d with
  | nil => exact Or.inl h
  | cons p ps ih =>
    rw [List.foldl_cons] at h
    rcases ih h with h | h
    · rw [Dict.get?_set] at h
      by_cases hp : p.1 = x
      · exact Or.inr (by simp [hp])
      · rw [if_neg hp] at h; exact Or.inl h
    · exact Or.inr (by simp only [List.map_cons, List.mem_cons]; exact Or.inr h)

/-- C67 (proved part): the derivative by a symbol that is not a coordinate differentiates the
coefficients; it is the same before and after a call of `parametric`. -/
theorem C67_parameter_partial {X X' : DiffGa n K V} (hX : X.parCoords = none) (fs : List K)
    (hX' : X' = X ∨ X.parametric fs = some X') (D : V → K → K) {x : V}
    (hx : ∀ cs, X.coords = some cs → ∀ i, cs i ≠ x) (h0 : D x 0 = 0) {A : Mv K n} (hA : A.WF X.g)
    (hA' : A.isBladeRep = true) {c : Finset (Fin n) → K} (hc : A.val X.g = Spec.ofCoefs X.g c) :
    ∃ B, A.diff X' D x = some B ∧ B.WF X.g ∧ B.isBladeRep = true ∧
      B.val X.g = Spec.ofCoefs X.g fun s => D x (c s) := by
  have hr := diffE_rep (g := X.g) (D x) h0 hA hA' hc
  refine ⟨_, ?_, hr.wf, hr.flag, hr.val⟩
  rcases hX' with rfl | hp
  · rw [Mv.diff]
    cases hcs : X'.coords with
    | none => rfl
    | some cs =>
      dsimp only
      rw [if_neg, hX]
      rw [List.mem_ofFn']
      rintro ⟨i, h⟩; exact hx cs hcs i h
  · rw [DiffGa.parametric] at hp
    split_ifs at hp with hl
    cases hcs : X.coords with
    | none => rw [hcs] at hp; exact absurd hp (by simp)
    | some cs =>
      rw [hcs] at hp
      obtain rfl := Option.some.inj hp
      rw [Mv.diff]
      dsimp only
      rw [if_neg, if_pos]
      · rw [Option.isNone_iff_eq_none]
        by_contra h
        rcases get?_parametric h with h | h
        · exact h rfl
        · obtain ⟨p, hp, rfl⟩ := List.mem_map.mp h
          have := (List.of_mem_zip (a := p.1) (b := p.2) hp).1
          rw [List.mem_ofFn'] at this
          obtain ⟨i, h⟩ := this
          exact hx cs hcs i h
      · rw [List.mem_ofFn']
        rintro ⟨i, h⟩; exact hx cs hcs i h

/-- C67: `parametric` accepts exactly the lists with one function for each coordinate, in algebras with
coordinates. -/
theorem C67_parametric_accepts (X : DiffGa n K V) (fs : List K) :
    (∃ X', X.parametric fs = some X') ↔ fs.length = n ∧ X.coords ≠ none := by
  rw [DiffGa.parametric]
  by_cases h : fs.length = n
  · cases hc : X.coords <;> simp [h]
  · simp [h]

/-- C67: after `parametric(fs)` with different coordinates, coordinate `i` is the function `fs[i]` of
the parameters, and nothing else has changed. -/
theorem C67_parametric {X X' : DiffGa n K V} {fs : List K} (h : X.parametric fs = some X')
    {cs : Fin n → V} (hc : X.coords = some cs) (hi : Function.Injective cs) :
    (∃ d, X'.parCoords = some d ∧ ∀ i, d.get? (cs i) = fs[(i : ℕ)]?) ∧
      X'.g = X.g ∧ X'.conn = X.conn ∧ X'.coords = X.coords := by
  rw [DiffGa.parametric] at h
  split_ifs at h with hl
  rw [hc] at h
  obtain rfl := Option.some.inj h
  refine ⟨⟨_, rfl, fun i => ?_⟩, rfl, rfl, hc.symm ▸ rfl⟩
  rw [not_not] at hl
  have key : ∀ (ps : List (V × K)) (d : Dict V K), (ps.map Prod.fst).Nodup → ∀ x,
      (ps.foldl (fun d p => d.set p.1 p.2) d).get? x =
        match ps.find? (fun p => decide (p.1 = x)) with
        | some p => some p.2
        | none => d.get? x := by
    intro ps
    induction ps with
    | nil => intro d _ x; rfl
    | cons p ps ih =>
      intro d hn x
      rw [List.map_cons, List.nodup_cons] at hn
      rw [List.foldl_cons, ih _ hn.2, List.find?_cons]
      by_cases hp : p.1 = x
      · have : ps.find? (fun p => decide (p.1 = x)) = none := by
          rw [List.find?_eq_none]
          intro q hq e
          exact hn.1 (by rw [hp, ← of_decide_eq_true e]; exact List.mem_map_of_mem hq)
        rw [this]
        simp [hp, Dict.get?_set]
      · simp [hp, Dict.get?_set]
  have hz : ((List.ofFn cs).zip fs).map Prod.fst = List.ofFn cs :=
    List.map_fst_zip (by simp [hl])
  rw [key _ _ (by rw [hz]; exact List.nodup_ofFn.mpr hi)]
  have hlt : (i : ℕ) < fs.length := by omega
  have hf : ((List.ofFn cs).zip fs).find? (fun p => decide (p.1 = cs i)) = some (cs i, fs[(i : ℕ)]) := by
    have hm : (cs i, fs[(i : ℕ)]) ∈ (List.ofFn cs).zip fs := by
      rw [List.mem_iff_getElem]
      exact ⟨i, by simp [hl], by simp⟩
    cases e : ((List.ofFn cs).zip fs).find? (fun p => decide (p.1 = cs i)) with
    | none =>
      rw [List.find?_eq_none] at e
      exact absurd (e _ hm) (by simp)
    | some p =>
      have h1 := List.mem_of_find?_eq_some e
      have h2 : p.1 = cs i := by simpa using List.find?_some e
      have : p = (cs i, fs[(i : ℕ)]) :=
        List.inj_on_of_nodup_map (by rw [hz]; exact List.nodup_ofFn.mpr hi) h1 hm h2
      rw [this]
  rw [hf, List.getElem?_eq_getElem hlt]

/-- The plane with coordinates `x_0`, `x_1`; the symbol `x_2` is a parameter. -/
noncomputable def Ex.plane : DiffGa 2 (Ex.Fun 3) (Fin 3) :=
  ⟨1, none, some Fin.castSucc, none⟩

/-- The claim for parameters is false: the chain rule is not applied.  After
`parametric([x_2, 0])` the field `x_0 e_0` along the curve is `x_2 e_0`, with derivative `e_0` by the
parameter `x_2`, but `diff` gives zero. -/
theorem C67_parameter_counterexample :
    ∃ X', Ex.plane.parametric [Ex.coord 2, 0] = some X' ∧
      ∃ Z W, (Mv.vector ![Ex.coord 0, 0]).diff X' (fun i => Ex.partialD i) 2 = some Z ∧
        (Mv.vector ![Ex.coord 2, 0]).diff X' (fun i => Ex.partialD i) 2 = some W ∧
        Z.val Ex.plane.g = 0 ∧ W.val Ex.plane.g = Spec.e Ex.plane.g 0 := by
  have hd : ∀ (v : Fin 2 → Ex.Fun 3),
      (Mv.ofExpr (diffE (Ex.partialD (2 : Fin 3)) (Mv.vector v).obj)).val Ex.plane.g =
        Spec.vec Ex.plane.g fun i => Ex.partialD 2 (v i) := by
    intro v
    have hs : Ex.plane.g.IsSymm := Matrix.isSymm_one
    obtain ⟨B, h1, h2⟩ := pDiff_rep (g := Ex.plane.g) hs (conn := none) (Γ := 0) rfl
      (Ex.partialD (2 : Fin 3)) 0 (Rep.vector v)
    rw [Spec.deriv_vec] at h2
    have h3 := h2.val
    rw [Mv.pDiff] at h1
    rw [← Option.some.inj h1, ofExpr_val, den_expand] at h3
    rw [ofExpr_val, diffE, h3]
    congr 1
    funext i
    simp [Spec.dvec]
  have hdiff : ∀ A : Mv (Ex.Fun 3) 2, ∀ X', Ex.plane.parametric [Ex.coord 2, 0] = some X' →
      A.diff X' (fun i => Ex.partialD i) 2 = some (Mv.ofExpr (diffE (Ex.partialD 2) A.obj)) := by
    intro A X' h
    have e := Option.some.inj (h.symm.trans (show Ex.plane.parametric [Ex.coord 2, 0] = some _ from rfl))
    rw [e]
    rfl
  refine ⟨_, rfl, _, _, hdiff _ _ rfl, hdiff _ _ rfl, ?_, ?_⟩
  · rw [hd]
    have : (fun i => Ex.partialD (2 : Fin 3) ((![Ex.coord 0, 0] : Fin 2 → Ex.Fun 3) i)) = 0 := by
      funext i
      fin_cases i <;> simp [Ex.partialD_coord]
    rw [this, Spec.vec, map_zero]
  · rw [hd, Spec.e]
    congr 1
    funext i
    fin_cases i <;> simp [Ex.partialD_coord]

/-- A case of the hypotheses. -/
example : Ex.plane.coords = some Fin.castSucc ∧ Ex.plane.conn = none ∧
    Function.Injective (Fin.castSucc : Fin 2 → Fin 3) ∧
    Ex.plane.parCoords = none ∧ (∀ i : Fin 2, i.castSucc ≠ (2 : Fin 3)) ∧
    ∃ X', Ex.plane.parametric [Ex.coord 2, 1] = some X' :=
  ⟨rfl, rfl, Fin.castSucc_injective 2, rfl, by decide, _, rfl⟩

end GA
