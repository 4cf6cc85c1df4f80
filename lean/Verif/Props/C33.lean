import Verif.Proofs.Lt
import Verif.Proofs.Examples

/-!
# C33, C34, C35: linear transformations

`L.call g A` is `L(A)`, `L.add L'` is `L + L'`, `L.mul L'` is `L * L'`.
-/

set_option linter.unusedSectionVars false
set_option maxRecDepth 10000

namespace GA
variable {n : ℕ} {R : Type*} [CommRing R] [DecidableEq R] [Invertible (2 : R)]
  {g : Matrix (Fin n) (Fin n) R}

/-- C33: `L(A + B) = L(A) + L(B)` and `L(c*A) = c*L(A)`. -/
theorem C33_linear (hs : g.IsSymm) {L : Lt R n} (hL : L.WF) {A B : Mv R n} (hA : A.WF g)
    (hB : B.WF g) (ha : A.isBladeRep = true) (hb : B.isBladeRep = true) (c : R) :
    (L.call g (A.add g B)).eq g ((L.call g A).add g (L.call g B)) = true ∧
    (L.call g (A.smul c)).eq g ((L.call g A).smul c) = true := by
  have a := Rep.of_wf hA ha
  have b := Rep.of_wf hB hb
  constructor
  · rw [Rep.eq_iff hs (Rep.call hs hL (Rep.add hs a b)) (Rep.add hs (Rep.call hs hL a) (Rep.call hs hL b))]
    exact map_add _ _ _
  · rw [Rep.eq_iff hs (Rep.call hs hL (a.smul c)) ((Rep.call hs hL a).smul c)]
    exact map_smul _ _ _

/-- C33: `L(A ^ B) = L(A) ^ L(B)`. -/
theorem C33_wedge (hs : g.IsSymm) {L : Lt R n} (hL : L.WF) {A B : Mv R n} (hA : A.WF g)
    (hB : B.WF g) (ha : A.isBladeRep = true) (hb : B.isBladeRep = true) :
    (L.call g (A.wedge g B)).eq g ((L.call g A).wedge g (L.call g B)) = true := by
  have a := Rep.of_wf hA ha
  have b := Rep.of_wf hB hb
  rw [Rep.eq_iff hs (Rep.call hs hL (Rep.wedge hs a b))
    (Rep.wedge hs (Rep.call hs hL a) (Rep.call hs hL b))]
  exact Spec.outer_wedge _ _ _

/-- C33: `L(c) = c` for scalars, in particular `L(1) = 1`. -/
theorem C33_scalar (hs : g.IsSymm) {L : Lt R n} (hL : L.WF) (c : R) :
    (L.call g (Mv.scalarMv c)).eq g (Mv.scalarMv c) = true := by
  rw [Rep.eq_iff hs (Rep.call hs hL (Rep.scalarMv c)) (Rep.scalarMv c)]
  exact Spec.outer_algebraMap _ _

/-- C33: on vectors `L` acts by its matrix. -/
theorem C33_vector (hs : g.IsSymm) {L : Lt R n} (hL : L.WF) {M : Matrix (Fin n) (Fin n) R}
    (hM : L.matrix = some M) (v : Fin n → R) :
    (L.call g (Mv.vector v)).eq g (Mv.vector (M.mulVec v)) = true := by
  rw [hL.matrix] at hM
  cases hM
  rw [Rep.eq_iff hs (Rep.call hs hL (Rep.vector v)) (Rep.vector _)]
  exact Spec.outer_vec _ _

/-- C33: `L` preserves grades. -/
theorem C33_grades (hs : g.IsSymm) {L : Lt R n} (hL : L.WF) {A : Mv R n} (hA : A.WF g)
    (ha : A.isBladeRep = true) (r : ℕ) :
    (L.call g (A.getGrade r)).eq g ((L.call g A).getGrade r) = true := by
  have a := Rep.of_wf hA ha
  rw [Rep.eq_iff hs (Rep.call hs hL (a.getGrade r)) ((Rep.call hs hL a).getGrade r)]
  exact Spec.homogeneous_outer _ _ _

/-- A transformation that exchanges two basis vectors and mixes in the third. -/
def Ex.L : Lt ℚ 3 := Lt.ofMatrix !![0, 1, 2; 1, 0, 0; 0, 0, 3]

theorem Ex.L_wf : Ex.L.WF := (Lt.ofMatrix_spec _).1

example : Ex.L.WF ∧ Ex.A.WF Ex.gN ∧ (Ex.L.call Ex.gN Ex.A).eq Ex.gN Ex.A = false :=
  ⟨Ex.L_wf, Ex.A_wf _, by decide +kernel⟩

/-- C33 fails for multivectors in base representation (non-orthogonal metrics): the bases are not
keys of the substitution and stay as they are, so `L(A)` depends on the representation of `A`. -/
theorem C33_base_rep_counterexample :
    ∃ (g : Matrix (Fin 3) (Fin 3) ℚ) (L : Lt ℚ 3) (A : Mv ℚ 3), g.IsSymm ∧ L.WF ∧ A.WF g ∧
      A.isBladeRep = true ∧ (A.baseRep g).eq g A = true ∧
      (L.call g (A.baseRep g)).eq g (L.call g A) = false :=
  ⟨Ex.gN, Ex.L, Mv.ofExpr (bladeE [0, 1]), Ex.gN_symm, Ex.L_wf,
    (Rep.ofExpr (valid_bladeE (by decide))).wf, by decide +kernel, by decide +kernel,
    by decide +kernel⟩

/-- C34: `(L * L')(A) = L(L'(A))`. -/
theorem C34_composition (hs : g.IsSymm) {L L' : Lt R n} (hL : L.WF) (hL' : L'.WF) {A : Mv R n}
    (hA : A.WF g) (ha : A.isBladeRep = true) :
    ((L.mul L').call g A).eq g (L.call g (L'.call g A)) = true := by
  have a := Rep.of_wf hA ha
  rw [Rep.eq_iff hs (Rep.call hs (hL.mul hL').1 a) (Rep.call hs hL (Rep.call hs hL' a)),
    (hL.mul hL').2]
  exact Spec.outer_mul _ _ _

/-- C34: `(L + L')(v) = L(v) + L'(v)` and `(L - L')(v) = L(v) - L'(v)` for vectors, and
`(c*L)(v) = c*L(v)`. -/
theorem C34_pointwise (hs : g.IsSymm) {L L' : Lt R n} (hL : L.WF) (hL' : L'.WF) (v : Fin n → R)
    (c : R) :
    ((L.add L').call g (Mv.vector v)).eq g
      ((L.call g (Mv.vector v)).add g (L'.call g (Mv.vector v))) = true ∧
    ((L.sub L').call g (Mv.vector v)).eq g
      ((L.call g (Mv.vector v)).sub g (L'.call g (Mv.vector v))) = true ∧
    ((L.smul c).call g (Mv.vector v)).eq g ((L.call g (Mv.vector v)).smul c) = true := by
  have w := Rep.vector (g := g) v
  have l := Rep.call hs hL w
  have l' := Rep.call hs hL' w
  rw [Rep.eq_iff hs (Rep.call hs (hL.add hL').1 w) (Rep.add hs l l'),
    Rep.eq_iff hs (Rep.call hs (hL.sub hL').1 w) (Rep.sub hs l l'),
    Rep.eq_iff hs (Rep.call hs (hL.smul c).1 w) (l.smul c), (hL.add hL').2, (hL.sub hL').2,
    (hL.smul c).2]
  simp only [Spec.outer_vec, Matrix.add_mulVec, Matrix.sub_mulVec, Matrix.smul_mulVec,
    Spec.vec_add, Spec.vec_smul]
  refine ⟨trivial, ?_, trivial⟩
  exact map_sub _ _ _

/-- C34: the operations of transformations are those of their matrices. -/
theorem C34_matrices {L L' : Lt R n} (hL : L.WF) (hL' : L'.WF) {M M' : Matrix (Fin n) (Fin n) R}
    (hM : L.matrix = some M) (hM' : L'.matrix = some M') (c : R) :
    (L.mul L').matrix = some (M * M') ∧ (L.add L').matrix = some (M + M') ∧
    (L.sub L').matrix = some (M - M') ∧ (L.smul c).matrix = some (c • M) := by
  rw [hL.matrix] at hM
  rw [hL'.matrix] at hM'
  cases hM; cases hM'
  rw [(hL.mul hL').1.matrix, (hL.add hL').1.matrix, (hL.sub hL').1.matrix, (hL.smul c).1.matrix,
    (hL.mul hL').2, (hL.add hL').2, (hL.sub hL').2, (hL.smul c).2]
  exact ⟨rfl, rfl, rfl, rfl⟩

/-- C34: the results are again well-formed, so the laws apply to them. -/
theorem C34_closed {L L' : Lt R n} (hL : L.WF) (hL' : L'.WF) (c : R) :
    (L.mul L').WF ∧ (L.add L').WF ∧ (L.sub L').WF ∧ (L.smul c).WF :=
  ⟨(hL.mul hL').1, (hL.add hL').1, (hL.sub hL').1, (hL.smul c).1⟩

example : (Ex.L.mul (Ex.L.add Ex.L)).matrix = some !![2, 0, 12; 0, 2, 4; 0, 0, 18] := by
  decide +kernel

/-! ### Presentations -/

/-- C35: `Lt(M).matrix()` is `M`, and `Lt(M)` is well-formed. -/
theorem C35_matrix (M : Matrix (Fin n) (Fin n) R) :
    (Lt.ofMatrix M).WF ∧ (Lt.ofMatrix M).matrix = some M := by
  have h := Lt.ofMatrix_spec M
  exact ⟨h.1, by rw [h.1.matrix, h.2]⟩

/-- C35: converting a transformation to a matrix and back gives the same transformation. -/
theorem C35_dictionary (hs : g.IsSymm) {L : Lt R n} (hL : L.WF) :
    ∃ M, L.matrix = some M ∧ ∀ A : Mv R n, A.WF g → A.isBladeRep = true →
      ((Lt.ofMatrix M).call g A).eq g (L.call g A) = true := by
  refine ⟨_, hL.matrix, fun A hA ha => ?_⟩
  have a := Rep.of_wf hA ha
  have h := Lt.ofMatrix_spec L.mat
  rw [Rep.eq_iff hs (Rep.call hs h.1 a) (Rep.call hs hL a), h.2]

theorem zip_basis {α : Type*} (f : Fin n → α) :
    (List.ofFn f).zip (basis n) = (List.finRange n).map fun i => (f i, Sym.blade [i]) := by
  rw [basis, List.ofFn_eq_map, List.zip_map']

/-- C35: a list of lists of coefficients has the images of the basis vectors as its rows: the
transformation has the transposed matrix. -/
theorem C35_lists (M : Matrix (Fin n) (Fin n) R) :
    (Lt.ofLists (n := n) (List.ofFn fun i => List.ofFn (M i))).WF ∧
    (Lt.ofLists (n := n) (List.ofFn fun i => List.ofFn (M i))).matrix = some M.transpose := by
  have h : (Lt.ofLists (n := n) (List.ofFn fun i => List.ofFn (M i))) = Lt.ofMatrix M.transpose := by
    rw [Lt.ofLists, zip_basis, List.map_map, Lt.ofMatrix]
    congr 1
    refine List.map_congr_left fun i _ => ?_
    simp only [Function.comp, zip_basis, List.map_map]
    rfl
  rw [h]
  exact C35_matrix _

theorem coef_find (E : Expr R n) (b : Sym n) :
    (match (linearExpand E).find? fun t => decide (t.2 = b) with
      | some t => t.1
      | none => 0) = lin (fun s => if s = b then (1 : R) else 0) E := by
  cases h : (linearExpand E).find? fun t => decide (t.2 = b) with
  | none =>
    rw [List.find?_eq_none] at h
    rw [← lin_linearExpand, lin_congr _ _ (fun _ => (0 : R))]
    · simp only
      induction linearExpand E with
      | nil => rfl
      | cons t E ih => simp [← ih]
    · intro t ht
      rw [if_neg (by simpa using h t ht)]
  | some t =>
    have h1 := List.mem_of_find?_eq_some h
    have h2 : t.2 = b := by simpa using List.find?_some h
    simp only
    rw [← lin_linearExpand, ← h2, coef_of_mem_nodup (linearExpand_nodup _) h1]

/-- C35: a list of vectors has the images of the basis vectors as its elements: they are the columns
of the matrix. -/
theorem C35_vectors (M : Matrix (Fin n) (Fin n) R) :
    (Lt.ofVectors (List.ofFn fun j => Mv.vector fun i => M i j)).WF ∧
    (Lt.ofVectors (List.ofFn fun j => Mv.vector fun i => M i j)).matrix = some M := by
  have h : Lt.ofVectors (List.ofFn fun j => Mv.vector fun i => M i j) = Lt.ofMatrix M := by
    rw [Lt.ofVectors, zip_basis, List.map_map, Lt.ofMatrix]
    congr 1
    refine List.map_congr_left fun j _ => ?_
    simp only [Function.comp, symOf, basis, List.map_map]
    congr 2
    refine List.map_congr_left fun i _ => ?_
    refine Prod.ext ((coef_find _ _).trans ?_) rfl
    rw [← coeff_eq_lin]
    have hv := Rep.vector (g := (0 : Matrix (Fin n) (Fin n) R)) (fun i => M i j)
    have hd := den_vecE' (g := (0 : Matrix (Fin n) (Fin n) R)) (fun i => M i j)
    exact coeff_of_den (g := (0 : Matrix (Fin n) (Fin n) R)) (isV_of_den hd.1 hd.2) hv.den i
  rw [h]
  exact C35_matrix _

theorem ofFunction_of_basis (hs : g.IsSymm) (F : Mv R n → Mv R n) (M : Matrix (Fin n) (Fin n) R)
    (key : ∀ i : Fin n, Rep g (F (Mv.ofExpr [(1, .blade [i])])) (Spec.vec g (M.col i))) :
    ∃ L, Lt.ofFunction g F true = some L ∧ L.WF ∧ L.mat = M := by
  have hgood : ∀ i : Fin n, GoodVal (F (Mv.ofExpr [(1, .blade [i])])).obj ∧
      ∀ j, coeff (F (Mv.ofExpr [(1, .blade [i])])).obj [j] = M j i := by
    intro i
    have hc : expand (F (Mv.ofExpr [(1, .blade [i])])).obj = (F (Mv.ofExpr [(1, .blade [i])])).obj := by
      rw [expand, gatherE_of_nodup (key i).wf.1, List.filter_eq_self]
      intro t ht
      simpa using Or.inl ((key i).wf.2.1 t ht)
    have := goodVal_expand (key i).valid (key i).den
    rwa [hc] at this
  have hmap : (List.finRange n).mapM (fun i =>
      let out := F (Mv.ofExpr [(1, .blade [i])])
      if (!out.isVector g && !out.isZero) = true then none
      else some ((Sym.blade [i] : Sym n), out.obj)) =
      some ((List.finRange n).map fun i => (Sym.blade [i], (F (Mv.ofExpr [(1, .blade [i])])).obj)) := by
    have : ∀ l : List (Fin n), l.mapM (fun i =>
      let out := F (Mv.ofExpr [(1, .blade [i])])
      if (!out.isVector g && !out.isZero) = true then none
      else some ((Sym.blade [i] : Sym n), out.obj)) =
      some (l.map fun i => (Sym.blade [i], (F (Mv.ofExpr [(1, .blade [i])])).obj)) := by
      intro l
      induction l with
      | nil => rfl
      | cons i l ih =>
        rw [List.mapM_cons, ih]
        have hn : ¬ (!(F (Mv.ofExpr [(1, .blade [i])])).isVector g &&
            !(F (Mv.ofExpr [(1, .blade [i])])).isZero) = true := by
          rw [Bool.and_eq_true, Bool.not_eq_true', Bool.not_eq_true']
          rintro ⟨h1, h2⟩
          have h3 : (F (Mv.ofExpr [(1, .blade [i])])).isVector g = true := by
            rw [isVector_iff hs (key i).wf, (key i).val]
            refine ⟨fun h0 => ?_, fun r hr => Spec.homogeneous_vec _ r hr⟩
            have : (F (Mv.ofExpr [(1, .blade [i])])).isZero = true := by
              rw [Mv.isZero, decide_eq_true_eq]
              have := val_eq_zero (key i).wf
              rw [(key i).val] at this
              exact this.mp h0
            rw [this] at h2; cases h2
          rw [h3] at h1; cases h1
        simp only [if_neg hn]
        rfl
    exact this _
  have hwf := ofItems_basis hgood
  exact ⟨_, by rw [Lt.ofFunction, if_pos rfl, hmap]; rfl, hwf.1, hwf.2⟩

/-- C35: `Lt(F)` for a Python function `F` that acts on vectors as a linear map (and so passes the
test of additivity) acts as `F` on every vector. -/
theorem C35_function (hs : g.IsSymm) (F : Mv R n → Mv R n) (M : Matrix (Fin n) (Fin n) R)
    (hF : ∀ v, (F (Mv.vector v)).WF g ∧ (F (Mv.vector v)).isBladeRep = true ∧
      (F (Mv.vector v)).eq g (Mv.vector (M.mulVec v)) = true)
    (hb : ∀ i : Fin n, F (Mv.ofExpr [(1, .blade [i])]) = F (Mv.vector (Pi.single i 1))) :
    ∃ L, Lt.ofFunction g F true = some L ∧ L.WF ∧ L.matrix = some M ∧
      ∀ v, (L.call g (Mv.vector v)).eq g (F (Mv.vector v)) = true := by
  have key : ∀ i : Fin n, Rep g (F (Mv.ofExpr [(1, .blade [i])])) (Spec.vec g (M.col i)) := by
    intro i
    obtain ⟨h1, h2, h3⟩ := hF (Pi.single i 1)
    rw [hb]
    have r := Rep.of_wf h1 h2
    rw [Rep.eq_iff hs r (Rep.vector _)] at h3
    refine r.congr ?_
    rw [h3]; congr 1; simp
  obtain ⟨L, h0, hwf, hm⟩ := ofFunction_of_basis hs F M key
  refine ⟨L, h0, hwf, by rw [hwf.matrix, hm], fun v => ?_⟩
  obtain ⟨h1, h2, h3⟩ := hF v
  have r := Rep.of_wf h1 h2
  rw [Rep.eq_iff hs r (Rep.vector _)] at h3
  rw [Rep.eq_iff hs (Rep.call hs hwf (Rep.vector v)) r, hm, h3, Spec.outer_vec]

/-- C35: functions that fail the additivity test, or whose value on a basis vector is not a vector,
are rejected. -/
theorem C35_function_raises (F : Mv R n → Mv R n) :
    Lt.ofFunction g F false = none ∧
    ∀ i : Fin n, (F (Mv.ofExpr [(1, .blade [i])])).isVector g = false →
      (F (Mv.ofExpr [(1, .blade [i])])).isZero = false → Lt.ofFunction g F true = none := by
  refine ⟨rfl, fun i h1 h2 => ?_⟩
  rw [Lt.ofFunction, if_pos rfl, Option.map_eq_none_iff]
  have : ∀ l : List (Fin n), i ∈ l → l.mapM (fun i =>
      let out := F (Mv.ofExpr [(1, .blade [i])])
      if (!out.isVector g && !out.isZero) = true then none
      else some ((Sym.blade [i] : Sym n), out.obj)) = none := by
    intro l
    induction l with
    | nil => intro h; simp at h
    | cons j l ih =>
      intro h
      rw [List.mapM_cons]
      rcases List.mem_cons.mp h with rfl | h
      · simp [h1, h2]
      · rw [ih h]
        simp only
        split <;> rfl
  exact this _ (List.mem_finRange i)

example : (Lt.ofFunction Ex.gN (fun x => ((Mv.ofExpr (bladeE [0])).mul Ex.gN x).mul Ex.gN
    (Mv.ofExpr (bladeE [0]))) true).isSome = true ∧
    Lt.ofFunction Ex.gN (fun x => (Mv.ofExpr (bladeE [0])).mul Ex.gN x) true = none := by
  decide +kernel

example : (Lt.ofLists [[0, 1, 2], [1, 0, 0], [0, 0, (3 : ℚ)]]).matrix (n := 3) =
    some !![0, 1, 0; 1, 0, 0; 2, 0, 3] := by decide +kernel

end GA
