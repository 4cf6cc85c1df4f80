import Verif.Props.C36
import Verif.Proofs.SymMatrix

/-!
# C72: symbolic matrices and transformations made from a name
-/

set_option linter.unusedSectionVars false
set_option maxRecDepth 10000

namespace GA
variable {n : ℕ}

section ring
variable {R : Type*} [CommRing R] [DecidableEq R]

theorem generalEntry_inj {kernel c1 c2 d1 d2 : List Char} (h1 : '}' ∉ c1) (h2 : '}' ∉ c2)
    (h : generalEntry kernel c1 d1 = generalEntry kernel c2 d2) : c1 = c2 ∧ d1 = d2 := by
  simp only [generalEntry, List.cons.injEq, true_and, List.append_cancel_left_eq] at h
  induction c1 generalizing c2 with
  | nil =>
    cases c2 with
    | nil => simpa using h
    | cons y c2 =>
      simp only [List.nil_append, List.cons_append, List.cons.injEq] at h
      exact absurd (h.1 ▸ List.mem_cons_self) h2
  | cons x c1 ih =>
    cases c2 with
    | nil =>
      simp only [List.nil_append, List.cons_append, List.cons.injEq] at h
      exact absurd (by simp [h.1]) h1
    | cons y c2 =>
      simp only [List.cons_append, List.cons.injEq] at h
      obtain ⟨h3, h4⟩ := ih (fun hh => h1 (by simp [hh])) (fun hh => h2 (by simp [hh])) h.2
      exact ⟨by rw [h.1, h3], h4⟩

/-- C72: the entries of a general symbolic matrix are symbols of different names, if the coordinates
have different names without a closing brace. -/
theorem C72_general (kernel : List Char) {coords : Fin n → List Char}
    (hc : Function.Injective coords) (hb : ∀ i, '}' ∉ coords i) :
    ∃ name : Fin n → Fin n → List Char, (∀ i j k l, name i j = name k l → i = k ∧ j = l) ∧
      ∀ val : List Char → R,
        symbolicMatrix kernel (some coords) val "g" = some (Matrix.of fun i j => val (name i j)) := by
  refine ⟨fun i j => generalEntry kernel (coords i) (coords j), fun i j k l h => ?_, fun val => rfl⟩
  obtain ⟨h1, h2⟩ := generalEntry_inj (hb i) (hb k) h
  exact ⟨hc h1, hc h2⟩

/-- C72: a symmetric symbolic matrix has symbols of different names on and above the diagonal and
repeats them below. -/
theorem C72_symmetric (kernel : List Char) (coords : Fin n → List Char) :
    ∃ name : Fin n → Fin n → List Char,
      (∀ i j k l, i ≤ j → k ≤ l → name i j = name k l → i = k ∧ j = l) ∧
      ∀ val : List Char → R, symbolicMatrix kernel (some coords) val "s" =
        some (Matrix.of fun i j => if i ≤ j then val (name i j) else val (name j i)) := by
  refine ⟨fun i j => paramName kernel ((upperPairs n 0).idxOf (i.val, j.val)),
    fun i j k l h1 h2 h => ?_, fun val => ?_⟩
  · obtain ⟨e1, e2⟩ := upperName_inj kernel (by simpa using h1) j.isLt (by simpa using h2) l.isLt h
    exact ⟨Fin.ext e1, Fin.ext e2⟩
  · obtain ⟨T, h1, h2, -⟩ := fill_upper kernel val (fun x => x) n 0 _ (upperPairs_length_zero n)
      (fun _ _ => rfl)
    have : symbolicMatrix kernel (some coords) val "s" = symmetricMatrix n kernel val := by
      simp [symbolicMatrix]
    rw [this, symmetricMatrix, h1, Option.map_some]
    congr 1
    ext i j
    simp only [Matrix.of_apply]
    split_ifs with h
    · exact (h2 i j (by simpa using h) j.isLt).1
    · exact (h2 j i (by simpa using le_of_not_ge h) i.isLt).2

/-- C72: an antisymmetric symbolic matrix has symbols of different names above the diagonal, zeros on
it, and the negatives of the symbols below. -/
theorem C72_antisymmetric (kernel : List Char) (coords : Fin n → List Char) :
    ∃ name : Fin n → Fin n → List Char,
      (∀ i j k l, i < j → k < l → name i j = name k l → i = k ∧ j = l) ∧
      ∀ val : List Char → R, symbolicMatrix kernel (some coords) val "a" =
        some (Matrix.of fun i j =>
          if i < j then val (name i j) else if j < i then -val (name j i) else 0) := by
  refine ⟨fun i j => paramName kernel ((upperPairs n 1).idxOf (i.val, j.val)),
    fun i j k l h1 h2 h => ?_, fun val => ?_⟩
  · obtain ⟨e1, e2⟩ := upperName_inj kernel (show i.val + 1 ≤ j.val from h1) j.isLt
      (show k.val + 1 ≤ l.val from h2) l.isLt h
    exact ⟨Fin.ext e1, Fin.ext e2⟩
  · obtain ⟨T, h1, h2, h3⟩ := fill_upper kernel val (fun x => -x) n 1 _ (upperPairs_length_one n)
      (fun h => absurd h one_ne_zero)
    have : symbolicMatrix kernel (some coords) val "a" = antisymmetricMatrix n kernel val := by
      simp [symbolicMatrix]
    rw [this, antisymmetricMatrix, h1, Option.map_some]
    congr 1
    ext i j
    simp only [Matrix.of_apply]
    split_ifs with h h'
    · exact (h2 i j h j.isLt).1
    · exact (h2 j i h' i.isLt).2
    · exact h3 i j h h'

/-- C72: without coordinates or with another mode, `Symbolic_Matrix` raises. -/
theorem C72_errors (kernel : List Char) (coords : Option (Fin n → List Char)) (val : List Char → R)
    (mode : String) :
    symbolicMatrix kernel coords val mode = none ↔ coords = none ∨ mode ∉ ["g", "s", "a"] := by
  cases coords with
  | none => simp [symbolicMatrix]
  | some c =>
    by_cases h : mode ∈ ["g", "s", "a"]
    · have hh : mode = "g" ∨ mode = "s" ∨ mode = "a" := by simpa using h
      simp only [h, not_true_eq_false, or_false, reduceCtorEq, iff_false]
      rcases hh with rfl | rfl | rfl
      · simp [symbolicMatrix]
      · obtain ⟨name, -, h⟩ := C72_symmetric (R := R) kernel c
        rw [h]; simp
      · obtain ⟨name, -, h⟩ := C72_antisymmetric (R := R) kernel c
        rw [h]; simp
    · simp [symbolicMatrix, h]

/-- C72: every matrix is a value of the general symbolic matrix. -/
theorem C72_general_all (kernel : List Char) {coords : Fin n → List Char}
    (hc : Function.Injective coords) (hb : ∀ i, '}' ∉ coords i) (M : Matrix (Fin n) (Fin n) R) :
    ∃ val, symbolicMatrix kernel (some coords) val "g" = some M := by
  obtain ⟨name, h1, h2⟩ := C72_general (R := R) kernel hc hb
  have hinj : Function.Injective fun p : Fin n × Fin n => name p.1 p.2 := fun p q h =>
    Prod.ext (h1 _ _ _ _ h).1 (h1 _ _ _ _ h).2
  refine ⟨Function.extend (fun p : Fin n × Fin n => name p.1 p.2) (fun p => M p.1 p.2) 0, ?_⟩
  rw [h2]
  congr 1
  ext i j
  exact hinj.extend_apply (fun p => M p.1 p.2) 0 (i, j)

/-- C72: the values of the symmetric symbolic matrix are exactly the symmetric matrices. -/
theorem C72_symmetric_all (kernel : List Char) (coords : Fin n → List Char)
    (M : Matrix (Fin n) (Fin n) R) :
    (∃ val, symbolicMatrix kernel (some coords) val "s" = some M) ↔ M.transpose = M := by
  obtain ⟨name, h1, h2⟩ := C72_symmetric (R := R) kernel coords
  constructor
  · rintro ⟨val, h⟩
    rw [h2] at h
    cases h
    ext i j
    simp only [Matrix.transpose_apply, Matrix.of_apply]
    rcases lt_trichotomy i j with h | rfl | h
    · rw [if_neg (not_le.mpr h), if_pos h.le]
    · rfl
    · rw [if_pos h.le, if_neg (not_le.mpr h)]
  · intro hM
    have hinj : Function.Injective fun p : {p : Fin n × Fin n // p.1 ≤ p.2} =>
        name p.1.1 p.1.2 := fun p q h =>
      Subtype.ext (Prod.ext (h1 _ _ _ _ p.2 q.2 h).1 (h1 _ _ _ _ p.2 q.2 h).2)
    refine ⟨Function.extend (fun p : {p : Fin n × Fin n // p.1 ≤ p.2} => name p.1.1 p.1.2)
      (fun p => M p.1.1 p.1.2) 0, ?_⟩
    rw [h2]
    congr 1
    ext i j
    simp only [Matrix.of_apply]
    split_ifs with h
    · exact hinj.extend_apply (fun p => M p.1.1 p.1.2) 0 ⟨(i, j), h⟩
    · have := hinj.extend_apply (fun p => M p.1.1 p.1.2) 0 ⟨(j, i), le_of_not_ge h⟩
      refine this.trans ?_
      exact congrFun (congrFun hM i) j

/-- C72: the values of the antisymmetric symbolic matrix are exactly the antisymmetric matrices. -/
theorem C72_antisymmetric_all [Invertible (2 : R)] (kernel : List Char) (coords : Fin n → List Char)
    (M : Matrix (Fin n) (Fin n) R) :
    (∃ val, symbolicMatrix kernel (some coords) val "a" = some M) ↔ M.transpose = -M := by
  obtain ⟨name, h1, h2⟩ := C72_antisymmetric (R := R) kernel coords
  constructor
  · rintro ⟨val, h⟩
    rw [h2] at h
    cases h
    ext i j
    simp only [Matrix.transpose_apply, Matrix.of_apply, Matrix.neg_apply]
    rcases lt_trichotomy i j with h | rfl | h
    · rw [if_neg h.not_gt, if_pos h, if_pos h]
    · simp
    · rw [if_pos h, if_neg h.not_gt, if_pos h, neg_neg]
  · intro hM
    have hinj : Function.Injective fun p : {p : Fin n × Fin n // p.1 < p.2} =>
        name p.1.1 p.1.2 := fun p q h =>
      Subtype.ext (Prod.ext (h1 _ _ _ _ p.2 q.2 h).1 (h1 _ _ _ _ p.2 q.2 h).2)
    refine ⟨Function.extend (fun p : {p : Fin n × Fin n // p.1 < p.2} => name p.1.1 p.1.2)
      (fun p => M p.1.1 p.1.2) 0, ?_⟩
    rw [h2]
    congr 1
    have hT : ∀ i j, M j i = -M i j := fun i j => congrFun (congrFun hM i) j
    ext i j
    simp only [Matrix.of_apply]
    split_ifs with h h'
    · exact hinj.extend_apply (fun p => M p.1.1 p.1.2) 0 ⟨(i, j), h⟩
    · have := hinj.extend_apply (fun p => M p.1.1 p.1.2) 0 ⟨(j, i), h'⟩
      rw [hT j i]
      exact congrArg Neg.neg this
    · obtain rfl : i = j := le_antisymm (not_lt.mp h') (not_lt.mp h)
      have h3 : (2 : R) * M i i = 0 := by
        have := hT i i
        calc (2 : R) * M i i = M i i + M i i := two_mul _
          _ = 0 := by nth_rewrite 1 [this]; exact neg_add_cancel _
      calc (0 : R) = ⅟(2 : R) * (2 * M i i) := by rw [h3, mul_zero]
        _ = M i i := by rw [← mul_assoc, invOf_mul_self, one_mul]

/-- C72: two coordinates of different names may give two entries of the same name, if the names have
braces. -/
theorem C72_brace_counterexample :
    ∃ coords : Fin 4 → List Char, Function.Injective coords ∧
      ∀ val : List Char → ℚ, ∀ M, symbolicMatrix "k".toList (some coords) val "g" = some M →
        M 0 1 = M 2 3 := by
  refine ⟨![['x'], "y}_z".toList, "x}_y".toList, ['z']], by decide, fun val M h => ?_⟩
  have h' : generalMatrix "k".toList ![['x'], "y}_z".toList, "x}_y".toList, ['z']] val = M :=
    Option.some_inj.mp h
  rw [← h']
  rfl

end ring

section field
variable {K : Type*} [Field K] [DecidableEq K] [Invertible (2 : K)]
  {g : Matrix (Fin n) (Fin n) K}

theorem dot_vec_eq_iff (hs : g.IsSymm) {L N : Lt K n} (hL : L.WF) (hN : N.WF) (a b : Fin n → K) :
    (((Mv.vector a).dot g (L.call g (Mv.vector b))).eq g
      ((N.call g (Mv.vector a)).dot g (Mv.vector b)) = true) ↔
      a ⬝ᵥ (g * L.mat).mulVec b = a ⬝ᵥ (N.mat.transpose * g).mulVec b := by
  rw [Rep.eq_iff hs (Rep.dot hs (Rep.vector _) (Rep.call hs hL (Rep.vector _)))
      (Rep.dot hs (Rep.call hs hN (Rep.vector _)) (Rep.vector _)), Spec.outer_vec, Spec.outer_vec,
      Spec.hestenesDot_vec_ip, Spec.hestenesDot_vec_ip, Spec.ip_mulVec hs, Spec.ip_mulVec hs,
      mulVec_dot, Matrix.mulVec_mulVec, Matrix.mulVec_mulVec]
  exact ⟨fun h => algebraMap_inj g h, fun h => by rw [h]⟩

theorem dot_vec_eq_neg_iff (hs : g.IsSymm) {L N : Lt K n} (hL : L.WF) (hN : N.WF)
    (a b : Fin n → K) :
    (((Mv.vector a).dot g (L.call g (Mv.vector b))).eq g
      ((N.call g (Mv.vector a)).dot g (Mv.vector b)).neg = true) ↔
      a ⬝ᵥ (g * L.mat).mulVec b = -(a ⬝ᵥ (N.mat.transpose * g).mulVec b) := by
  rw [Rep.eq_iff hs (Rep.dot hs (Rep.vector _) (Rep.call hs hL (Rep.vector _)))
      (Rep.dot hs (Rep.call hs hN (Rep.vector _)) (Rep.vector _)).neg, Spec.outer_vec,
      Spec.outer_vec, Spec.hestenesDot_vec_ip, Spec.hestenesDot_vec_ip, Spec.ip_mulVec hs,
      Spec.ip_mulVec hs, mulVec_dot, Matrix.mulVec_mulVec, Matrix.mulVec_mulVec, ← map_neg]
  exact ⟨fun h => algebraMap_inj g h, fun h => by rw [h]⟩

theorem matrix_of_forms {A B : Matrix (Fin n) (Fin n) K}
    (h : ∀ a b : Fin n → K, a ⬝ᵥ A.mulVec b = a ⬝ᵥ B.mulVec b) : A = B := by
  ext i j
  simpa using h (Pi.single i 1) (Pi.single j 1)

/-- C72: every transformation is a value of `Lt(name)`. -/
theorem C72_lt_general (kernel : List Char) {coords : Fin n → List Char}
    (hc : Function.Injective coords) (hb : ∀ i, '}' ∉ coords i) {L : Lt K n} (hL : L.WF) :
    ∃ val L', Lt.ofString g kernel (some coords) val "g" = some L' ∧ L'.WF ∧
      L'.matrix = L.matrix := by
  obtain ⟨val, h⟩ := C72_general_all kernel hc hb L.mat
  have hM := Lt.ofMatrix_spec L.mat
  exact ⟨val, _, by rw [Lt.ofString, h, Option.bind_some, if_pos rfl], hM.1,
    by rw [hM.1.matrix, hL.matrix, hM.2]⟩

theorem ofString_mode (kernel : List Char) {coords : Fin n → List Char} {val : List Char → K}
    {mode : String} (hm : mode ∈ ["s", "a"]) {gi S : Matrix (Fin n) (Fin n) K}
    (hgi : gInv g = some gi) (h : symbolicMatrix kernel (some coords) val mode = some S) :
    Lt.ofString g kernel (some coords) val mode = some (Lt.ofMatrix (gi * S)) := by
  have hg : mode ≠ "g" := by rintro rfl; simp at hm
  rw [Lt.ofString, h, Option.bind_some, if_neg hg, if_pos hm, hgi, Option.map_some]

/-- C72: the values of `Lt(name, mode='s')` are exactly the self-adjoint transformations,
`a | L(b) = L(a) | b`. -/
theorem C72_lt_symmetric (hs : g.IsSymm) (hd : g.det ≠ 0) (kernel : List Char)
    (coords : Fin n → List Char) {L : Lt K n} (hL : L.WF) :
    (∃ val L', Lt.ofString g kernel (some coords) val "s" = some L' ∧ L'.matrix = L.matrix) ↔
      ∀ a b : Fin n → K, ((Mv.vector a).dot g (L.call g (Mv.vector b))).eq g
        ((L.call g (Mv.vector a)).dot g (Mv.vector b)) = true := by
  obtain ⟨gi, hgi, h1, h2⟩ := gInv_exists hs hd
  simp only [dot_vec_eq_iff hs hL hL]
  have key : (∀ a b : Fin n → K, a ⬝ᵥ (g * L.mat).mulVec b =
      a ⬝ᵥ (L.mat.transpose * g).mulVec b) ↔ (g * L.mat).transpose = g * L.mat := by
    rw [Matrix.transpose_mul, hs.eq]
    exact ⟨fun h => (matrix_of_forms h).symm, fun h a b => by rw [h]⟩
  rw [key, ← C72_symmetric_all kernel coords]
  constructor
  · rintro ⟨val, L', h3, h4⟩
    obtain ⟨name, -, h5⟩ := C72_symmetric (R := K) kernel coords
    have h6 := ofString_mode (mode := "s") kernel (by simp) hgi (h5 val)
    rw [h3] at h6
    cases h6
    have hM := Lt.ofMatrix_spec (gi * Matrix.of fun i j =>
      if i ≤ j then val (name i j) else val (name j i))
    rw [hM.1.matrix, hL.matrix, hM.2] at h4
    refine ⟨val, ?_⟩
    rw [h5, ← Option.some_inj.mp h4, ← mul_assoc, h2, one_mul]
  · rintro ⟨val, h3⟩
    refine ⟨val, _, ofString_mode (mode := "s") kernel (by simp) hgi h3, ?_⟩
    have hM := Lt.ofMatrix_spec (gi * (g * L.mat))
    rw [hM.1.matrix, hL.matrix, hM.2, ← mul_assoc, h1, one_mul]

/-- C72: the values of `Lt(name, mode='a')` are exactly the skew-adjoint transformations,
`a | L(b) = -(L(a) | b)`. -/
theorem C72_lt_antisymmetric (hs : g.IsSymm) (hd : g.det ≠ 0) (kernel : List Char)
    (coords : Fin n → List Char) {L : Lt K n} (hL : L.WF) :
    (∃ val L', Lt.ofString g kernel (some coords) val "a" = some L' ∧ L'.matrix = L.matrix) ↔
      ∀ a b : Fin n → K, ((Mv.vector a).dot g (L.call g (Mv.vector b))).eq g
        ((L.call g (Mv.vector a)).dot g (Mv.vector b)).neg = true := by
  obtain ⟨gi, hgi, h1, h2⟩ := gInv_exists hs hd
  simp only [dot_vec_eq_neg_iff hs hL hL]
  have key : (∀ a b : Fin n → K, a ⬝ᵥ (g * L.mat).mulVec b =
      -(a ⬝ᵥ (L.mat.transpose * g).mulVec b)) ↔ (g * L.mat).transpose = -(g * L.mat) := by
    rw [Matrix.transpose_mul, hs.eq]
    constructor
    · intro h
      have := matrix_of_forms (A := g * L.mat) (B := -(L.mat.transpose * g)) fun a b => by
        rw [h, Matrix.neg_mulVec, dotProduct_neg]
      rw [this, neg_neg]
    · intro h a b
      rw [h, Matrix.neg_mulVec, dotProduct_neg, neg_neg]
  rw [key, ← C72_antisymmetric_all kernel coords]
  constructor
  · rintro ⟨val, L', h3, h4⟩
    obtain ⟨name, -, h5⟩ := C72_antisymmetric (R := K) kernel coords
    have h6 := ofString_mode (mode := "a") kernel (by simp) hgi (h5 val)
    rw [h3] at h6
    cases h6
    have hM := Lt.ofMatrix_spec (gi * Matrix.of fun i j =>
      if i < j then val (name i j) else if j < i then -val (name j i) else 0)
    rw [hM.1.matrix, hL.matrix, hM.2] at h4
    refine ⟨val, ?_⟩
    rw [h5, ← Option.some_inj.mp h4, ← mul_assoc, h2, one_mul]
  · rintro ⟨val, h3⟩
    refine ⟨val, _, ofString_mode (mode := "a") kernel (by simp) hgi h3, ?_⟩
    have hM := Lt.ofMatrix_spec (gi * (g * L.mat))
    rw [hM.1.matrix, hL.matrix, hM.2, ← mul_assoc, h1, one_mul]

/-- C72: in a Euclidean algebra the deprecated property `mode` of `Lt(name, mode='s')` is `'s'`. -/
theorem C72_mode_partial (kernel : List Char) (coords : Fin n → List Char) (val : List Char → K)
    {L : Lt K n} (h : Lt.ofString 1 kernel (some coords) val "s" = some L) :
    L.modeOf = some "s" := by
  obtain ⟨gi, hgi, h1, -⟩ := gInv_exists (g := (1 : Matrix (Fin n) (Fin n) K))
    Matrix.transpose_one (by rw [Matrix.det_one]; exact one_ne_zero)
  obtain ⟨name, -, h5⟩ := C72_symmetric (R := K) kernel coords
  have hsym := (C72_symmetric_all kernel coords _).mp ⟨val, h5 val⟩
  have h6 := ofString_mode (mode := "s") kernel (by simp) hgi (h5 val)
  rw [h] at h6
  cases h6
  have hM := Lt.ofMatrix_spec (gi * Matrix.of fun i j =>
      if i ≤ j then val (name i j) else val (name j i))
  rw [mul_one] at h1
  rw [Lt.modeOf, hM.1.matrix, Option.map_some, hM.2, h1, one_mul, if_pos hsym.symm]

/-- C72: in a Euclidean algebra the deprecated property `mode` of `Lt(name, mode='a')` is `'a'`, except that of the zero
transformation, which is also symmetric. -/
theorem C72_mode_antisymmetric_partial (kernel : List Char) (coords : Fin n → List Char) (val : List Char → K)
    {L : Lt K n} (h : Lt.ofString 1 kernel (some coords) val "a" = some L) :
    (L.matrix ≠ some 0 → L.modeOf = some "a") ∧ (L.matrix = some 0 → L.modeOf = some "s") := by
  obtain ⟨gi, hgi, h1, -⟩ := gInv_exists (g := (1 : Matrix (Fin n) (Fin n) K))
    Matrix.transpose_one (by rw [Matrix.det_one]; exact one_ne_zero)
  obtain ⟨name, -, h5⟩ := C72_antisymmetric (R := K) kernel coords
  have hsym := (C72_antisymmetric_all kernel coords _).mp ⟨val, h5 val⟩
  have h6 := ofString_mode (mode := "a") kernel (by simp) hgi (h5 val)
  rw [h] at h6
  cases h6
  have hM := Lt.ofMatrix_spec (gi * Matrix.of fun i j =>
      if i < j then val (name i j) else if j < i then -val (name j i) else 0)
  rw [mul_one] at h1
  subst h1
  rw [one_mul] at *
  generalize (Matrix.of fun i j =>
      if i < j then val (name i j) else if j < i then -val (name j i) else 0 : Matrix (Fin n) (Fin n) K) = M at *
  rw [Lt.modeOf, hM.1.matrix, Option.map_some, hM.2]
  refine ⟨fun h0 => ?_, fun h0 => ?_⟩
  · rw [if_neg, if_pos (by rw [hsym, neg_neg])]
    intro e
    refine h0 (congrArg some ?_)
    have h2 : (2 : K) • M = 0 := by
      rw [two_smul]
      nth_rewrite 1 [e]
      rw [hsym, neg_add_cancel]
    exact (smul_eq_zero.mp h2).resolve_left (isUnit_of_invertible (2 : K)).ne_zero
  · rw [Option.some_inj.mp h0, Matrix.transpose_zero, if_pos rfl]

end field

/-- `mode='a'` with the values 1, 2, 3 of the symbols. -/
example : (Lt.ofString (1 : Matrix (Fin 3) (Fin 3) ℚ) ['k'] (some ![['x'], ['y'], ['z']])
    (fun s => (Nat.ofDigitChars 10 (s.drop 2) 0 : ℚ)) "a").bind Lt.modeOf = some "a" := by decide +kernel

/-- C72: in other algebras the property `mode` of `Lt(name, mode='s')` need not be `'s'`. -/
theorem C72_mode_counterexample :
    ∃ (val : List Char → ℚ) (L : Lt ℚ 3),
      Lt.ofString Ex.gN ['k'] (some ![['x'], ['y'], ['z']]) val "s" = some L ∧
        L.modeOf = some "g" := by
  have h1 : (Lt.ofString Ex.gN ['k'] (some ![['x'], ['y'], ['z']])
      (fun s => (s.length : ℚ)) "s").isSome = true := by decide +kernel
  refine ⟨fun s => (s.length : ℚ), _, (Option.some_get h1).symm, ?_⟩
  decide +kernel +revert

example : (symbolicMatrix (n := 3) ['k'] (some ![['x'], ['y'], ['z']])
    (fun s => (Nat.ofDigitChars 10 (s.drop 2) 0 : ℚ)) "s") =
      some !![1, 2, 3; 2, 4, 5; 3, 5, 6] := by decide +kernel

example : (symbolicMatrix (n := 3) ['k'] (some ![['x'], ['y'], ['z']])
    (fun s => (Nat.ofDigitChars 10 (s.drop 2) 0 : ℚ)) "a") =
      some !![0, 1, 2; -1, 0, 3; -2, -3, 0] := by decide +kernel

example : Function.Injective (![['x'], ['y'], ['z']] : Fin 3 → List Char) ∧
    ∀ i, '}' ∉ (![['x'], ['y'], ['z']] : Fin 3 → List Char) i := by decide

end GA
