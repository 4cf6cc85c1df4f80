import Verif.Model.Modes
import Verif.Proofs.Calc
import Verif.Proofs.Examples

/-!
# C109: products of expressions by name and mode

`A` and `B` are expressions in basis blades (`Valid`), and `den g A` is their value in the Clifford algebra.
-/

set_option linter.unusedSectionVars false
set_option maxRecDepth 10000

namespace GA
variable {n : ℕ} {R : Type*} [CommRing R] [DecidableEq R] [Invertible (2 : R)]
  {g : Matrix (Fin n) (Fin n) R}

/-- The product that an operator stands for. -/
def IsProduct (g : Matrix (Fin n) (Fin n) R) (c : Char) (x y z : Spec.Cl g) : Prop :=
  (c = '*' ∧ z = x * y) ∨ (c = '^' ∧ z = Spec.wedge g x y) ∨ (c = '|' ∧ z = Spec.hestenesDot g x y) ∨
    (c = '<' ∧ z = Spec.leftContraction g x y) ∨ (c = '>' ∧ z = Spec.rightContraction g x y)

theorem mulSym_of_valid {A : Expr R n} (h : Valid A) : AllSyms (MulSym g) A :=
  fun t ht => isBl_mulSym g (h t ht)

/-- C109: `Ga.Mul(A, B, mode)` is the product with that operator, and raises an exception for every other string. -/
theorem C109_mul_mode (hs : g.IsSymm) {A B : Expr R n} (hA : Valid A) (hB : Valid B) (mode : List Char) :
    (∀ E, mulMode g mode A B = some E → Valid E ∧ ∃ c, mode = [c] ∧ IsProduct g c (den g A) (den g B) (den g E)) ∧
    ((mulMode g mode A B).isSome = true ↔ ∃ c, mode = [c] ∧ c ∈ ['*', '^', '|', '<', '>']) := by
  constructor
  · intro E h
    rw [mulMode] at h
    split_ifs at h with h1 h2 h3 h4 h5 <;> obtain rfl := Option.some.inj h
    · obtain ⟨a, b⟩ := mul_spec g hs (mulSym_of_valid hA) (mulSym_of_valid hB)
      exact ⟨a, '*', h1, Or.inl ⟨rfl, b⟩⟩
    · exact ⟨wedge_valid hA hB, '^', h2, Or.inr (Or.inl ⟨rfl, den_wedge g hA hB⟩)⟩
    · obtain ⟨a, b⟩ := hestenesDot_spec g hs hA hB
      exact ⟨a, '|', h3, Or.inr (Or.inr (Or.inl ⟨rfl, b⟩))⟩
    · obtain ⟨a, b⟩ := leftContract_spec g hs hA hB
      exact ⟨a, '<', h4, Or.inr (Or.inr (Or.inr (Or.inl ⟨rfl, b⟩)))⟩
    · obtain ⟨a, b⟩ := rightContract_spec g hs hA hB
      exact ⟨a, '>', h5, Or.inr (Or.inr (Or.inr (Or.inr ⟨rfl, b⟩)))⟩
  · rw [mulMode]
    constructor
    · intro h
      split_ifs at h with h1 h2 h3 h4 h5
      exacts [⟨_, h1, by simp⟩, ⟨_, h2, by simp⟩, ⟨_, h3, by simp⟩, ⟨_, h4, by simp⟩, ⟨_, h5, by simp⟩,
        absurd h (by simp)]
    · rintro ⟨c, rfl, h⟩
      fin_cases h <;> simp

/-- C109: `Ga.dot(A, B)` is the inner product that `dot_mode` names, and raises an exception for every other value of
`dot_mode`; the mode of a new algebra is `'|'`. -/
theorem C109_dot_mode (hs : g.IsSymm) {A B : Expr R n} (hA : Valid A) (hB : Valid B) (mode : List Char) :
    (∀ E, dotWith g mode A B = some E → Valid E ∧ ∃ c ∈ ['|', '<', '>'], mode = [c] ∧
      IsProduct g c (den g A) (den g B) (den g E)) ∧
    ((dotWith g mode A B).isSome = true ↔ ∃ c, mode = [c] ∧ c ∈ ['|', '<', '>']) ∧ newDotMode = ['|'] := by
  obtain ⟨h1, h2⟩ := C109_mul_mode hs hA hB mode
  refine ⟨?_, ?_, rfl⟩
  · intro E h
    rw [dotWith] at h
    split_ifs at h with hm
    obtain ⟨a, c, rfl, b⟩ := h1 E h
    refine ⟨a, c, ?_, rfl, b⟩
    rcases b with ⟨rfl, -⟩ | ⟨rfl, -⟩ | ⟨rfl, -⟩ | ⟨rfl, -⟩ | ⟨rfl, -⟩
    · exact absurd (by decide) hm
    · exact absurd (by decide) hm
    all_goals simp
  · rw [dotWith]
    constructor
    · intro h
      split_ifs at h with hm
      · exact absurd h (by simp)
      · obtain ⟨c, rfl, hc⟩ := h2.mp h
        refine ⟨c, rfl, ?_⟩
        fin_cases hc
        · exact absurd (by decide) hm
        · exact absurd (by decide) hm
        all_goals simp
    · rintro ⟨c, rfl, hc⟩
      rw [if_neg (by fin_cases hc <;> decide)]
      exact h2.mpr ⟨c, rfl, by fin_cases hc <;> simp⟩

/-- C109: the products of basis blades: `Ga.mul.of_basis_blades`, `Ga.wedge.of_basis_blades` and their deprecated
names, in every algebra. -/
theorem C109_basis_blades (hs : g.IsSymm) {I J : List (Fin n)} (hI : I.Pairwise (· < ·)) (hJ : J.Pairwise (· < ·)) :
    (Valid (geometricProductBasisBlades g (.blade I) (.blade J)) ∧
      den g (geometricProductBasisBlades g (.blade I) (.blade J)) = Spec.blade g I * Spec.blade g J) ∧
    (Valid (wedgeProductBasisBlades (R := R) (.blade I) (.blade J)) ∧
      den g (wedgeProductBasisBlades (.blade I) (.blade J)) = Spec.wedge g (Spec.blade g I) (Spec.blade g J)) := by
  have h1 : IsBl (.blade I) := ⟨I, rfl, hI⟩
  have h2 : IsBl (.blade J) := ⟨J, rfl, hJ⟩
  obtain ⟨a, b⟩ := gpBlades_spec g hs (isBl_mulSym g h1) (isBl_mulSym g h2)
  obtain ⟨c, d⟩ := wedgeBlades_spec g h1 h2
  exact ⟨⟨valid_iff.mpr a, b⟩, valid_iff.mpr c, d⟩

/-- The product of two basis blades with a mode of `_dot_product_method`. -/
theorem method_spec {mode : List Char} {rg : ℕ → ℕ → Option ℕ} (h : dotProductMethod mode = some rg)
    {s t : Sym n} (h1 : IsBl s) (h2 : IsBl t) :
    GoodGrade rg ∧ ∃ c ∈ ['|', '<', '>'], mode = [c] ∧
      IsProduct g c (symDen g s) (symDen g t) (gradedVal g rg s t) := by
  rw [dotProductMethod] at h
  split_ifs at h with h3 h4 h5 <;> obtain rfl := Option.some.inj h
  · refine ⟨goodGrade_hestenes, '|', by simp, h3, Or.inr (Or.inr (Or.inl ⟨rfl, ?_⟩))⟩
    rw [Spec.hestenesDot, ← hestenesGrade_eq, ← gradedL_apply, gradedL_symDen g _ h1 h2]
  · refine ⟨goodGrade_left, '<', by simp, h4, Or.inr (Or.inr (Or.inr (Or.inl ⟨rfl, ?_⟩)))⟩
    rw [Spec.leftContraction, ← leftGrade_eq, ← gradedL_apply, gradedL_symDen g _ h1 h2]
  · refine ⟨goodGrade_right, '>', by simp, h5, Or.inr (Or.inr (Or.inr (Or.inr ⟨rfl, ?_⟩)))⟩
    rw [Spec.rightContraction, ← rightGrade_eq, ← gradedL_apply, gradedL_symDen g _ h1 h2]

theorem dotProductMethod_isSome (mode : List Char) :
    (dotProductMethod mode).isSome = true ↔ ∃ c, mode = [c] ∧ c ∈ ['|', '<', '>'] := by
  rw [dotProductMethod]
  constructor
  · intro h
    split_ifs at h with h1 h2 h3
    exacts [⟨_, h1, by simp⟩, ⟨_, h2, by simp⟩, ⟨_, h3, by simp⟩, absurd h (by simp)]
  · rintro ⟨c, rfl, hc⟩
    fin_cases hc <;> simp

/-- C109: the deprecated `dot_product_basis_blades((b1, b2), mode)` is the inner product of the basis blades in an
orthogonal algebra, and raises an exception for every other mode.  Missing: algebras that are not orthogonal, where it
is wrong (`C109_not_orthogonal_counterexample`). -/
theorem C109_dot_basis_blades_partial (ho : ∀ i j, i ≠ j → g i j = 0) {I J : List (Fin n)} (hI : I.Pairwise (· < ·))
    (hJ : J.Pairwise (· < ·)) (mode : List Char) :
    (∀ E, dotProductBasisBlades g (.blade I) (.blade J) mode = some E → Valid E ∧ ∃ c ∈ ['|', '<', '>'], mode = [c] ∧
      IsProduct g c (Spec.blade g I) (Spec.blade g J) (den g E)) ∧
    ((dotProductBasisBlades g (.blade I) (.blade J) mode).isSome = true ↔ ∃ c, mode = [c] ∧ c ∈ ['|', '<', '>']) := by
  have h1 : IsBl (.blade I) := ⟨I, rfl, hI⟩
  have h2 : IsBl (.blade J) := ⟨J, rfl, hJ⟩
  constructor
  · intro E h
    obtain ⟨rg, hrg, rfl⟩ := Option.map_eq_some_iff.mp h
    obtain ⟨hgood, c, hc, hm, hp⟩ := method_spec (g := g) hrg h1 h2
    obtain ⟨a, b⟩ := dotBladesOrtho_spec g ho hgood h1 h2
    exact ⟨valid_iff.mpr a, c, hc, hm, by rw [b]; exact hp⟩
  · rw [dotProductBasisBlades, Option.isSome_map, dotProductMethod_isSome]

/-- C109: the deprecated `non_orthogonal_dot_product_basis_blades((b1, b2), mode)` is the inner product of the basis
blades in an algebra that is not orthogonal, and raises an exception for every other mode.  Whenever it returns a
result in an orthogonal algebra, the result is right, too. -/
theorem C109_non_ortho_dot_basis_blades (hs : g.IsSymm) {I J : List (Fin n)} (hI : I.Pairwise (· < ·))
    (hJ : J.Pairwise (· < ·)) (mode : List Char) :
    (∀ E, nonOrthoDotProductBasisBlades g (.blade I) (.blade J) mode = some E → Valid E ∧
      ∃ c ∈ ['|', '<', '>'], mode = [c] ∧ IsProduct g c (Spec.blade g I) (Spec.blade g J) (den g E)) ∧
    ((∃ i j, i ≠ j ∧ g i j ≠ 0) → ((nonOrthoDotProductBasisBlades g (.blade I) (.blade J) mode).isSome = true ↔
      ∃ c, mode = [c] ∧ c ∈ ['|', '<', '>'])) := by
  have h1 : IsBl (.blade I) := ⟨I, rfl, hI⟩
  have h2 : IsBl (.blade J) := ⟨J, rfl, hJ⟩
  constructor
  · intro E h
    obtain ⟨rg, hrg, h⟩ := Option.bind_eq_some_iff.mp h
    rw [grade_of_isBl h1, grade_of_isBl h2] at h
    dsimp only at h
    split_ifs at h
    obtain rfl := Option.some.inj h
    obtain ⟨hgood, c, hc, hm, hp⟩ := method_spec (g := g) hrg h1 h2
    obtain ⟨a, b⟩ := dotBladesNonOrtho_spec g hs h1 h2 (rg := rg)
    exact ⟨valid_iff.mpr a, c, hc, hm, by rw [b]; exact hp⟩
  · rintro ⟨i, j, hij, hne⟩
    have ho : ¬ isOrtho g = true := by
      rw [isOrtho_iff]
      intro h
      rcases lt_or_gt_of_ne hij with hl | hl
      · exact hne (h i j hl)
      · exact hne (by rw [← hs.apply]; exact h j i hl)
    rw [← dotProductMethod_isSome, nonOrthoDotProductBasisBlades]
    cases dotProductMethod mode with
    | none => simp
    | some rg =>
      rw [Option.bind_some, grade_of_isBl h1, grade_of_isBl h2]
      simp [ho]

/-- C109: in an orthogonal algebra of two or more dimensions `non_orthogonal_dot_product_basis_blades` raises an exception
also for the right modes, except where the product is zero because of the grades: if `|` has a scalar factor, or the
contraction has the larger grade on the wrong side.  In smaller algebras it never does. -/
theorem C109_non_ortho_raises {I J : List (Fin n)} (hI : I.Pairwise (· < ·)) (hJ : J.Pairwise (· < ·))
    (hg : ∀ i j, i ≠ j → g i j = 0) (mode : List Char) :
    (2 ≤ n → ((nonOrthoDotProductBasisBlades g (.blade I) (.blade J) mode).isSome = true ↔
      mode = ['|'] ∧ (I = [] ∨ J = []) ∨ mode = ['<'] ∧ J.length < I.length ∨ mode = ['>'] ∧ I.length < J.length)) ∧
    (n < 2 → ((nonOrthoDotProductBasisBlades g (.blade I) (.blade J) mode).isSome = true ↔
      ∃ c, mode = [c] ∧ c ∈ ['|', '<', '>'])) := by
  have h1 : IsBl (.blade I) := ⟨I, rfl, hI⟩
  have h2 : IsBl (.blade J) := ⟨J, rfl, hJ⟩
  have ho : isOrtho g = true := (isOrtho_iff g).mpr fun i j hij => hg i j (ne_of_lt hij)
  constructor
  · intro hn
    rw [nonOrthoDotProductBasisBlades, dotProductMethod]
    by_cases m1 : mode = ['|']
    · subst m1
      simp [grade_of_isBl h1, grade_of_isBl h2, ho, hn, hestenesGrade, symLen]
      by_cases a : I = [] <;> by_cases b : J = [] <;> simp [a, b]
    by_cases m2 : mode = ['<']
    · subst m2
      by_cases a : (J.length : ℤ) - I.length < 0
      · simp [grade_of_isBl h1, grade_of_isBl h2, ho, hn, leftGrade, symLen, a]
        omega
      · simp [grade_of_isBl h1, grade_of_isBl h2, ho, hn, leftGrade, symLen, a]
        omega
    by_cases m3 : mode = ['>']
    · subst m3
      by_cases a : (I.length : ℤ) - J.length < 0
      · simp [grade_of_isBl h1, grade_of_isBl h2, ho, hn, rightGrade, symLen, a]
        omega
      · simp [grade_of_isBl h1, grade_of_isBl h2, ho, hn, rightGrade, symLen, a]
        omega
    simp [m1, m2, m3]
  · intro hn
    rw [← dotProductMethod_isSome, nonOrthoDotProductBasisBlades]
    cases dotProductMethod mode with
    | none => simp
    | some rg =>
      rw [Option.bind_some, grade_of_isBl h1, grade_of_isBl h2]
      simp [Nat.not_le.mpr hn]

/-- Two vectors of an orthogonal algebra, and a vector with a scalar. -/
example : nonOrthoDotProductBasisBlades Ex.gO (.blade [0]) (.blade [0]) ['|'] = none ∧
    nonOrthoDotProductBasisBlades Ex.gO (.blade []) (.blade [0]) ['|'] = some [] := by decide +kernel

/-- C109, the case in which the claim is false: in an algebra that is not orthogonal, `dot_product_basis_blades` of
two basis vectors is 0, although their inner product is not, and raises no exception. -/
theorem C109_not_orthogonal_counterexample :
    dotProductBasisBlades Ex.gN (.blade [0]) (.blade [1]) ['|'] = some [] ∧
    Spec.hestenesDot Ex.gN (Spec.blade Ex.gN [0]) (Spec.blade Ex.gN [1]) ≠ 0 := by
  refine ⟨by decide +kernel, fun h => ?_⟩
  have h0 : Valid (bladeE [0] : Expr ℚ 3) := valid_bladeE (by decide)
  have h1 : Valid (bladeE [1] : Expr ℚ 3) := valid_bladeE (by decide)
  obtain ⟨a, b⟩ := hestenesDot_spec Ex.gN Ex.gN_symm h0 h1
  rw [den_bladeE, den_bladeE, h, ← den_nil Ex.gN] at b
  have := congrFun (coeff_ext Ex.gN a valid_nil b) []
  revert this
  decide +kernel

/-! ### Examples -/

namespace Ex

theorem A_valid : Valid A.obj := (A_wf gN).valid (Or.inl rfl)
theorem B_valid : Valid B.obj := (B_wf gN).valid (Or.inl rfl)

example : ∃ E, mulMode gN ['<'] A.obj B.obj = some E ∧ E ≠ [] ∧
    den gN E = Spec.leftContraction gN (den gN A.obj) (den gN B.obj) := by
  obtain ⟨E, hE⟩ := Option.isSome_iff_exists.mp
    ((C109_mul_mode gN_symm A_valid B_valid ['<']).2.mpr ⟨'<', rfl, by simp⟩)
  refine ⟨E, hE, ?_, ?_⟩
  · rintro rfl
    exact absurd hE (by decide +kernel)
  · obtain ⟨-, c, hc, h⟩ := (C109_mul_mode gN_symm A_valid B_valid ['<']).1 E hE
    obtain rfl : '<' = c := by simpa using hc
    simpa [IsProduct] using h

example : dotWith gN ['>'] A.obj B.obj = mulMode gN ['>'] A.obj B.obj ∧ dotWith gN ['^'] A.obj B.obj = none ∧
    dotWith gN [] A.obj B.obj = none ∧ (dotWith gN ['>'] A.obj B.obj).isSome = true := by decide +kernel

example : ∃ E, dotProductBasisBlades gO (.blade [0]) (.blade [0, 2]) ['<'] = some E ∧ E ≠ [] ∧
    den gO E = Spec.leftContraction gO (Spec.blade gO [0]) (Spec.blade gO [0, 2]) := by
  obtain ⟨h1, h2⟩ := C109_dot_basis_blades_partial gO_diag (I := [0]) (J := [0, 2]) (by decide) (by decide) ['<']
  obtain ⟨E, hE⟩ := Option.isSome_iff_exists.mp (h2.mpr ⟨'<', rfl, by simp⟩)
  refine ⟨E, hE, ?_, ?_⟩
  · rintro rfl
    exact absurd hE (by decide +kernel)
  · obtain ⟨-, c, -, hc, h⟩ := h1 E hE
    obtain rfl : '<' = c := by simpa using hc
    simpa [IsProduct] using h

example : (nonOrthoDotProductBasisBlades gN (.blade [0]) (.blade [1]) ['|']).isSome = true :=
  ((C109_non_ortho_dot_basis_blades gN_symm (by decide) (by decide) ['|']).2 ⟨0, 1, by decide, by decide +kernel⟩).mpr
    ⟨'|', rfl, by simp⟩

end Ex

end GA
