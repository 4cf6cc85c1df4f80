import Verif.Proofs.NonOrtho
import Mathlib.LinearAlgebra.CliffordAlgebra.Conjugation

/-! Grade functions: decomposition, reverse, even and odd parts. -/

set_option linter.unusedSectionVars false

namespace GA
variable {n : ℕ} {R : Type*} [CommRing R] [DecidableEq R]

theorem grade_of_isBl {s : Sym n} (h : IsBl s) : (bladesToGrades n).get? s = some (symLen s) := by
  obtain ⟨l, rfl, hl⟩ := h
  exact grade_of_blade hl

theorem gradeStep_eq {t : R × Sym n} (h : IsBl t.2) (d : Dict ℕ (Expr R n)) :
    (if t.2 = .blade [] then some (gradeAdd d 0 [t])
      else ((bladesToGrades n).get? t.2).map fun r => gradeAdd d r [t]) =
    some (gradeAdd d (symLen t.2) [t]) := by
  split_ifs with h0
  · rw [h0]; rfl
  · rw [grade_of_isBl h]; rfl

theorem get?_gradeAdd (d : Dict ℕ (Expr R n)) (r : ℕ) (t : Expr R n) (r' : ℕ) :
    (gradeAdd d r t).get? r' =
      if r = r' then some ((d.get? r).getD [] ++ t) else d.get? r' := by
  rw [gradeAdd]
  cases h : d.get? r with
  | none => simp [Dict.get?_set]
  | some E => simp [Dict.get?_set, addE]

/-- The grouping loop of `grade_decomposition` and `reverse`. -/
def groupTerms (E : Expr R n) (d : Dict ℕ (Expr R n)) : Dict ℕ (Expr R n) :=
  E.foldl (fun d t => gradeAdd d (symLen t.2) [t]) d

theorem foldlM_group {E : Expr R n} (hE : AllSyms IsBl E) (d : Dict ℕ (Expr R n)) :
    E.foldlM (m := Option) (fun d t =>
      if t.2 = .blade [] then some (gradeAdd d 0 [t])
      else ((bladesToGrades n).get? t.2).map fun r => gradeAdd d r [t]) d =
    some (groupTerms E d) := by
  induction E generalizing d with
  | nil => rfl
  | cons t E ih =>
    rw [allSyms_cons] at hE
    rw [List.foldlM_cons, gradeStep_eq hE.1]
    exact ih hE.2 _

theorem get?_groupTerms (E : Expr R n) (d : Dict ℕ (Expr R n)) (r : ℕ) :
    (groupTerms E d).get? r =
      if (d.get? r).isSome ∨ ∃ t ∈ E, symLen t.2 = r then
        some ((d.get? r).getD [] ++ E.filter fun t => decide (symLen t.2 = r))
      else none := by
  induction E generalizing d with
  | nil =>
    simp only [groupTerms, List.foldl_nil, List.not_mem_nil, false_and, exists_false, or_false,
      List.filter_nil, List.append_nil]
    cases d.get? r <;> simp
  | cons t E ih =>
    have := ih (gradeAdd d (symLen t.2) [t])
    rw [groupTerms, List.foldl_cons]
    rw [groupTerms] at this
    rw [this, get?_gradeAdd]
    by_cases h : symLen t.2 = r
    · subst h
      simp
    · rw [if_neg h]
      refine if_congr (by simp [h]) (by simp [h]) rfl

theorem lin_groupTerms {M : Type*} [AddCommGroup M] [Module R M] (φ : Sym n → M) (σ : ℕ → R)
    (h : ℕ × Expr R n → Expr R n) (hh : ∀ r E, lin φ (h (r, E)) = σ r • lin φ E)
    (E : Expr R n) (d : Dict ℕ (Expr R n)) :
    lin φ ((groupTerms E d).flatMap h) =
      lin φ (d.flatMap h) + lin (fun s => σ (symLen s) • φ s) E := by
  have hadd : ∀ (d : Dict ℕ (Expr R n)) (r : ℕ) (t : Expr R n),
      lin φ ((gradeAdd d r t).flatMap h) = lin φ (d.flatMap h) + σ r • lin φ t := by
    intro d r t
    rw [gradeAdd]
    induction d with
    | nil => simp [Dict.get?, Dict.set, hh]
    | cons p d ih =>
      obtain ⟨k, E⟩ := p
      by_cases hk : k = r
      · subst hk
        simp [Dict.get?, Dict.set, hh, addE]
        abel
      · simp only [Dict.get?, if_neg hk, Dict.set]
        cases hd : Dict.get? d r with
        | none =>
          rw [hd] at ih
          simp only [List.flatMap_cons, lin_append] at *
          rw [ih]; abel
        | some E' =>
          rw [hd] at ih
          simp only [List.flatMap_cons, lin_append] at *
          rw [ih]; abel
  induction E generalizing d with
  | nil => simp [groupTerms]
  | cons t E ih =>
    have := ih (gradeAdd d (symLen t.2) [t])
    rw [groupTerms, List.foldl_cons]
    rw [groupTerms] at this
    rw [this, hadd]
    simp only [lin_cons, lin_nil, add_zero, smul_comm t.1]
    abel

theorem allSyms_groupTerms {P : Sym n → Prop} {h : ℕ × Expr R n → Expr R n}
    (hh : ∀ r E, AllSyms P E → AllSyms P (h (r, E))) {E : Expr R n} (hE : AllSyms P E) :
    AllSyms P ((groupTerms E []).flatMap h) := by
  have hadd : ∀ (d : Dict ℕ (Expr R n)) (r : ℕ) (t : Expr R n), AllSyms P t →
      (∀ p ∈ d, AllSyms P p.2) → ∀ p ∈ gradeAdd d r t, AllSyms P p.2 := by
    intro d r t ht
    rw [gradeAdd]
    induction d with
    | nil => intro _; simpa [Dict.get?, Dict.set] using ht
    | cons p d ih =>
      intro hd
      obtain ⟨k, E⟩ := p
      have h1 : AllSyms P E := hd (k, E) (by simp)
      have h2 : ∀ p ∈ d, AllSyms P p.2 := fun p hp => hd p (by simp [hp])
      by_cases hk : k = r
      · subst hk
        simp only [Dict.get?, if_true, Dict.set]
        intro p hp
        rcases List.mem_cons.mp hp with rfl | hp
        · exact h1.addE ht
        · exact h2 p hp
      · simp only [Dict.get?, if_neg hk, Dict.set]
        have ih' := ih h2
        cases hdr : Dict.get? d r with
        | none =>
          rw [hdr] at ih'
          intro p hp
          rcases List.mem_cons.mp hp with rfl | hp
          · exact h1
          · exact ih' p hp
        | some E' =>
          rw [hdr] at ih'
          intro p hp
          rcases List.mem_cons.mp hp with rfl | hp
          · exact h1
          · exact ih' p hp
  have main : ∀ (E : Expr R n) (d : Dict ℕ (Expr R n)), AllSyms P E →
      (∀ p ∈ d, AllSyms P p.2) → ∀ p ∈ groupTerms E d, AllSyms P p.2 := by
    intro E
    induction E with
    | nil => intro d _ h; exact h
    | cons t E ih =>
      intro d hE hd
      rw [allSyms_cons] at hE
      exact ih _ hE.2 (hadd d _ _ (by simpa using hE.1) hd)
  intro t ht
  obtain ⟨p, hp, ht⟩ := List.mem_flatMap.mp ht
  exact hh p.1 p.2 (main E [] hE (by simp) p hp) t ht

/-! ### grade_decomposition -/

theorem gradeDecomposition_eq {A : Expr R n} (hA : Valid A) :
    gradeDecomposition A = some (groupTerms (linearExpand A) []) :=
  foldlM_group ((valid_iff.mp hA).linearExpand isBl_one) []

theorem get?_gradeDecomposition {A : Expr R n} (hA : Valid A) :
    ∃ d, gradeDecomposition A = some d ∧ ∀ r, d.get? r =
      if ∃ t ∈ linearExpand A, symLen t.2 = r then
        some ((linearExpand A).filter fun t => decide (symLen t.2 = r)) else none := by
  refine ⟨_, gradeDecomposition_eq hA, fun r => ?_⟩
  rw [get?_groupTerms]
  exact if_congr (by simp [Dict.get?]) (by simp [Dict.get?]) rfl

section den
variable [Invertible (2 : R)] (g : Matrix (Fin n) (Fin n) R)

theorem grade_symDen {s : Sym n} (h : IsBl s) (r : ℕ) :
    Spec.grade g r (symDen g s) = if symLen s = r then symDen g s else 0 := by
  obtain ⟨l, rfl, hl⟩ := h
  exact Spec.grade_blade g r l

theorem lin_filter {M : Type*} [AddCommGroup M] [Module R M] (φ : Sym n → M) (p : Sym n → Prop)
    [DecidablePred p] (E : Expr R n) :
    lin φ (E.filter fun t => decide (p t.2)) = lin (fun s => if p s then φ s else 0) E := by
  induction E with
  | nil => rfl
  | cons t E ih =>
    rw [List.filter_cons, lin_cons]
    by_cases h : p t.2
    · simp [h, ih]
    · simp [h, ih]

theorem den_filter_len {E : Expr R n} (hE : AllSyms IsBl E) (r : ℕ) :
    den g (E.filter fun t => decide (symLen t.2 = r)) = Spec.grade g r (den g E) := by
  rw [den_eq_lin, lin_filter (symDen g) (fun s => symLen s = r), den_eq_lin, map_lin]
  exact lin_congr _ _ _ fun t ht => (grade_symDen g (hE t ht) r).symm

theorem allSyms_filter {P : Sym n → Prop} {E : Expr R n} (hE : AllSyms P E)
    (p : R × Sym n → Bool) : AllSyms P (E.filter p) :=
  fun t ht => hE t (List.mem_of_mem_filter ht)

/-- The parts of `grade_decomposition`. -/
theorem gradeDecomposition_spec {A : Expr R n} (hA : Valid A) :
    ∃ d, gradeDecomposition A = some d ∧ ∀ r,
      Valid ((d.get? r).getD []) ∧
      (∀ t ∈ (d.get? r).getD [], symLen t.2 = r) ∧
      den g ((d.get? r).getD []) = Spec.grade g r (den g A) := by
  obtain ⟨d, h1, h2⟩ := get?_gradeDecomposition hA
  have hL := (valid_iff.mp hA).linearExpand isBl_one
  refine ⟨d, h1, fun r => ?_⟩
  have h3 : (d.get? r).getD [] = (linearExpand A).filter fun t => decide (symLen t.2 = r) := by
    rw [h2]
    split_ifs with h
    · rfl
    · push Not at h
      rw [Option.getD_none, eq_comm, List.filter_eq_nil_iff]
      intro t ht
      simpa using h t ht
  rw [h3]
  refine ⟨allSyms_filter hL _, ?_, ?_⟩
  · intro t ht
    simpa using (List.mem_filter.mp ht).2
  · rw [den_filter_len g hL, den_linearExpand]

/-! ### get_grade -/

theorem getGrade_eq {A : Expr R n} (hA : Valid A) (r : ℕ) :
    getGrade A r = (linearExpand A).filter fun t => decide (symLen t.2 = r) := by
  have hL := (valid_iff.mp hA).linearExpand isBl_one
  rw [getGrade]
  generalize linearExpand A = E at hL
  induction E with
  | nil => rfl
  | cons t E ih =>
    rw [allSyms_cons] at hL
    rw [List.flatMap_cons, ih hL.2, grade_of_isBl hL.1, List.filter_cons]
    by_cases h : symLen t.2 = r <;> simp [h]

theorem getGrade_valid {A : Expr R n} (hA : Valid A) (r : ℕ) : Valid (getGrade A r) := by
  rw [getGrade_eq hA]
  exact allSyms_filter ((valid_iff.mp hA).linearExpand isBl_one) _

theorem getGrade_len {A : Expr R n} (hA : Valid A) (r : ℕ) : ∀ t ∈ getGrade A r, symLen t.2 = r := by
  rw [getGrade_eq hA]
  intro t ht
  simpa using (List.mem_filter.mp ht).2

theorem den_getGrade {A : Expr R n} (hA : Valid A) (r : ℕ) :
    den g (getGrade A r) = Spec.grade g r (den g A) := by
  rw [getGrade_eq hA, den_filter_len g ((valid_iff.mp hA).linearExpand isBl_one), den_linearExpand]

/-! ### even_odd -/

theorem evenOdd_eq {A : Expr R n} (hA : Valid A) (even : Bool) :
    evenOdd A even = (expand A).filter fun t => decide (symLen t.2 % 2 = if even then 0 else 1) := by
  have hL := (valid_iff.mp hA).expand
  rw [evenOdd]
  generalize expand A = E at hL
  induction E with
  | nil => rfl
  | cons t E ih =>
    rw [allSyms_cons] at hL
    rw [List.flatMap_cons, ih hL.2, grade_of_isBl hL.1, List.filter_cons]
    by_cases h0 : t.2 = .blade []
    · cases even <;> simp [h0, symLen]
    · rw [if_neg h0]
      cases even
      · rcases Nat.mod_two_eq_zero_or_one (symLen t.2) with h | h <;> simp [h]
      · rcases Nat.mod_two_eq_zero_or_one (symLen t.2) with h | h <;> simp [h]

theorem evenOdd_valid {A : Expr R n} (hA : Valid A) (even : Bool) : Valid (evenOdd A even) := by
  rw [evenOdd_eq hA]
  exact allSyms_filter (valid_iff.mp hA).expand _

theorem involute_symDen {s : Sym n} (h : IsBl s) :
    CliffordAlgebra.involute (symDen g s) = (-1 : R) ^ symLen s • symDen g s := by
  obtain ⟨l, rfl, hl⟩ := h
  exact Spec.involute_blade g l

/-- `even(A)` is the even part, `odd(A)` the odd part. -/
theorem two_smul_den_evenOdd {A : Expr R n} (hA : Valid A) (even : Bool) :
    (2 : R) • den g (evenOdd A even) =
      den g A + (if even then 1 else -1 : R) • CliffordAlgebra.involute (den g A) := by
  rw [evenOdd_eq hA, den_eq_lin,
    lin_filter (symDen g) (fun s => symLen s % 2 = if even then 0 else 1), ← den_expand g A,
    den_eq_lin]
  have h2 : ∀ E : Expr R n, AllSyms IsBl E →
      CliffordAlgebra.involute (lin (symDen g) E) =
        lin (fun s => (-1 : R) ^ symLen s • symDen g s) E := by
    intro E hE
    rw [← AlgHom.toLinearMap_apply, map_lin]
    exact lin_congr _ _ _ fun t ht => involute_symDen g (hE t ht)
  rw [h2 _ (valid_iff.mp hA).expand]
  have hL := (valid_iff.mp hA).expand
  generalize expand A = E at hL
  induction E with
  | nil => simp
  | cons t E ih =>
    rw [allSyms_cons] at hL
    rw [lin_cons, lin_cons, lin_cons, smul_add, ih hL.2, smul_add]
    have : (2 : R) • t.1 • (if symLen t.2 % 2 = if even then 0 else 1 then symDen g t.2 else 0) =
        t.1 • symDen g t.2 +
          (if even then 1 else -1 : R) • t.1 • (-1 : R) ^ symLen t.2 • symDen g t.2 := by
      rcases Nat.even_or_odd (symLen t.2) with h | h
      · rw [h.neg_one_pow, Nat.even_iff.mp h]
        cases even
        · simp
        · simp [two_smul]
      · rw [h.neg_one_pow, Nat.odd_iff.mp h]
        cases even
        · simp [two_smul]
        · simp
    rw [this]
    abel

/-! ### reverse -/

theorem reverse_eq {A : Expr R n} (hA : Valid A) :
    reverse A = (groupTerms (expand A) []).flatMap fun p =>
      if p.1 * (p.1 - 1) / 2 % 2 = 0 then p.2 else negE p.2 := by
  rw [reverse, reverseGroups, foldlM_group (valid_iff.mp hA).expand []]

theorem reverse_valid {A : Expr R n} (hA : Valid A) : Valid (reverse A) := by
  rw [reverse_eq hA]
  refine allSyms_groupTerms ?_ (valid_iff.mp hA).expand
  intro r E hE
  dsimp only
  split_ifs
  · exact hE
  · exact hE.negE

theorem reverse_symDen {s : Sym n} (h : IsBl s) :
    CliffordAlgebra.reverse (symDen g s) =
      (-1 : R) ^ (symLen s * (symLen s - 1) / 2) • symDen g s := by
  obtain ⟨l, rfl, hl⟩ := h
  exact Spec.reverse_blade g l

theorem den_reverse {A : Expr R n} (hA : Valid A) :
    den g (reverse A) = CliffordAlgebra.reverse (den g A) := by
  rw [reverse_eq hA, den_eq_lin,
    lin_groupTerms (symDen g) (fun r => (-1 : R) ^ (r * (r - 1) / 2))]
  · rw [List.flatMap_nil, lin_nil, zero_add, ← den_expand g A, den_eq_lin, map_lin]
    exact (lin_congr _ _ _ fun t ht => reverse_symDen g ((valid_iff.mp hA).expand t ht)).symm
  · intro r E
    dsimp only
    split_ifs with h
    · rw [(Nat.even_iff.mpr h).neg_one_pow, one_smul]
    · rw [(Nat.odd_iff.mpr (by omega)).neg_one_pow, lin_negE, neg_smul, one_smul]

/-! ### scalar part -/

theorem algebraMap_scalarPart {A : Expr R n} (hA : Valid A) :
    algebraMap R (Spec.Cl g) (scalarPart A) = Spec.grade g 0 (den g A) := by
  have h1 : algebraMap R (Spec.Cl g) (scalarPart A) =
      lin (fun s => if s = .blade [] then symDen g s else 0) (expand A) := by
    rw [scalarPart]
    generalize expand A = E
    induction E with
    | nil => simp
    | cons t E ih =>
      rw [List.filter_cons, lin_cons]
      split_ifs with h h' h'
      · rw [List.map_cons, List.sum_cons, map_add, ih, h', symDen, Spec.blade_nil,
          Algebra.algebraMap_eq_smul_one]
      · simp [h'] at h
      · simp [h'] at h
      · rw [ih, smul_zero, zero_add]
  rw [h1, ← den_expand g A, den_eq_lin, map_lin]
  refine lin_congr _ _ _ fun t ht => ?_
  rw [grade_symDen g ((valid_iff.mp hA).expand t ht)]
  obtain ⟨l, hl, -⟩ := (valid_iff.mp hA).expand t ht
  rw [hl]
  cases l <;> simp [symLen]

theorem scalarPart_eq_coeff (A : Expr R n) : scalarPart A = coeff A [] := by
  rw [coeff_eq_lin, ← lin_expand, scalarPart]
  generalize expand A = E
  induction E with
  | nil => rfl
  | cons t E ih =>
    rw [List.filter_cons, lin_cons]
    by_cases h : t.2 = .blade []
    · simp [h, ih]
    · simp [h, ih]

end den

end GA
