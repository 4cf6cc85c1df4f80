import Verif.Spec.Denote
import Verif.Proofs.Clifford
import Verif.Proofs.Dict
import Mathlib.LinearAlgebra.BilinearMap

/-! Lemmas on expressions: linear functionals, symbols, denotation. -/

set_option linter.unusedSectionVars false

namespace GA
variable {n : ℕ} {R : Type*} [CommRing R] [DecidableEq R]

/-- Linear extension of a function on symbols. -/
def lin {M : Type*} [AddCommMonoid M] [Module R M] (φ : Sym n → M) (E : Expr R n) : M :=
  (E.map fun t => t.1 • φ t.2).sum

section lin
variable {M : Type*} [AddCommGroup M] [Module R M] (φ : Sym n → M)

@[simp] theorem lin_nil : lin φ ([] : Expr R n) = 0 := rfl
@[simp] theorem lin_cons (t : R × Sym n) (E : Expr R n) :
    lin φ (t :: E) = t.1 • φ t.2 + lin φ E := by simp [lin]
@[simp] theorem lin_append (A B : Expr R n) : lin φ (A ++ B) = lin φ A + lin φ B := by
  simp [lin]
theorem lin_addE (A B : Expr R n) : lin φ (addE A B) = lin φ A + lin φ B := lin_append φ A B
@[simp] theorem lin_smulE (c : R) (A : Expr R n) : lin φ (smulE c A) = c • lin φ A := by
  induction A with
  | nil => simp [smulE]
  | cons t A ih =>
    simp only [smulE, List.map_cons, lin_cons, smul_add, mul_smul] at *
    rw [ih]
@[simp] theorem lin_negE (A : Expr R n) : lin φ (negE A) = - lin φ A := by
  induction A with
  | nil => simp [negE]
  | cons t A ih =>
    simp only [negE, List.map_cons, lin_cons, neg_smul] at *
    rw [ih]; abel
@[simp] theorem lin_subE (A B : Expr R n) : lin φ (subE A B) = lin φ A - lin φ B := by
  rw [subE, lin_addE, lin_negE, sub_eq_add_neg]
@[simp] theorem lin_scalarE (c : R) : lin φ (scalarE c : Expr R n) = c • φ (.blade []) := by
  simp [scalarE]

theorem lin_addTerm (E : Expr R n) (c : R) (s : Sym n) :
    lin φ (addTerm E c s) = lin φ E + c • φ s := by
  induction E with
  | nil => simp [addTerm]
  | cons t E ih =>
    obtain ⟨c', s'⟩ := t
    simp only [addTerm]
    split_ifs with h
    · subst h; simp [add_smul]; abel
    · simp [ih]; abel

theorem lin_foldl_addTerm (E acc : Expr R n) :
    lin φ (E.foldl (fun acc t => addTerm acc t.1 t.2) acc) = lin φ acc + lin φ E := by
  induction E generalizing acc with
  | nil => simp
  | cons t E ih => rw [List.foldl_cons, ih, lin_addTerm, lin_cons]; abel

@[simp] theorem lin_gatherE (E : Expr R n) : lin φ (gatherE E) = lin φ E := by
  simp [gatherE, lin_foldl_addTerm]

theorem lin_filter_zero (E : Expr R n) :
    lin φ (E.filter fun t => decide (t.1 ≠ 0 ∨ t.2 = .error)) = lin φ E := by
  induction E with
  | nil => simp
  | cons t E ih =>
    rw [List.filter_cons]
    split_ifs with h
    · rw [lin_cons, lin_cons, ih]
    · have : t.1 = 0 := by
        by_contra h0
        exact h (by simp [h0])
      rw [ih, lin_cons, this, zero_smul, zero_add]

@[simp] theorem lin_expand (E : Expr R n) : lin φ (expand E) = lin φ E := by
  rw [expand, lin_filter_zero, lin_gatherE]

@[simp] theorem lin_linearExpand (E : Expr R n) : lin φ (linearExpand E) = lin φ E := by
  rw [linearExpand]
  split
  · rename_i h
    rw [← lin_expand φ E, h]; simp
  · rw [lin_gatherE, lin_expand]

theorem lin_flatMap (E : Expr R n) (f : R × Sym n → Expr R n) (ψ : Sym n → M)
    (h : ∀ t ∈ E, lin φ (f t) = t.1 • ψ t.2) : lin φ (E.flatMap f) = lin ψ E := by
  induction E with
  | nil => simp
  | cons t E ih =>
    simp only [List.flatMap_cons, lin_append, lin_cons]
    rw [h t (by simp), ih (fun t ht => h t (by simp [ht]))]

theorem lin_congr (E : Expr R n) (ψ : Sym n → M) (h : ∀ t ∈ E, φ t.2 = ψ t.2) :
    lin φ E = lin ψ E := by
  induction E with
  | nil => simp
  | cons t E ih =>
    rw [lin_cons, lin_cons, h t (by simp), ih (fun t ht => h t (by simp [ht]))]

end lin

theorem map_lin {M N : Type*} [AddCommGroup M] [Module R M] [AddCommGroup N] [Module R N]
    (f : M →ₗ[R] N) (φ : Sym n → M) (E : Expr R n) : f (lin φ E) = lin (fun s => f (φ s)) E := by
  induction E with
  | nil => simp
  | cons t E ih => simp [ih]

/-- All symbols of `E` satisfy `P`. -/
def AllSyms (P : Sym n → Prop) (E : Expr R n) : Prop := ∀ t ∈ E, P t.2

section syms
variable {P Q : Sym n → Prop}

theorem AllSyms.mono {E : Expr R n} (h : AllSyms P E) (hPQ : ∀ s, P s → Q s) : AllSyms Q E :=
  fun t ht => hPQ _ (h t ht)

theorem allSyms_append {A B : Expr R n} : AllSyms P (A ++ B) ↔ AllSyms P A ∧ AllSyms P B := by
  simp only [AllSyms, List.mem_append, or_imp, forall_and]

@[simp] theorem allSyms_nil : AllSyms P ([] : Expr R n) := by simp [AllSyms]

@[simp] theorem allSyms_cons {t : R × Sym n} {E : Expr R n} :
    AllSyms P (t :: E) ↔ P t.2 ∧ AllSyms P E := by simp [AllSyms]

theorem AllSyms.addE {A B : Expr R n} (hA : AllSyms P A) (hB : AllSyms P B) :
    AllSyms P (addE A B) := allSyms_append.mpr ⟨hA, hB⟩

theorem AllSyms.smulE {A : Expr R n} (c : R) (hA : AllSyms P A) : AllSyms P (smulE c A) := by
  intro t ht
  obtain ⟨u, hu, rfl⟩ := List.mem_map.mp ht
  exact hA u hu

theorem AllSyms.negE {A : Expr R n} (hA : AllSyms P A) : AllSyms P (negE A) := by
  intro t ht
  obtain ⟨u, hu, rfl⟩ := List.mem_map.mp ht
  exact hA u hu

theorem AllSyms.subE {A B : Expr R n} (hA : AllSyms P A) (hB : AllSyms P B) :
    AllSyms P (subE A B) := hA.addE hB.negE

theorem allSyms_addTerm {E : Expr R n} {c : R} {s : Sym n} (hE : AllSyms P E) (hs : P s) :
    AllSyms P (addTerm E c s) := by
  induction E with
  | nil => simpa [addTerm] using hs
  | cons t E ih =>
    obtain ⟨c', s'⟩ := t
    rw [allSyms_cons] at hE
    simp only [addTerm]
    split_ifs with h
    · exact allSyms_cons.mpr ⟨hE.1, hE.2⟩
    · exact allSyms_cons.mpr ⟨hE.1, ih hE.2⟩

theorem AllSyms.foldl_addTerm {E acc : Expr R n} (hE : AllSyms P E) (ha : AllSyms P acc) :
    AllSyms P (E.foldl (fun acc t => addTerm acc t.1 t.2) acc) := by
  induction E generalizing acc with
  | nil => exact ha
  | cons t E ih =>
    rw [allSyms_cons] at hE
    exact ih hE.2 (allSyms_addTerm ha hE.1)

theorem AllSyms.gatherE {E : Expr R n} (hE : AllSyms P E) : AllSyms P (gatherE E) :=
  hE.foldl_addTerm allSyms_nil

theorem AllSyms.expand {E : Expr R n} (hE : AllSyms P E) : AllSyms P (expand E) :=
  fun t ht => hE.gatherE t (List.mem_of_mem_filter ht)

theorem AllSyms.linearExpand {E : Expr R n} (hE : AllSyms P E) (h1 : P (.blade [])) :
    AllSyms P (linearExpand E) := by
  rw [GA.linearExpand]
  split
  · simpa using h1
  · exact hE.expand.gatherE

theorem allSyms_flatMap {E : Expr R n} {f : R × Sym n → Expr R n}
    (h : ∀ t ∈ E, AllSyms P (f t)) : AllSyms P (E.flatMap f) := by
  intro t ht
  obtain ⟨u, hu, ht⟩ := List.mem_flatMap.mp ht
  exact h u hu t ht

/-- `update_and_substitute` only produces symbols that the table produces. -/
theorem allSyms_uas {P₁ P₂ : Sym n → Prop} {f : Sym n → Sym n → Expr R n} {A B : Expr R n}
    (hA : AllSyms P₁ A) (hB : AllSyms P₂ B) (h1 : P₁ (.blade [])) (h2 : P₂ (.blade []))
    (hf : ∀ s t, P₁ s → P₂ t → AllSyms Q (f s t)) : AllSyms Q (updateAndSubstitute f A B) := by
  refine allSyms_flatMap fun t₁ ht₁ => allSyms_flatMap fun t₂ ht₂ => ?_
  exact (hf _ _ (hA.linearExpand h1 t₁ ht₁) (hB.linearExpand h2 t₂ ht₂)).smulE _

/-- Bilinear extension of a table. -/
theorem lin_flatMap₂ {M₁ M₂ M : Type*} [AddCommGroup M] [Module R M] [AddCommGroup M₁]
    [Module R M₁] [AddCommGroup M₂] [Module R M₂]
    (φ : Sym n → M) (ψ₁ : Sym n → M₁) (ψ₂ : Sym n → M₂) (μ : M₁ →ₗ[R] M₂ →ₗ[R] M)
    {P₁ P₂ : Sym n → Prop} {f : Sym n → Sym n → Expr R n} {A B : Expr R n}
    (hA : AllSyms P₁ A) (hB : AllSyms P₂ B)
    (hf : ∀ s t, P₁ s → P₂ t → lin φ (f s t) = μ (ψ₁ s) (ψ₂ t)) :
    lin φ (A.flatMap fun t₁ => B.flatMap fun t₂ => smulE (t₁.1 * t₂.1) (f t₁.2 t₂.2)) =
      μ (lin ψ₁ A) (lin ψ₂ B) := by
  rw [lin_flatMap φ A _ (fun s => μ (ψ₁ s) (lin ψ₂ B))]
  · rw [← LinearMap.flip_apply, map_lin]; rfl
  · intro t₁ ht₁
    rw [lin_flatMap φ B _ (fun s => t₁.1 • μ (ψ₁ t₁.2) (ψ₂ s))]
    · rw [map_lin]; exact (map_lin (LinearMap.lsmul R M t₁.1) _ _).symm
    · intro t₂ ht₂
      rw [lin_smulE, hf _ _ (hA t₁ ht₁) (hB t₂ ht₂), mul_smul, smul_comm]

/-- `update_and_substitute` is the bilinear extension of its table. -/
theorem lin_uas {M₁ M₂ M : Type*} [AddCommGroup M] [Module R M] [AddCommGroup M₁] [Module R M₁]
    [AddCommGroup M₂] [Module R M₂]
    (φ : Sym n → M) (ψ₁ : Sym n → M₁) (ψ₂ : Sym n → M₂) (μ : M₁ →ₗ[R] M₂ →ₗ[R] M)
    {P₁ P₂ : Sym n → Prop} {f : Sym n → Sym n → Expr R n} {A B : Expr R n}
    (hA : AllSyms P₁ A) (hB : AllSyms P₂ B) (h1 : P₁ (.blade [])) (h2 : P₂ (.blade []))
    (hf : ∀ s t, P₁ s → P₂ t → lin φ (f s t) = μ (ψ₁ s) (ψ₂ t)) :
    lin φ (updateAndSubstitute f A B) = μ (lin ψ₁ A) (lin ψ₂ B) := by
  rw [← lin_linearExpand ψ₁ A, ← lin_linearExpand ψ₂ B]
  exact lin_flatMap₂ φ ψ₁ ψ₂ μ (hA.linearExpand h1) (hB.linearExpand h2) hf

end syms

/-! ### Classes of symbols -/

/-- The symbol of a basis blade. -/
def IsBl (s : Sym n) : Prop := ∃ l : List (Fin n), s = .blade l ∧ l.Pairwise (· < ·)

/-- The symbol of a basis blade or of a base. -/
def IsAny (s : Sym n) : Prop := IsBl s ∨ ∃ l : List (Fin n), s = mkBase l ∧ l.Pairwise (· < ·)

/-- The symbol of a base (base representation). -/
def IsBs (s : Sym n) : Prop := ∃ l : List (Fin n), s = mkBase l ∧ l.Pairwise (· < ·)

theorem valid_iff {A : Expr R n} : Valid A ↔ AllSyms IsBl A := Iff.rfl

theorem isBl_one : IsBl (Sym.blade ([] : List (Fin n))) := ⟨[], rfl, List.Pairwise.nil⟩
theorem isAny_one : IsAny (Sym.blade ([] : List (Fin n))) := Or.inl isBl_one
theorem isBs_one : IsBs (Sym.blade ([] : List (Fin n))) := ⟨[], rfl, List.Pairwise.nil⟩

theorem isBl_get {s : Sym n} (h : IsBl s) :
    ∃ l, (indexesToBlades n).inverse.get? s = some l ∧ s = .blade l ∧ l.Pairwise (· < ·) := by
  obtain ⟨l, rfl, hl⟩ := h
  exact ⟨l, (get?_bladesInv _ _).mpr ⟨hl, rfl⟩, rfl, hl⟩

theorem isBs_get {s : Sym n} (h : IsBs s) :
    ∃ l, (indexesToBases n).inverse.get? s = some l ∧ s = mkBase l ∧ l.Pairwise (· < ·) := by
  obtain ⟨l, rfl, hl⟩ := h
  exact ⟨l, (get?_basesInv _ _).mpr ⟨hl, rfl⟩, rfl, hl⟩

/-! ### Coefficients and denotation -/

theorem coeff_eq_lin (A : Expr R n) (l : List (Fin n)) :
    coeff A l = lin (fun s => if s = .blade l then (1 : R) else 0) A := by
  simp only [coeff, lin, smul_eq_mul, mul_ite, mul_one, mul_zero]

section den
variable [Invertible (2 : R)] (g : Matrix (Fin n) (Fin n) R)

theorem den_eq_lin (E : Expr R n) : den g E = lin (symDen g) E := rfl

@[simp] theorem den_nil : den g [] = 0 := rfl
@[simp] theorem den_addE (A B : Expr R n) : den g (addE A B) = den g A + den g B := lin_addE _ _ _
@[simp] theorem den_negE (A : Expr R n) : den g (negE A) = - den g A := lin_negE _ _
@[simp] theorem den_subE (A B : Expr R n) : den g (subE A B) = den g A - den g B := lin_subE _ _ _
@[simp] theorem den_smulE (c : R) (A : Expr R n) : den g (smulE c A) = c • den g A := lin_smulE _ _ _
@[simp] theorem den_expand (A : Expr R n) : den g (expand A) = den g A := lin_expand _ _
@[simp] theorem den_linearExpand (A : Expr R n) : den g (linearExpand A) = den g A :=
  lin_linearExpand _ _
@[simp] theorem den_scalarE (c : R) :
    den g (scalarE c : Expr R n) = algebraMap R (Spec.Cl g) c := by
  rw [den_eq_lin, lin_scalarE, symDen, Spec.blade_nil, Algebra.algebraMap_eq_smul_one]

theorem symDen_mkBase (l : List (Fin n)) : symDen g (mkBase l) = Spec.base g l := by
  rw [mkBase]
  split_ifs with h
  · match l, h with
    | [], _ => simp [symDen, Spec.blade_nil, Spec.base_nil]
    | [i], _ => simp [symDen, Spec.blade_singleton, Spec.base]
  · rfl

/-- Every strictly increasing list is the sorted list of its elements. -/
theorem sort_toFinset {l : List (Fin n)} (hl : l.Pairwise (· < ·)) :
    l.toFinset.sort (· ≤ ·) = l := by
  have hnd : l.Nodup := nodup_of_lt hl
  refine List.Perm.eq_of_pairwise (le := (· ≤ ·)) (fun a b _ _ h1 h2 => le_antisymm h1 h2)
    (Finset.pairwise_sort _ _) (hl.imp le_of_lt) ?_
  rw [List.perm_ext_iff_of_nodup (Finset.sort_nodup _ _) hnd]
  simp

theorem sort_lt (s : Finset (Fin n)) : (s.sort (· ≤ ·)).Pairwise (· < ·) :=
  (Finset.sortedLT_sort s).pairwise

/-- A valid expression is determined by its coefficients. -/
theorem toExt_den {A : Expr R n} (hA : Valid A) (s : Finset (Fin n)) :
    (Pi.basisFun R (Fin n)).ExteriorAlgebra.repr (Spec.toExt g (den g A)) s =
      coeff A (s.sort (· ≤ ·)) := by
  rw [coeff_eq_lin, den_eq_lin]
  have h : ∀ (x : Spec.Cl g), (Pi.basisFun R (Fin n)).ExteriorAlgebra.repr (Spec.toExt g x) s =
    ((Finsupp.lapply s ∘ₗ (Pi.basisFun R (Fin n)).ExteriorAlgebra.repr.toLinearMap) ∘ₗ
      (Spec.toExt g).toLinearMap) x := fun x => rfl
  rw [h, map_lin]
  refine lin_congr _ _ _ fun t ht => ?_
  obtain ⟨l, hl, hlt⟩ := hA t ht
  rw [← h, hl, symDen, Spec.toExt_blade, ← sort_toFinset hlt, ← Spec.extBasis_apply,
    Module.Basis.repr_self, Finsupp.single_apply]
  rw [sort_toFinset hlt]
  congr 1
  rw [eq_iff_iff]
  constructor
  · rintro rfl; rw [sort_toFinset hlt]
  · intro h; injection h with h; rw [h]; simp

theorem den_eq_iff {A B : Expr R n} (hA : Valid A) (hB : Valid B) :
    den g A = den g B ↔ ∀ l : List (Fin n), l.Pairwise (· < ·) → coeff A l = coeff B l := by
  constructor
  · intro h l hl
    rw [← sort_toFinset hl, ← toExt_den g hA, ← toExt_den g hB, h]
  · intro h
    apply (Spec.toExt g).injective
    apply (Pi.basisFun R (Fin n)).ExteriorAlgebra.repr.injective
    ext s
    rw [toExt_den g hA, toExt_den g hB]
    exact h _ (sort_lt s)

theorem coeff_of_not_lt {A : Expr R n} (hA : Valid A) {l : List (Fin n)}
    (hl : ¬ l.Pairwise (· < ·)) : coeff A l = 0 := by
  rw [coeff_eq_lin, lin_congr _ A (fun _ => (0 : R))]
  · induction A with
    | nil => rfl
    | cons t A ih =>
      rw [lin_cons, smul_zero, zero_add]
      exact ih fun t ht => hA t (by simp [ht])
  · intro t ht
    obtain ⟨m, hm, hmt⟩ := hA t ht
    rw [if_neg]
    intro h
    rw [hm] at h
    injection h with h
    exact hl (h ▸ hmt)

theorem den_eq_iff' {A B : Expr R n} (hA : Valid A) (hB : Valid B) :
    den g A = den g B ↔ coeff A = coeff B := by
  rw [den_eq_iff g hA hB]
  constructor
  · intro h; funext l
    by_cases hl : l.Pairwise (· < ·)
    · exact h l hl
    · rw [coeff_of_not_lt hA hl, coeff_of_not_lt hB hl]
  · intro h l _; rw [h]

end den

/-! ### Orthogonality test -/

theorem isOrtho_iff (g : Matrix (Fin n) (Fin n) R) :
    isOrtho g = true ↔ ∀ i j : Fin n, i < j → g i j = 0 := by
  simp only [isOrtho, List.all_eq_true, List.mem_finRange, forall_const, Bool.or_eq_true,
    Bool.not_eq_true', decide_eq_false_iff_not, decide_eq_true_eq]
  constructor
  · intro h i j hij; exact (h i j).resolve_left (fun h => h hij)
  · intro h i j
    by_cases hij : i < j
    · exact Or.inr (h i j hij)
    · exact Or.inl hij

theorem isOrtho_symm {g : Matrix (Fin n) (Fin n) R} (hs : g.IsSymm) (h : isOrtho g = true) :
    ∀ i j, i ≠ j → g i j = 0 := by
  intro i j hij
  rcases lt_or_gt_of_ne hij with h1 | h1
  · exact (isOrtho_iff g).mp h i j h1
  · rw [← hs.apply]; exact (isOrtho_iff g).mp h j i h1

end GA
