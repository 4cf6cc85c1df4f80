import Verif.Proofs.OrthoBasis
import Mathlib.Algebra.QuadraticAlgebra.Basic
import Mathlib.LinearAlgebra.Matrix.Kronecker
import Mathlib.LinearAlgebra.Matrix.Trace

/-! A faithful matrix representation of every Clifford algebra, of size `2 ^ ((n + 1) / 2)`, over a
commutative extension of the coefficients, whose trace is a multiple of the scalar part. -/

set_option linter.unusedSectionVars false

open Matrix

namespace Gamma

/-! ### Anticommuting integer matrices -/

/-- `M 0, …, M (k - 1)` anticommute and square to `η 0, …, η (k - 1) = ±1`. -/
structure Anti {ι : Type*} [Fintype ι] [DecidableEq ι] (k : ℕ) (η : ℕ → ℤ)
    (M : ℕ → Matrix ι ι ℤ) : Prop where
  unit : ∀ i < k, η i * η i = 1
  sq : ∀ i < k, M i * M i = η i • (1 : Matrix ι ι ℤ)
  anti : ∀ i < k, ∀ j < k, i ≠ j → M i * M j = -(M j * M i)

def s1 : Matrix (Fin 2) (Fin 2) ℤ := !![0, 1; 1, 0]
def s2 : Matrix (Fin 2) (Fin 2) ℤ := !![1, 0; 0, -1]
def s3 : Matrix (Fin 2) (Fin 2) ℤ := !![0, -1; 1, 0]

open Kronecker in
theorem exists_anti (m : ℕ) : ∃ (ι : Type) (_ : Fintype ι) (_ : DecidableEq ι) (η : ℕ → ℤ)
    (M : ℕ → Matrix ι ι ℤ), Fintype.card ι = 2 ^ m ∧ Anti (2 * m) η M := by
  induction m with
  | zero => exact ⟨Unit, inferInstance, inferInstance, fun _ => 1, fun _ => 1, by simp, by
      constructor <;> intros <;> omega⟩
  | succ m ih =>
    obtain ⟨ι, _, _, η, M, hc, hA⟩ := ih
    let M' : ℕ → Matrix (ι × Fin 2) (ι × Fin 2) ℤ := fun
      | 0 => (1 : Matrix ι ι ℤ) ⊗ₖ s1
      | 1 => (1 : Matrix ι ι ℤ) ⊗ₖ s2
      | i + 2 => M i ⊗ₖ s3
    let η' : ℕ → ℤ := fun | 0 => 1 | 1 => 1 | i + 2 => -η i
    refine ⟨ι × Fin 2, inferInstance, inferInstance, η', M', ?_, ?_, ?_, ?_⟩
    · rw [Fintype.card_prod, hc]; simp [pow_succ]
    · rintro (_ | _ | i) hi
      · rfl
      · rfl
      · have := hA.unit i (by omega)
        change -η i * -η i = 1
        linarith
    · have h11 : s1 * s1 = 1 := by decide
      have h22 : s2 * s2 = 1 := by decide
      have h33 : s3 * s3 = -1 := by decide
      rintro (_ | _ | i) hi
      · change (1 : Matrix ι ι ℤ) ⊗ₖ s1 * (1 : Matrix ι ι ℤ) ⊗ₖ s1 = (1 : ℤ) • 1
        rw [← mul_kronecker_mul, h11, one_mul, one_kronecker_one, one_smul]
      · change (1 : Matrix ι ι ℤ) ⊗ₖ s2 * (1 : Matrix ι ι ℤ) ⊗ₖ s2 = (1 : ℤ) • 1
        rw [← mul_kronecker_mul, h22, one_mul, one_kronecker_one, one_smul]
      · change M i ⊗ₖ s3 * M i ⊗ₖ s3 = (-η i) • 1
        rw [← mul_kronecker_mul, hA.sq i (by omega), h33, ← neg_one_smul ℤ (1 : Matrix (Fin 2) (Fin 2) ℤ),
          smul_kronecker, kronecker_smul, one_kronecker_one, smul_smul]
        congr 1; ring
    · have h12 : s1 * s2 = -(s2 * s1) := by decide
      have h13 : s1 * s3 = -(s3 * s1) := by decide
      have h23 : s2 * s3 = -(s3 * s2) := by decide
      have h33 : s3 * s3 = -1 := by decide
      have hneg : ∀ (A : Matrix ι ι ℤ) (B : Matrix (Fin 2) (Fin 2) ℤ), A ⊗ₖ (-B) = -(A ⊗ₖ B) := by
        intro A B; ext; simp [kroneckerMap_apply]
      have hneg' : ∀ (A : Matrix ι ι ℤ) (B : Matrix (Fin 2) (Fin 2) ℤ), (-A) ⊗ₖ B = -(A ⊗ₖ B) := by
        intro A B; ext; simp [kroneckerMap_apply]
      have key : ∀ i < 2 * (m + 1), ∀ j < 2 * (m + 1), i < j → M' i * M' j = -(M' j * M' i) := by
        rintro (_ | _ | i) hi (_ | _ | j) hj hij
        · omega
        · change (1 : Matrix ι ι ℤ) ⊗ₖ s1 * (1 : Matrix ι ι ℤ) ⊗ₖ s2 = -((1 : Matrix ι ι ℤ) ⊗ₖ s2 * (1 : Matrix ι ι ℤ) ⊗ₖ s1)
          rw [← mul_kronecker_mul, ← mul_kronecker_mul, h12, hneg]
        · change (1 : Matrix ι ι ℤ) ⊗ₖ s1 * M j ⊗ₖ s3 = -(M j ⊗ₖ s3 * (1 : Matrix ι ι ℤ) ⊗ₖ s1)
          rw [← mul_kronecker_mul, ← mul_kronecker_mul, h13, hneg, one_mul, mul_one]
        · omega
        · omega
        · change (1 : Matrix ι ι ℤ) ⊗ₖ s2 * M j ⊗ₖ s3 = -(M j ⊗ₖ s3 * (1 : Matrix ι ι ℤ) ⊗ₖ s2)
          rw [← mul_kronecker_mul, ← mul_kronecker_mul, h23, hneg, one_mul, mul_one]
        · omega
        · omega
        · change M i ⊗ₖ s3 * M j ⊗ₖ s3 = -(M j ⊗ₖ s3 * M i ⊗ₖ s3)
          rw [← mul_kronecker_mul, ← mul_kronecker_mul, hA.anti i (by omega) j (by omega) (by omega),
            hneg']
      intro i hi j hj hij
      rcases Nat.lt_or_gt_of_ne hij with h | h
      · exact key i hi j hj h
      · rw [key j hj i hi h, neg_neg]

section trace
variable {ι : Type*} [Fintype ι] [DecidableEq ι] {k : ℕ} {η : ℕ → ℤ} {M : ℕ → Matrix ι ι ℤ}

theorem Anti.comm_prod (hA : Anti k η M) {i : ℕ} (hi : i < k) {l : List ℕ} (hl : ∀ j ∈ l, j < k)
    (hil : i ∉ l) : M i * (l.map M).prod = (-1 : ℤ) ^ l.length • ((l.map M).prod * M i) := by
  induction l with
  | nil => simp
  | cons j l ih =>
    simp only [List.mem_cons, not_or, forall_eq_or_imp] at hl hil
    rw [List.map_cons, List.prod_cons, ← mul_assoc, hA.anti i hi j hl.1 hil.1, neg_mul, mul_assoc,
      ih hl.2 hil.2, List.length_cons, pow_succ, mul_neg_one, neg_smul, mul_smul_comm, mul_assoc]

theorem Anti.trace_eq_zero {m : ℕ} (hA : Anti (2 * m) η M) {l : List ℕ} (hl : ∀ j ∈ l, j < 2 * m)
    (hn : l.Nodup) (hne : l ≠ []) : ((l.map M).prod).trace = 0 := by
  rcases Nat.even_or_odd l.length with he | ho
  · cases l with
    | nil => exact absurd rfl hne
    | cons i l =>
      have hi := hl i (by simp)
      have hc := hA.comm_prod hi (l := l) (fun j hj => hl j (by simp [hj])) (List.nodup_cons.mp hn).1
      have ho : Odd l.length := by
        rw [List.length_cons] at he
        exact Nat.not_even_iff_odd.mp fun h => (Nat.not_even_iff_odd.mpr h.add_one) he
      rw [ho.neg_one_pow, neg_one_smul] at hc
      rw [List.map_cons, List.prod_cons]
      have h2 := congrArg trace hc
      rw [trace_neg, trace_mul_comm (l.map M).prod] at h2
      omega
  · obtain ⟨i, hi, hil⟩ : ∃ i < 2 * m, i ∉ l := by
      by_contra hcon
      push Not at hcon
      have h1 : l.toFinset = Finset.range (2 * m) := by
        ext j
        rw [List.mem_toFinset, Finset.mem_range]
        exact ⟨hl j, hcon j⟩
      have h2 := List.toFinset_card_of_nodup hn
      rw [h1, Finset.card_range] at h2
      rw [← h2] at ho
      exact (Nat.not_even_iff_odd.mpr ho) (even_two_mul m)
    have hc := hA.comm_prod hi hl hil
    rw [ho.neg_one_pow, neg_one_smul] at hc
    have h2 := congrArg (fun X => (M i * X).trace) hc
    simp only [mul_neg, trace_neg] at h2
    rw [trace_mul_comm (M i) ((l.map M).prod * M i), mul_assoc, trace_mul_comm _ (M i * M i),
      ← mul_assoc, hA.sq i hi, smul_mul_assoc, one_mul, trace_smul, smul_eq_mul] at h2
    have h3 : η i * ((l.map M).prod).trace = 0 := by omega
    have h4 : η i ≠ 0 := by
      intro h0
      have := hA.unit i hi
      rw [h0] at this
      omega
    exact (mul_eq_zero.mp h3).resolve_left h4

end trace

/-! ### Adjoining square roots -/

universe u
theorem exists_roots (K : Type u) [CommRing K] (h : ℕ → K) (n : ℕ) :
    ∃ (S : Type u) (_ : CommRing S) (_ : Algebra K S) (r : ℕ → S),
      (∀ i < n, r i * r i = algebraMap K S (h i)) ∧
      ∀ J ⊆ Finset.range n, ∀ a : K, algebraMap K S a * ∏ i ∈ J, r i = 0 → a = 0 := by
  induction n with
  | zero => exact ⟨K, inferInstance, inferInstance, fun _ => 1, by simp, by simp⟩
  | succ n ih =>
    obtain ⟨S, _, _, r, hr, hJ⟩ := ih
    let S' := QuadraticAlgebra S (algebraMap K S (h n)) 0
    let r' : ℕ → S' := fun i => if i = n then QuadraticAlgebra.omega else algebraMap S S' (r i)
    refine ⟨S', inferInstance, inferInstance, r', ?_, ?_⟩
    · intro i hi
      by_cases hin : i = n
      · subst hin
        simp only [r', if_pos]
        rw [QuadraticAlgebra.omega_mul_omega_eq_mk]
        rfl
      · simp only [r', if_neg hin]
        rw [← map_mul, hr i (by omega)]
        rfl
    · intro J hJn a ha
      have hprod : ∀ J ⊆ Finset.range n, ∏ i ∈ J, r' i = algebraMap S S' (∏ i ∈ J, r i) := by
        intro J hJ
        rw [map_prod]
        refine Finset.prod_congr rfl fun i hi => ?_
        have := Finset.mem_range.mp (hJ hi)
        simp only [r', if_neg (show i ≠ n by omega)]
      have ham : algebraMap K S' a = algebraMap S S' (algebraMap K S a) := rfl
      by_cases hn : n ∈ J
      · have hsub : J.erase n ⊆ Finset.range n := by
          intro i hi
          have h1 := Finset.mem_range.mp (hJn (Finset.mem_of_mem_erase hi))
          have h2 := Finset.ne_of_mem_erase hi
          rw [Finset.mem_range]; omega
        rw [← Finset.mul_prod_erase _ _ hn, hprod _ hsub, ham] at ha
        apply hJ _ hsub
        have h1 := congrArg QuadraticAlgebra.im ha
        simpa [r', S', -map_prod] using h1
      · have hsub : J ⊆ Finset.range n := by
          intro i hi
          have h1 := Finset.mem_range.mp (hJn hi)
          have h2 : i ≠ n := fun h => hn (h ▸ hi)
          rw [Finset.mem_range]; omega
        rw [hprod _ hsub, ham, ← map_mul] at ha
        apply hJ _ hsub
        have h1 := congrArg QuadraticAlgebra.re ha
        exact h1

/-! ### The representation -/

section rep
open Spec GA CliffordAlgebra
variable {n : ℕ} {K : Type u} [Field K] [Invertible (2 : K)] {g : Matrix (Fin n) (Fin n) K}
  {b : Module.Basis (Fin n) K (Fin n → K)}

theorem con_prod {v : Fin n → K} {l : List (Fin n)} (h : ∀ i ∈ l, ip g v (b i) = 0) :
    con g v (l.map fun i => vec g (b i)).prod = 0 := by
  induction l with
  | nil => simp
  | cons i l ih =>
    rw [List.map_cons, List.prod_cons, con_vec_mul, ih fun j hj => h j (by simp [hj]), mul_zero,
      sub_zero]
    have := h i (by simp)
    rw [ip] at this
    rw [this, zero_smul]

theorem bBlade_eq_prod (ho : ∀ i j, i ≠ j → ip g (b i) (b j) = 0) (s : Finset (Fin n)) :
    bBlade g b s = ((s.sort (· ≤ ·)).map fun i => vec g (b i)).prod := by
  have key : ∀ l : List (Fin n), l.Nodup →
      wedgeL g (l.map b) = (l.map fun i => vec g (b i)).prod := by
    intro l hl
    induction l with
    | nil => simp
    | cons i l ih =>
      rw [List.nodup_cons] at hl
      rw [List.map_cons, wedgeL_cons, ih hl.2, wedge_vec, con_prod, sub_zero, List.map_cons,
        List.prod_cons]
      intro j hj
      exact ho i j fun h => hl.1 (h ▸ hj)
  exact key _ (Finset.sort_nodup _ _)

variable {ι : Type*} [Fintype ι] [DecidableEq ι] {m : ℕ} {η : ℕ → ℤ} {M : ℕ → Matrix ι ι ℤ}

theorem exists_rep (ho : ∀ i j, i ≠ j → ip g (b i) (b j) = 0) (hA : Anti (2 * m) η M)
    (hn : n ≤ 2 * m) {S : Type*} [CommRing S] [Algebra K S] (r : ℕ → S)
    (hr : ∀ i : Fin n, r i * r i = algebraMap K S (η i * ip g (b i) (b i))) :
    ∃ ρ : Cl g →ₐ[K] Matrix ι ι S, ∀ s : Finset (Fin n), ρ (bBlade g b s) =
      (∏ i ∈ s, r i) •
        (Int.castRingHom S).mapMatrix (((s.sort (· ≤ ·)).map fun i : Fin n => M (i : ℕ)).prod) := by
  set φ := (Int.castRingHom S).mapMatrix (m := ι) with hφ
  have hφs : ∀ (z : ℤ) (X : Matrix ι ι ℤ), φ (z • X) = (z : S) • φ X := by
    intro z X; ext i j
    simp only [hφ, RingHom.mapMatrix_apply, Matrix.map_apply, Matrix.smul_apply, smul_eq_mul, map_mul,
      eq_intCast]
  let G : Fin n → Matrix ι ι S := fun i => r i • φ (M i)
  have hG : ∀ i j, G i * G j + G j * G i = algebraMap K _ (2 * ip g (b i) (b j)) := by
    intro i j
    have hi : (i : ℕ) < 2 * m := by omega
    have hj : (j : ℕ) < 2 * m := by omega
    by_cases hij : i = j
    · subst hij
      have : G i * G i = algebraMap K (Matrix ι ι S) (ip g (b i) (b i)) := by
        simp only [G, smul_mul_smul_comm, ← map_mul φ, hA.sq i hi, hφs, map_one, hr, smul_smul]
        rw [Algebra.algebraMap_eq_smul_one (A := Matrix ι ι S), ← algebraMap_smul S (ip g (b i) (b i))]
        congr 1
        rw [← map_intCast (algebraMap K S), ← map_mul]
        congr 1
        have h1 : ((η i : ℤ) : K) * ((η i : ℤ) : K) = 1 := by
          rw [← Int.cast_mul, hA.unit i hi, Int.cast_one]
        linear_combination ip g (b i) (b i) * h1
      rw [this, ← map_add, two_mul]
    · rw [ho i j hij, mul_zero, map_zero]
      have hne : (i : ℕ) ≠ j := fun h => hij (Fin.ext h)
      simp only [G, smul_mul_smul_comm, ← map_mul φ]
      rw [hA.anti i hi j hj hne, map_neg, mul_comm (r j), smul_neg, neg_add_cancel]
  let f : (Fin n → K) →ₗ[K] Matrix ι ι S := b.constr K G
  have hf : ∀ v, f v * f v = algebraMap K _ (Q g v) := by
    intro v
    apply two_cancel (R := K)
    have e1 : f v = ∑ i, b.repr v i • G i := by
      rw [show f v = b.constr K G v from rfl, Module.Basis.constr_apply_fintype]; rfl
    have e2 : (2 : K) • (f v * f v) =
        ∑ i, ∑ j, (b.repr v i * b.repr v j) • (G i * G j + G j * G i) := by
      simp only [smul_add, Finset.sum_add_distrib]
      rw [two_smul]
      congr 1
      · rw [e1, Finset.sum_mul_sum]
        exact Finset.sum_congr rfl fun i _ => Finset.sum_congr rfl fun j _ => smul_mul_smul_comm ..
      · rw [e1, Finset.sum_mul_sum, Finset.sum_comm]
        refine Finset.sum_congr rfl fun i _ => Finset.sum_congr rfl fun j _ => ?_
        rw [smul_mul_smul_comm, mul_comm (b.repr v j)]
    have e3 : Q g v = ∑ i, ∑ j, (b.repr v i * b.repr v j) * ip g (b i) (b j) := by
      have : Q g v = ip g v v := (QuadraticMap.associated_eq_self_apply K (Q g) v).symm
      rw [this]
      conv_lhs => rw [← b.sum_repr v]
      simp only [ip, map_sum, LinearMap.sum_apply, map_smul, LinearMap.smul_apply, smul_eq_mul,
        Finset.mul_sum]
      rw [Finset.sum_comm]
      refine Finset.sum_congr rfl fun i _ => Finset.sum_congr rfl fun j _ => by ring
    rw [e2, e3, Algebra.smul_def, ← map_mul, Finset.mul_sum, map_sum]
    refine Finset.sum_congr rfl fun i _ => ?_
    rw [Finset.mul_sum, map_sum]
    refine Finset.sum_congr rfl fun j _ => ?_
    rw [hG, Algebra.smul_def, ← map_mul]
    congr 1; ring
  refine ⟨CliffordAlgebra.lift (Q g) ⟨f, hf⟩, fun s => ?_⟩
  have hv : ∀ i, CliffordAlgebra.lift (Q g) ⟨f, hf⟩ (vec g (b i)) = G i := by
    intro i
    rw [vec, CliffordAlgebra.lift_ι_apply]
    exact b.constr_basis K G i
  rw [bBlade_eq_prod ho, map_list_prod, List.map_map]
  have key : ∀ l : List (Fin n), (l.map (⇑(CliffordAlgebra.lift (Q g) ⟨f, hf⟩) ∘ fun i =>
      vec g (b i))).prod = (l.map fun i : Fin n => r (i : ℕ)).prod • φ (l.map fun i : Fin n => M (i : ℕ)).prod := by
    intro l
    induction l with
    | nil => simp
    | cons i l ih =>
      rw [List.map_cons, List.prod_cons, ih, Function.comp_apply, hv, List.map_cons, List.prod_cons,
        List.map_cons, List.prod_cons, map_mul, smul_mul_smul_comm]
  rw [key]
  congr 1
  rw [← Finset.prod_map_toList]
  exact ((Finset.sort_perm_toList s (· ≤ ·)).map _).prod_eq

variable (m) in
theorem trace_rep (hA : Anti (2 * m) η M) (hn : n ≤ 2 * m)
    {S : Type*} [CommRing S] [Algebra K S] {r : ℕ → S} {ρ : Cl g →ₐ[K] Matrix ι ι S}
    (hρ : ∀ s : Finset (Fin n), ρ (bBlade g b s) = (∏ i ∈ s, r i) •
        (Int.castRingHom S).mapMatrix (((s.sort (· ≤ ·)).map fun i : Fin n => M (i : ℕ)).prod))
    {x : Cl g} {c : K} (hc : grade g 0 x = algebraMap K _ c) :
    (ρ x).trace = algebraMap K S c * Fintype.card ι := by
  classical
  have ht : ∀ s : Finset (Fin n), ((Int.castRingHom S).mapMatrix
      (((s.sort (· ≤ ·)).map fun i : Fin n => M (i : ℕ)).prod)).trace =
      if s = ∅ then (Fintype.card ι : S) else 0 := by
    intro s
    split_ifs with h
    · subst h; simp
    · have h1 := hA.trace_eq_zero (l := (s.sort (· ≤ ·)).map fun i : Fin n => (i : ℕ)) (by
        simp only [List.mem_map, forall_exists_index, and_imp]
        rintro _ i _ rfl
        omega) ((Finset.sort_nodup _ _).map Fin.val_injective) (by
        intro h0
        rw [List.map_eq_nil_iff] at h0
        apply h
        rw [← Finset.card_eq_zero, ← Finset.length_sort (· ≤ ·), h0, List.length_nil])
      rw [List.map_map] at h1
      have h2 : ∀ X : Matrix ι ι ℤ, ((Int.castRingHom S).mapMatrix X).trace = (X.trace : S) := by
        intro X; simp [Matrix.trace]
      rw [h2]
      have h3 : (M ∘ fun i : Fin n => (i : ℕ)) = fun i : Fin n => M i := rfl
      rw [h3] at h1
      rw [h1, Int.cast_zero]
  have hx := eq_sum_bBlade b x
  set a := fun s => b.ExteriorAlgebra.repr (toExt g x) s with ha
  have h0 : c = a ∅ := by
    apply algebraMap_inj g
    rw [← hc, hx, map_sum, Finset.sum_eq_single ∅]
    · have : bBlade g b ∅ = 1 := by simp [bBlade]
      rw [this, map_smul, ← map_one (algebraMap K (Cl g)), (homogeneous_algebraMap 1).grade_eq,
        map_one, Algebra.algebraMap_eq_smul_one]
    · intro s _ hs
      rw [map_smul, homogeneous_bBlade b s 0 (by rw [ne_comm, Finset.card_ne_zero]; exact Finset.nonempty_iff_ne_empty.mpr hs), smul_zero]
    · intro h; exact absurd (Finset.mem_univ _) h
  conv_lhs => rw [hx]
  rw [map_sum, trace_sum, Finset.sum_eq_single ∅]
  · rw [map_smul, trace_smul, hρ, trace_smul, ht, if_pos rfl, h0]
    simp [Algebra.smul_def, ha]
  · intro s _ hs
    rw [map_smul, trace_smul, hρ, trace_smul, ht, if_neg hs, smul_zero, smul_zero]
  · intro h; exact absurd (Finset.mem_univ _) h

/-- The faithful representation. -/
theorem exists_faithful (g : Matrix (Fin n) (Fin n) K) [CharZero K] :
    ∃ (S : Type u) (_ : CommRing S) (_ : Algebra K S) (ι : Type) (_ : Fintype ι)
      (_ : DecidableEq ι) (ρ : Cl g →ₐ[K] Matrix ι ι S),
      Function.Injective (algebraMap K S) ∧ Fintype.card ι = 2 ^ ((n + 1) / 2) ∧
      Function.Injective ρ ∧
      ∀ (x : Cl g) (c : K), grade g 0 x = algebraMap K _ c →
        (ρ x).trace = algebraMap K S c * Fintype.card ι := by
  classical
  obtain ⟨b, ho⟩ := exists_ortho g
  obtain ⟨ι, _, _, η, M, hcard, hA⟩ := exists_anti ((n + 1) / 2)
  have hn : n ≤ 2 * ((n + 1) / 2) := by omega
  obtain ⟨S, _, _, r, hr, hJ⟩ := exists_roots K
    (fun i => if h : i < n then η i * ip g (b ⟨i, h⟩) (b ⟨i, h⟩) else 0) n
  obtain ⟨ρ, hρ⟩ := exists_rep ho hA hn r fun i => by
    rw [hr i i.isLt, dif_pos i.isLt]
  have hinj : Function.Injective (algebraMap K S) := by
    rw [injective_iff_map_eq_zero]
    intro a ha
    exact hJ ∅ (by simp) a (by simp [ha])
  refine ⟨S, _, _, ι, _, _, ρ, hinj, hcard, ?_, fun x c hc => trace_rep _ hA hn hρ hc⟩
  -- a second representation, of the algebra whose basis vectors square to `η i`
  let D : Matrix (Fin n) (Fin n) K := Matrix.diagonal fun i => (η i : K)
  let e := Pi.basisFun K (Fin n)
  have hip : ∀ i j, ip D (e i) (e j) = D i j := by
    intro i j
    rw [ip, associated_vec (Matrix.isSymm_diagonal _)]
    simp only [e, Pi.basisFun_apply, Pi.single_apply]
    simp
    rfl
  have hDD : ∀ i, D i i = (η i : K) := fun i => Matrix.diagonal_apply_eq _ i
  have hoD : ∀ i j, i ≠ j → ip D (e i) (e j) = 0 := fun i j h => by
    rw [hip]; exact Matrix.diagonal_apply_ne _ h
  obtain ⟨σ, hσ⟩ := exists_rep (b := e) (S := K) hoD hA hn (fun _ => 1) fun i => by
    rw [hip, hDD, ← Int.cast_mul, hA.unit i (by omega)]; simp
  have hpair : ∀ s t : Finset (Fin n), (σ (reverse (bBlade D e s)) * σ (bBlade D e t)).trace =
      if s = t then (∏ i ∈ s, (η i : K)) * Fintype.card ι else 0 := by
    intro s t
    have h1 := bBlade_pair hoD s t
    split_ifs with hst
    · rw [if_pos hst] at h1
      rw [← map_mul, trace_rep _ hA hn (r := fun _ => 1) hσ h1]
      congr 1
      refine Finset.prod_congr rfl fun i _ => ?_
      rw [hip, hDD]
    · rw [if_neg hst, ← map_zero (algebraMap K (Cl D))] at h1
      rw [← map_mul, trace_rep _ hA hn (r := fun _ => 1) hσ h1, map_zero, zero_mul]
  rw [injective_iff_map_eq_zero]
  intro x hx0
  have hx := eq_sum_bBlade b x
  set a := fun s => b.ExteriorAlgebra.repr (toExt g x) s with ha
  have hlift : ∀ s, ρ (bBlade g b s) =
      (∏ i ∈ s, r i) • (algebraMap K S).mapMatrix (σ (bBlade D e s)) := by
    intro s
    rw [hρ, hσ, Finset.prod_const_one, one_smul]
    congr 1
    ext p q
    simp
  have hcoef : ∀ t, a t = 0 := by
    intro t
    have h1 := congrArg (fun X => ((algebraMap K S).mapMatrix (σ (reverse (bBlade D e t))) * X).trace)
      hx0
    simp only [mul_zero, trace_zero] at h1
    rw [hx, map_sum, Finset.mul_sum, trace_sum, Finset.sum_eq_single t] at h1
    · rw [map_smul, hlift, mul_smul_comm, mul_smul_comm, ← map_mul, trace_smul, trace_smul] at h1
      have h2 : ∀ X : Matrix ι ι K, ((algebraMap K S).mapMatrix X).trace = algebraMap K S X.trace := by
        intro X; simp [Matrix.trace]
      rw [h2, hpair, if_pos rfl] at h1
      set u : K := (∏ i ∈ t, (η i : K)) * Fintype.card ι with hu
      have hu0 : u ≠ 0 := by
        rw [hu, hcard]
        refine mul_ne_zero (Finset.prod_ne_zero_iff.mpr fun i _ h0 => ?_) (by simp)
        have h3 := hA.unit i (by omega)
        rw [Int.cast_eq_zero] at h0
        rw [h0] at h3
        omega
      have h4 := hJ (t.map Fin.valEmbedding) (by
        intro i hi
        simp only [Finset.mem_map, Fin.valEmbedding_apply] at hi
        obtain ⟨j, -, rfl⟩ := hi
        simp) (a t * u) (by
          rw [Finset.prod_map, map_mul]
          rw [Algebra.smul_def, smul_eq_mul] at h1
          rw [← h1]
          simp only [Fin.valEmbedding_apply]
          ring)
      exact (mul_eq_zero.mp h4).resolve_right hu0
    · intro s _ hs
      have h2 : ∀ X : Matrix ι ι K, ((algebraMap K S).mapMatrix X).trace = algebraMap K S X.trace := by
        intro X; simp [Matrix.trace]
      rw [map_smul, hlift, mul_smul_comm, mul_smul_comm, ← map_mul, trace_smul, trace_smul, h2, hpair,
        if_neg (Ne.symm hs), map_zero, smul_zero, smul_zero]
    · intro h; exact absurd (Finset.mem_univ _) h
  rw [hx]
  exact Finset.sum_eq_zero fun s _ => by
    have := hcoef s
    simp only [ha] at this
    rw [this, zero_smul]

end rep

end Gamma
