import Verif.Props.C64Cderiv

/-!
# C64: the covariant derivative with basis vectors that are not orthogonal

The product rule fails there.  `C64_cderiv_factor` is the exact value of a call for every tensor field, metric
and connection, and `C64_nonorthogonal_counterexample` a constant metric and a field for which it is wrong.
-/

set_option linter.unusedSectionVars false
set_option maxRecDepth 10000

namespace GA
open MvPolynomial
variable {n : ℕ} {K : Type*} [Field K] [DecidableEq K] [Invertible (2 : K)]

/-- C64, the exact value of the covariant derivative in algebras without `norm=True`: with `E² = 1` for
orthogonal basis vectors and the square `E²` of the pseudoscalar otherwise, the derivative of the components is
multiplied by `E²` to the power `r + 1`, and the part that comes from the connection once more by
`E²` to the power `r`. -/
theorem C64_cderiv_factor {g : Matrix (Fin n) (Fin n) K} (hs : g.IsSymm)
    (D : Fin n → Derivation ℤ K K) {vecs rb : List (Mv K n)} (hl : gradVecs g none = some vecs)
    (hrb : rBasisMv g = some rb) {conn : Option (Fin n → Fin n → Expr K n)}
    {Γ : Fin n → Matrix (Fin n) (Fin n) K} (hc : IsConnection g conn Γ) {T : Mlt K n} {r : ℕ}
    {comp : (Fin r → Fin n) → K} (hT : T.IsTensor g comp) (hf : T.f = none) (slots : ℕ) {slots' : ℕ}
    (hsl : r + 1 ≤ slots') (v : ℕ → Fin n → K) (e : K) (he : e = if isOrtho g then 1 else eSq g) :
    (T.cderiv (fun i => D i) g conn vecs rb slots).call g rb slots' (vecArgs (r + 1) v) =
      C (e ^ (r + 1) * (∑ k, v r k * tensorValue (fun I => D k (comp I)) v -
        e ^ r * ∑ i : Fin r, tensorValue comp (Function.update v i.1
          fun j => ∑ k, v r k * ∑ l, Γ k j l * v i l))) := by
  obtain ⟨hlen, -, u, hu⟩ := gradVecs_rep hs (by simp) hl
  have hval := Mlt.cderiv_fvalue_factor (s := fun k => (scaleOf none k)⁻¹) hs hc D hlen hu hrb slots hT (.inr hf)
  have hsc : ∀ k : Fin n, (scaleOf (none : Option (Fin n → K)) k)⁻¹ = 1 := fun k => by simp [scaleOf]
  simp only [hsc, C_1, mul_one] at hval
  have hC : ∀ c : K, (C c : SlotPoly K n) ∈ supported K {ik : ℕ × Fin n | ik.1 < r + 1} :=
    fun c => Subalgebra.algebraMap_mem _ _
  have hX : ∀ i < r + 1, ∀ k, (X (i, k) : SlotPoly K n) ∈ supported K {ik : ℕ × Fin n | ik.1 < r + 1} :=
    fun i hi k => X_mem_supported.mpr hi
  have hsup : (T.cderiv (fun i => D i) g conn vecs rb slots).fvalue ∈
      supported K {ik : ℕ × Fin n | ik.1 < r + 1} := by
    rw [hval]
    refine sub_mem (sum_mem fun k _ => mul_mem (hX _ (by omega) _) (sum_mem fun I _ =>
      mul_mem (hC _) (prod_mem fun i _ => hX _ (by omega) _))) (sum_mem fun i _ => mul_mem (hC _)
      (sum_mem fun I _ => mul_mem (hC _) (prod_mem fun j _ => ?_)))
    rw [Function.update_apply]
    split_ifs with hij
    · exact sum_mem fun k _ => mul_mem (hX _ (by omega) _)
        (sum_mem fun l _ => mul_mem (hC _) (hX _ (by omega) _))
    · exact hX _ (by omega) _
  have hre : recipFactor g = e := by rw [he, recipFactor]
  rw [hre] at hval
  rw [vecArgs, Mlt.call_none hs hrb rfl hsl (mem_supported_slots.mpr hsup), hre]
  simp only [← C_mul]
  rw [bind_C fun i k => e * v i k, hval]
  congr 1
  have hprod : ∀ (i : Fin r) (I : Fin r → Fin n),
      eval (fun ik => e * v ik.1 ik.2) (∏ j : Fin r, Function.update (fun (j : ℕ) l => X (j, l)) i.1
        (fun j => ∑ k, X (r, k) * ∑ l, C (Γ k j l) * X (i.1, l)) j (I j) : SlotPoly K n) =
      e ^ (r + 1) * ∏ j : Fin r, Function.update v i.1
        (fun j => ∑ k, v r k * ∑ l, Γ k j l * v i l) j (I j) := by
    intro i I
    have h1 : ∀ j : Fin r, eval (fun ik => e * v ik.1 ik.2) (Function.update (fun (j : ℕ) l => X (j, l)) i.1
        (fun j => ∑ k, X (r, k) * ∑ l, C (Γ k j l) * X (i.1, l)) j (I j) : SlotPoly K n) =
        (if j = i then e ^ 2 else e) * Function.update v i.1
          (fun j => ∑ k, v r k * ∑ l, Γ k j l * v i l) j (I j) := by
      intro j
      rw [Function.update_apply, Function.update_apply]
      by_cases hij : j = i
      · subst hij
        simp only [if_true, map_sum, map_mul, eval_X, eval_C, Finset.mul_sum]
        exact Finset.sum_congr rfl fun k _ => Finset.sum_congr rfl fun l _ => by ring
      · rw [if_neg hij, if_neg (fun h => hij (Fin.ext h)), if_neg (fun h => hij (Fin.ext h)), eval_X]
    rw [map_prod, Finset.prod_congr rfl fun j _ => h1 j, Finset.prod_mul_distrib]
    congr 1
    rw [← Finset.mul_prod_erase _ _ (Finset.mem_univ i), if_pos rfl,
      Finset.prod_congr rfl fun j hj => if_neg (Finset.ne_of_mem_erase hj), Finset.prod_const,
      Finset.card_erase_of_mem (Finset.mem_univ i), Finset.card_univ, Fintype.card_fin, ← pow_add]
    congr 1
    have := i.2
    omega
  have hprod' : ∀ I : Fin r → Fin n, ∏ i : Fin r, e * v i (I i) = e ^ r * ∏ i : Fin r, v i (I i) := by
    intro I
    rw [Finset.prod_mul_distrib, Finset.prod_const, Finset.card_univ, Fintype.card_fin]
  simp only [map_sub, map_sum, map_mul, eval_X, eval_C, hprod, map_prod, hprod', tensorValue]
  rw [mul_sub, Finset.mul_sum, Finset.mul_sum, Finset.mul_sum]
  congr 1
  · refine Finset.sum_congr rfl fun k _ => ?_
    rw [Finset.mul_sum, Finset.mul_sum, Finset.mul_sum]
    exact Finset.sum_congr rfl fun I _ => by ring
  · refine Finset.sum_congr rfl fun i _ => ?_
    rw [Finset.mul_sum, Finset.mul_sum, Finset.mul_sum]
    exact Finset.sum_congr rfl fun I _ => by ring

/-- A constant metric whose basis vectors are not orthogonal. -/
noncomputable def Ex.skew : Matrix (Fin 2) (Fin 2) (Ex.Fun 2) := !![1, 1; 1, 3]

/-- C64 fails when the basis vectors are not orthogonal, even for a constant metric: the field
`T = Mlt('T', 1, fct=True)` with components `x_0, 0` has `T(e_0) = -2 x_0`, and `T.cderiv()(e_0, e_0)`, the
derivative in direction `e_0`, is 4 and not -2. -/
theorem C64_nonorthogonal_counterexample : ∃ vecs rb, gradVecs Ex.skew none = some vecs ∧
    rBasisMv Ex.skew = some rb ∧ connOf (fun i => Ex.partialD i) Ex.skew none = some none ∧
    (Mlt.ofString (fun l => if l = [0] then Ex.coord 0 else 0) 1 0).call Ex.skew rb 1
      (vecArgs 1 fun _ => Pi.single 0 1) = C (-2 * Ex.coord 0) ∧
    Ex.partialD (n := 2) 0 (-2 * Ex.coord 0) = -2 ∧
    ((Mlt.ofString (fun l => if l = [0] then Ex.coord 0 else 0) 1 0).cderiv (fun i => Ex.partialD i) Ex.skew
      none vecs rb 1).call Ex.skew rb 2 (vecArgs 2 fun _ => Pi.single 0 1) = C 4 := by
  have hs : Ex.skew.IsSymm := by
    ext i j
    fin_cases i <;> fin_cases j <;> rfl
  have hdet : Ex.skew.det = 2 := by rw [Ex.skew, Matrix.det_fin_two_of]; norm_num
  have ho : isOrtho Ex.skew = false := by
    rw [Bool.eq_false_iff]
    intro h
    rw [isOrtho_iff] at h
    exact one_ne_zero (h 0 1 (by decide))
  have hE : eSq Ex.skew = -2 := by rw [eSq_eq hs, hdet]; norm_num
  obtain ⟨l, hl⟩ := Option.isSome_iff_exists.mp (C60_exists (N := none) hs
    (by rw [hdet]; exact two_ne_zero) (by simp) (by simp))
  obtain ⟨rb, hrb, -⟩ := Option.bind_eq_some_iff.mp (show (rBasisMv (currentMetric none Ex.skew)).bind _ =
    some l from hl)
  have hten : (Mlt.ofString (fun l : List (Fin 2) => if l = [0] then (Ex.coord 0 : Ex.Fun 2) else 0) 1 0).IsTensor
      Ex.skew fun I : Fin 1 → Fin 2 => if List.ofFn I = [0] then Ex.coord 0 else 0 :=
    .of_value rfl rfl (ofString_fvalue _ (by omega))
  have hsum : ∀ F : (Fin 1 → Fin 2) → Ex.Fun 2, ∑ I, F I = F ![0] + F ![1] := by
    intro F
    rw [← Fin.sum_univ_two (f := fun i => F ![i])]
    refine Fintype.sum_equiv (Equiv.funUnique (Fin 1) (Fin 2)) _ _ fun I => ?_
    congr 1
    funext i
    fin_cases i
    rfl
  refine ⟨l, rb, hl, hrb, ?_, ?_, ?_, ?_⟩
  · rw [connOf, if_neg]
    have hc : ∀ i j k, Ex.partialD k (Ex.skew i j) = 0 := by
      intro i j k
      fin_cases i <;> fin_cases j
      · exact Derivation.map_one_eq_zero _
      · exact Derivation.map_one_eq_zero _
      · exact Derivation.map_one_eq_zero _
      · exact Derivation.map_natCast (Ex.partialD k) 3
    simp [connectFlg, dg, hc]
  · have hM : (Mlt.ofString (fun l : List (Fin 2) => if l = [0] then (Ex.coord 0 : Ex.Fun 2) else 0) 1 0).Means _ :=
      ⟨by
        rw [mem_supported_slots, hten.value]
        exact tensor_slots _, fun v => rfl, fun f hf => by simp [Mlt.ofString] at hf⟩
    refine (C63_call_factor hs ho hrb hM rfl le_rfl _).trans ?_
    congr 1
    rw [hten.value, hE]
    simp only [map_sum, map_mul, eval_C, map_prod, eval_X, hsum]
    simp [mul_comm]
  · rw [Derivation.leibniz, Ex.partialD_coord]
    simp
    exact Or.inr (Derivation.map_natCast (Ex.partialD (n := 2) 0) 2)
  · rw [C64_cderiv_factor hs Ex.partialD hl hrb (conn := none) (Γ := 0) rfl hten rfl 1 le_rfl _ (-2) (by simp [ho, hE])]
    congr 1
    simp only [tensorValue, hsum, Fin.sum_univ_two]
    simp [Ex.partialD_coord]
    norm_num

end GA
