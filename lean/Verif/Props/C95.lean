import Verif.Proofs.Script
import Verif.Props.C90
import Mathlib.Analysis.Real.Sqrt

/-!
# C95: scripts do not depend on the basis

A script (`Spec/Script`) assigns results of calculations, of divisions, inverses, projections, reflections
and duals to variables, and has `if` and `while`.  `f 0, …, f (n-1)` is another basis of the vectors of the
algebra with the metric `g`, `h` the metric of the algebra with this basis (`gram`, `Spec/Frame`), and
`A.rewriteIn g F` writes a multivector `A` of the new algebra in the old one.  `Outcome.Same` says that both
scripts end, both raise or both still run.
-/

set_option linter.unusedSectionVars false
set_option maxRecDepth 10000

namespace GA
variable {n : ℕ} {K : Type*} [Field K] [DecidableEq K] [Invertible (2 : K)]
  {g h : Matrix (Fin n) (Fin n) K} {f : Fin n → Fin n → K} {a : ℕ → Mv K n}

theorem script_same (hs : g.IsSymm) (hh : h = gram g fun i => Mv.vector (f i))
    (hd : (Matrix.of f).det ≠ 0) (ha : ∀ i, (a i).WF h) (hb : ∀ i, (a i).isBladeRep = true)
    {sqrt : K → K} {plus : Bool}
    (ho : sqrt (if plus then eSq h else -eSq h) =
      (Matrix.of f).det * sqrt (if plus then eSq g else -eSq g))
    (mode : String) (P : Script K) (k : ℕ) :
    (P.run ⟨h, sqrt, plus, mode⟩ k a).Same
      (fun a b => ∀ i, ((a i).rewriteIn g fun i => Mv.vector (f i)).eq g (b i) = true)
      (P.run ⟨g, sqrt, plus, mode⟩ k fun i => (a i).rewriteIn g fun i => Mv.vector (f i)) := by
  obtain rfl : h = Spec.gramOf g f := hh.trans (gram_vectors hs f)
  have C := change_of_frame hs hd
  have hr := fun i => Rep.of_wf (ha i) (hb i)
  have H := C.script (S := ⟨_, sqrt, plus, mode⟩) (S' := ⟨g, sqrt, plus, mode⟩) ⟨rfl, rfl, rfl, rfl, rfl, ho⟩ k P
    a (fun i => (a i).rewriteIn g fun i => Mv.vector (f i)) fun i => ⟨_, hr i, rewrite_rep hs f (hr i)⟩
  refine H.imp fun a b H i => ?_
  obtain ⟨x, h1, h2⟩ := H i
  exact (Rep.eq_iff hs (rewrite_rep hs f h1) h2).mpr rfl

/-- C95: a script without duals has the same outcome in both algebras, for every number of passes through
its loops. -/
theorem C95_script (hs : g.IsSymm) (hh : h = gram g fun i => Mv.vector (f i))
    (hd : (Matrix.of f).det ≠ 0) (ha : ∀ i, (a i).WF h) (hb : ∀ i, (a i).isBladeRep = true)
    (sqrt : K → K) (plus : Bool) (mode : String) (P : Script K) (hP : P.dualFree = true) (k : ℕ) :
    (P.run ⟨h, sqrt, plus, mode⟩ k a).Same
      (fun a b => ∀ i, ((a i).rewriteIn g fun i => Mv.vector (f i)).eq g (b i) = true)
      (P.run ⟨g, sqrt, plus, mode⟩ k fun i => (a i).rewriteIn g fun i => Mv.vector (f i)) := by
  have H := script_same (sqrt := fun _ => 0) (plus := plus) hs hh hd ha hb (by simp) mode P k
  rwa [Script.run_congr (S := ⟨h, fun _ => 0, plus, mode⟩) (S' := ⟨h, sqrt, plus, mode⟩) rfl k P hP,
    Script.run_congr (S := ⟨g, fun _ => 0, plus, mode⟩) (S' := ⟨g, sqrt, plus, mode⟩) rfl k P hP] at H

/-- C95: the square of the pseudoscalar of the new basis is `det(f)²` times the square of the old one. -/
theorem C95_square (hs : g.IsSymm) (f : Fin n → Fin n → K) :
    eSq (gram g fun i => Mv.vector (f i)) = (Matrix.of f).det ^ 2 * eSq g := by
  rw [gram_vectors hs, eSq_frame hs]

/-- C95: every script, also with duals, has the same outcome in both algebras, if the square roots by which
the pseudoscalars are divided differ by the factor `det(f)`: both bases have the same orientation. -/
theorem C95_script_dual (hs : g.IsSymm) (hh : h = gram g fun i => Mv.vector (f i))
    (hd : (Matrix.of f).det ≠ 0) (ha : ∀ i, (a i).WF h) (hb : ∀ i, (a i).isBladeRep = true)
    {sqrt : K → K} {plus : Bool}
    (ho : sqrt (if plus then eSq h else -eSq h) =
      (Matrix.of f).det * sqrt (if plus then eSq g else -eSq g))
    (mode : String) (P : Script K) (k : ℕ) :
    (P.run ⟨h, sqrt, plus, mode⟩ k a).Same
      (fun a b => ∀ i, ((a i).rewriteIn g fun i => Mv.vector (f i)).eq g (b i) = true)
      (P.run ⟨g, sqrt, plus, mode⟩ k fun i => (a i).rewriteIn g fun i => Mv.vector (f i)) :=
  script_same hs hh hd ha hb ho mode P k

/-- C95: with real coefficients and the real square root, every script has the same outcome in two bases
of the same orientation. -/
theorem C95_script_real [DecidableEq ℝ] [Invertible (2 : ℝ)] {g h : Matrix (Fin n) (Fin n) ℝ}
    {f : Fin n → Fin n → ℝ} {a : ℕ → Mv ℝ n} (hs : g.IsSymm)
    (hh : h = gram g fun i => Mv.vector (f i)) (hd : 0 < (Matrix.of f).det) (ha : ∀ i, (a i).WF h)
    (hb : ∀ i, (a i).isBladeRep = true) (plus : Bool) (mode : String) (P : Script ℝ) (k : ℕ) :
    (P.run ⟨h, Real.sqrt, plus, mode⟩ k a).Same
      (fun a b => ∀ i, ((a i).rewriteIn g fun i => Mv.vector (f i)).eq g (b i) = true)
      (P.run ⟨g, Real.sqrt, plus, mode⟩ k fun i => (a i).rewriteIn g fun i => Mv.vector (f i)) := by
  refine script_same hs hh hd.ne' ha hb ?_ mode P k
  rw [hh, C95_square hs]
  have : ∀ y : ℝ, Real.sqrt ((Matrix.of f).det ^ 2 * y) = (Matrix.of f).det * Real.sqrt y := fun y => by
    rw [Real.sqrt_mul (sq_nonneg _), Real.sqrt_sq hd.le]
  cases plus
  · simpa using this (-eSq g)
  · simpa using this (eSq g)

/-- C95: if the bases have opposite orientations, the square roots differ by the factor `-det(f)`, and the
dual in the new algebra is minus the dual in the old one. -/
theorem C95_dual_reversed (hs : g.IsSymm) (hh : h = gram g fun i => Mv.vector (f i))
    (hd : (Matrix.of f).det ≠ 0) {sqrt : K → K} {plus : Bool}
    (ho : sqrt (if plus then eSq h else -eSq h) =
      -(Matrix.of f).det * sqrt (if plus then eSq g else -eSq g))
    (mode : String) {A i iInv j jInv : Mv K n} (hA : A.WF h) (hb : A.isBladeRep = true)
    (hi : normI h sqrt plus = some (i, iInv)) (hj : normI g sqrt plus = some (j, jInv)) :
    ((A.dual h i iInv mode).rewriteIn g fun i => Mv.vector (f i)).eq g
      ((A.rewriteIn g fun i => Mv.vector (f i)).dual g j jInv mode).neg = true := by
  obtain rfl : h = Spec.gramOf g f := hh.trans (gram_vectors hs f)
  have C := change_of_frame hs hd
  have hr := Rep.of_wf hA hb
  set s := sqrt (if plus then eSq g else -eSq g) with hs0
  have e : ∀ e : K, (if plus = true then sqrt e else sqrt (-e)) = sqrt (if plus then e else -e) :=
    fun e => by cases plus <;> rfl
  rw [normI, Mv.divScalar, e, ho] at hi
  rw [normI, Mv.divScalar, e, ← hs0] at hj
  by_cases h0 : s = 0
  · rw [if_pos h0] at hj; exact absurd hj (by simp)
  rw [if_neg (mul_ne_zero (neg_ne_zero.mpr hd) h0)] at hi
  rw [if_neg h0] at hj
  obtain ⟨e1, e1'⟩ := Prod.mk.inj (Option.some.inj hi)
  obtain ⟨e2, e2'⟩ := Prod.mk.inj (Option.some.inj hj)
  have hps : Sim (Spec.emb g f) ((pseudoE : Mv K n).smul (-(Matrix.of f).det * s)⁻¹)
      ((pseudoE : Mv K n).smul s⁻¹).neg := ⟨_, pseudoE_rep.smul _, (pseudoE_rep.smul _).neg.congr (by
        rw [map_smul, C.ps, smul_smul, ← neg_smul]
        congr 1
        field_simp)⟩
  have h1 : Sim (Spec.emb g f) i j.neg := by
    rw [← e1, ← e2]; exact hps
  have h2 : Sim (Spec.emb g f) iInv jInv.neg := by
    rw [← e1', ← e2']
    split_ifs
    · exact hps
    · exact hps.neg
  have h3 : Sim (Spec.emb g f) A (A.rewriteIn g fun i => Mv.vector (f i)) := ⟨_, hr, rewrite_rep hs f hr⟩
  obtain ⟨x, r1, r2⟩ := h3.dual C h1 h2 mode
  have hj1 : ∃ y, Rep g j y := ⟨_, by rw [← e2]; exact pseudoE_rep.smul _⟩
  have hj2 : ∃ y, Rep g jInv y := by
    rw [← e2']
    split_ifs
    · exact ⟨_, pseudoE_rep.smul _⟩
    · exact ⟨_, (pseudoE_rep.smul _).neg⟩
  obtain ⟨y, hy⟩ := hj1
  obtain ⟨y', hy'⟩ := hj2
  have hB := rewrite_rep hs f hr
  have hneg : ∀ {B : Mv K n} {z : Spec.Cl g}, Rep g B z → ∀ (c : K) {J : Mv K n} {w : Spec.Cl g}, Rep g J w →
      (((J.neg.smul c).mul g B).val g = -((J.smul c).mul g B).val g) ∧
      (((B.smul c).mul g J.neg).val g = -((B.smul c).mul g J).val g) := fun hz c J w hw =>
    ⟨by rw [((hw.neg.smul c).mul hs hz).val, ((hw.smul c).mul hs hz).val, smul_neg, neg_mul],
     by rw [((hz.smul c).mul hs hw.neg).val, ((hz.smul c).mul hs hw).val, mul_neg]⟩
  have hval : ((A.rewriteIn g fun i => Mv.vector (f i)).dual g j.neg jInv.neg mode).val g =
      -((A.rewriteIn g fun i => Mv.vector (f i)).dual g j jInv mode).val g := by
    rw [Mv.dual, Mv.dual]
    split_ifs
    · exact (hneg hB _ hy').1
    · exact (hneg hB _ hy).1
    · exact (hneg hB _ hy').1
    · exact (hneg hB _ hy).1
    · exact (hneg hB _ hy').2
    · exact (hneg hB _ hy).2
    · exact (hneg hB _ hy').2
    · exact (hneg hB _ hy).2
  have hdual : ∃ z, Rep g ((A.rewriteIn g fun i => Mv.vector (f i)).dual g j jInv mode) z := by
    rw [Mv.dual]
    split_ifs
    exacts [⟨_, (hy'.smul _).mul hs hB⟩, ⟨_, (hy.smul _).mul hs hB⟩, ⟨_, (hy'.smul _).mul hs hB⟩,
      ⟨_, (hy.smul _).mul hs hB⟩, ⟨_, (hB.smul _).mul hs hy'⟩, ⟨_, (hB.smul _).mul hs hy⟩,
      ⟨_, (hB.smul _).mul hs hy'⟩, ⟨_, (hB.smul _).mul hs hy⟩]
  obtain ⟨z, hz⟩ := hdual
  refine (Rep.eq_iff hs (rewrite_rep hs f r1) hz.neg).mpr ?_
  rw [← r2.val, hval, hz.val]

/-- C95: the tests of multivectors have the same answer in both algebras. -/
theorem C95_tests (hs : g.IsSymm) (hh : h = gram g fun i => Mv.vector (f i))
    (hd : (Matrix.of f).det ≠ 0) {A : Mv K n} (hA : A.WF h) (hb : A.isBladeRep = true) :
    let B := A.rewriteIn g fun i => Mv.vector (f i)
    A.isZero = B.isZero ∧ A.isScalar h = B.isScalar g ∧ A.isVector h = B.isVector g ∧
      A.isVersor h = B.isVersor g ∧ A.isBlade h = B.isBlade g ∧ A.iGrade = B.iGrade := by
  obtain rfl : h = Spec.gramOf g f := hh.trans (gram_vectors hs f)
  have C := change_of_frame hs hd
  have hr := Rep.of_wf hA hb
  have H : Sim (Spec.emb g f) A (A.rewriteIn g fun i => Mv.vector (f i)) := ⟨_, hr, rewrite_rep hs f hr⟩
  exact ⟨H.isZero C, H.isScalar C, H.isVector C, H.isVersor C, H.isBlade C, H.iGrade C⟩

namespace Ex

/-- The null vectors of `Ex.fNull` in the other order; the determinant is 2. -/
def fNull' : Fin 2 → Fin 2 → ℚ := ![![1, -1], ![1, 1]]
def sqrt4 (x : ℚ) : ℚ := if x = 4 then 2 else x

/-- `x2 = 0; x3 = 1; while not x2 == 3: x2 = x2 + 1; x3 = x3 * (x0 + 1)` and then
`if x3.is_versor(): x4 = x3.inv() else: x4 = x3.hitzer_inverse()` and `x5 = x1.dual(); x6 = x5 / x0.get_grade(2)`. -/
def sNull : Script ℚ :=
  .seq (.assign 2 (.value (.const 0))) <| .seq (.assign 3 (.value (.const 1))) <|
  .seq (.loop (.not (.eq (.var 2) (.const 3))) <|
    .seq (.assign 2 (.value (.add (.var 2) (.const 1)))) (.assign 3 (.value (.mul (.var 3) (.add (.var 0) (.const 1)))))) <|
  .seq (.cond (.isVersor (.var 3)) (.assign 4 (.inv (.var 3))) (.assign 4 (.hitzer (.var 3)))) <|
  .seq (.assign 5 (.dual (.var 1))) (.assign 6 (.div (.var 5) (.grade (.var 0) 2)))

/-- The coefficients of variable `i` at the end. -/
def coefsAt (i : ℕ) : Outcome (ℕ → Mv ℚ 2) → Option (List ℚ)
  | .done a => some (a i).bladeCoefs
  | _ => none

end Ex

example : (Ex.sNull.run ⟨!![0, 2; 2, 0], Ex.sqrt4, true, "I+"⟩ 7 Ex.aNull).Same
    (fun a b => ∀ i, ((a i).rewriteIn Ex.gMink fun i => Mv.vector (Ex.fNull' i)).eq Ex.gMink (b i) = true)
    (Ex.sNull.run ⟨Ex.gMink, Ex.sqrt4, true, "I+"⟩ 7
      fun i => (Ex.aNull i).rewriteIn Ex.gMink fun i => Mv.vector (Ex.fNull' i)) :=
  C95_script_dual Ex.gMink_symm (by decide +kernel) (by decide +kernel) (Ex.aNull_wf _) Ex.aNull_blade
    (by decide +kernel) "I+" Ex.sNull 7

/-- The script ends in both algebras, with these values of `x4`, `x5` and `x6`. -/
example : ([4, 5, 6].map fun i => Ex.coefsAt i (Ex.sNull.run ⟨!![0, 2; 2, 0], Ex.sqrt4, true, "I+"⟩ 7
    Ex.aNull)) =
    [some [63/125, -93/125, 0, 31/125], some [2, 0, 5, 0], some [0, 0, -5/2, -1/2]] ∧
    ([4, 5, 6].map fun i => Ex.coefsAt i (Ex.sNull.run ⟨Ex.gMink, Ex.sqrt4, true, "I+"⟩ 7
      fun i => (Ex.aNull i).rewriteIn Ex.gMink fun i => Mv.vector (Ex.fNull' i))) =
    [some [63/125, -93/125, 93/125, 62/125], some [2, 5, 5, 0], some [0, -5/2, -5/2, -1]] := by
  decide +kernel
/-- It is still running after two passes. -/
example : Ex.coefsAt 0 (Ex.sNull.run ⟨!![0, 2; 2, 0], Ex.sqrt4, true, "I+"⟩ 2 Ex.aNull) = none := by
  decide +kernel
/-- The vectors in the order of `Ex.fNull` have the opposite orientation. -/
example : ((Ex.aNull 0).dual !![0, 2; 2, 0] (Mv.ofExpr [(1/2, .blade [0, 1])])
      (Mv.ofExpr [(1/2, .blade [0, 1])]) "I+" |>.rewriteIn Ex.gMink fun i => Mv.vector (Ex.fNull i)).eq
    Ex.gMink (((Ex.aNull 0).rewriteIn Ex.gMink fun i => Mv.vector (Ex.fNull i)).dual Ex.gMink
      (Mv.ofExpr [(1, .blade [0, 1])]) (Mv.ofExpr [(1, .blade [0, 1])]) "I+").neg = true :=
  C95_dual_reversed (sqrt := Ex.sqrt4) (plus := true) Ex.gMink_symm (by decide +kernel) (by decide +kernel)
    (by decide +kernel) "I+" (Ex.aNull_wf _ 0) (Ex.aNull_blade 0) (by decide +kernel) (by decide +kernel)
example : (Ex.aNull 0).isVersor !![0, 2; 2, 0] =
    ((Ex.aNull 0).rewriteIn Ex.gMink fun i => Mv.vector (Ex.fNull i)).isVersor Ex.gMink :=
  (C95_tests Ex.gMink_symm (by decide +kernel) (by decide +kernel) (Ex.aNull_wf _ 0)
    (Ex.aNull_blade 0)).2.2.2.1

end GA
