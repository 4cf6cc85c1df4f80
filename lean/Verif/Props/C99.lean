import Verif.Proofs.FnForms

/-!
# C99: formulas written with the functions

A formula nests the functions of galgebra/mv.py (`rev`, `dual`, `inv`, `scalar`, `sp`, `proj`, `refl`, `cross`,
`norm`, `exp`, `rot` and so on), `Ga.com`, and the operators, to any depth.  The specification is in
Verif/Spec/FnForms.lean.
-/

set_option linter.unusedSectionVars false
set_option maxRecDepth 10000

namespace GA
variable {n : ℕ} {K : Type*} [Field K] [DecidableEq K] [Invertible (2 : K)]

/-- C99: the formula tells whether the result is a number or a multivector, and which exception a function
raises that is given a number instead of a multivector; only an exception that a method raises because of the
values of its operands can come first. -/
theorem C99_kind (E : FnEnv K n) (p : Formula K) (a : ℕ → Operand K n) (κ : ℕ → ValueKind)
    (hκ : ∀ k, (a k).kind = κ k) :
    p.run E a = .error .method ∨ (∃ v, p.run E a = .ok v ∧ p.kind κ = .ok v.kind) ∨
      ∃ e, p.run E a = .error e ∧ p.kind κ = .error e := by
  have := fits_run E p a
  rw [funext hκ] at this
  exact this

/-- C99: whatever a formula returns, without `exp`, `rot` and norms, is the value of the formula in the
Clifford algebra of the metric tensor. -/
theorem C99_value [CharZero K] (E : FnEnv K n) (hs : E.g.IsSymm) (hm : E.mode ∈ dualModeLst)
    (hi : E.i.WF E.g ∧ E.i.isBladeRep = true) (hj : E.iInv.WF E.g ∧ E.iInv.isBladeRep = true)
    {a : ℕ → Operand K n} {x : ℕ → Spec.Cl E.g} (ha : ∀ k, (a k).IsValue E.g (x k)) (p : Formula K)
    (hp : p.algebraic = true) {v : Operand K n} (h : p.run E a = .ok v) :
    v.IsValue E.g (p.value (E.i.val E.g) (E.iInv.val E.g) E.mode x) :=
  value_run hs (Rep.of_wf hi.1 hi.2) (Rep.of_wf hj.1 hj.2) hm ha p hp h

/-- C99: an identity of the Clifford algebra holds for the program: two formulas that have the same value there
compare equal with `==`, whenever both return multivectors; if both return numbers, the numbers are equal. -/
theorem C99_identity [CharZero K] (E : FnEnv K n) (hs : E.g.IsSymm) (hm : E.mode ∈ dualModeLst)
    (hi : E.i.WF E.g ∧ E.i.isBladeRep = true) (hj : E.iInv.WF E.g ∧ E.iInv.isBladeRep = true)
    {a : ℕ → Operand K n} {x : ℕ → Spec.Cl E.g} (ha : ∀ k, (a k).IsValue E.g (x k)) (p q : Formula K)
    (hp : p.algebraic = true) (hq : q.algebraic = true)
    (hpq : p.value (E.i.val E.g) (E.iInv.val E.g) E.mode x =
      q.value (E.i.val E.g) (E.iInv.val E.g) E.mode x) :
    (∀ A B, p.run E a = .ok (.mv A) → q.run E a = .ok (.mv B) → A.eq E.g B = true) ∧
    (∀ c d, p.run E a = .ok (.scalar c) → q.run E a = .ok (.scalar d) → c = d) ∧
    (∀ A d, p.run E a = .ok (.mv A) → q.run E a = .ok (.scalar d) →
      A.eq E.g (Mv.scalarMv d) = true) := by
  have key := @C99_value n K _ _ _ _ E hs hm hi hj a x ha
  refine ⟨fun A B h1 h2 => ?_, fun c d h1 h2 => ?_, fun A d h1 h2 => ?_⟩
  · have hA : Rep E.g A _ := key p hp h1
    have hB : Rep E.g B _ := key q hq h2
    exact (hA.eq_iff hs hB).mpr hpq
  · have hc : algebraMap K _ c = _ := key p hp h1
    have hd : algebraMap K _ d = _ := key q hq h2
    exact algebraMap_inj E.g (by rw [hc, hd, hpq])
  · have hA : Rep E.g A _ := key p hp h1
    have hd : algebraMap K _ d = _ := key q hq h2
    exact (hA.eq_iff hs (Rep.scalarMv d)).mpr (by rw [hd, hpq])

/-- C99: for every formula `p`, the three inverses agree whenever they return, and `rev(p * q)` is
`rev(q) * rev(p)`. -/
theorem C99_inverses [CharZero K] (E : FnEnv K n) (hs : E.g.IsSymm) (hm : E.mode ∈ dualModeLst)
    (hi : E.i.WF E.g ∧ E.i.isBladeRep = true) (hj : E.iInv.WF E.g ∧ E.iInv.isBladeRep = true)
    {a : ℕ → Operand K n} {x : ℕ → Spec.Cl E.g} (ha : ∀ k, (a k).IsValue E.g (x k)) (p : Formula K)
    (hp : p.algebraic = true) {f f' : MvFn} (hf : f ∈ [.inv, .shirokovInverse, .hitzerInverse])
    (hf' : f' ∈ [.inv, .shirokovInverse, .hitzerInverse]) (A B : Mv K n)
    (hA : (Formula.mvFn f p).run E a = .ok (.mv A)) (hB : (Formula.mvFn f' p).run E a = .ok (.mv B)) :
    A.eq E.g B = true := by
  refine (C99_identity E hs hm hi hj ha (.mvFn f p) (.mvFn f' p) hp hp ?_).1 A B hA hB
  simp only [List.mem_cons, List.not_mem_nil, or_false] at hf hf'
  rcases hf with rfl | rfl | rfl <;> rcases hf' with rfl | rfl | rfl <;> rfl

/-- C99: exceptions are not lost: if a formula returns, every formula in it returned; in particular none of
them is `mv.com`, which always raises `ImportError`. -/
theorem C99_exceptions (E : FnEnv K n) (a : ℕ → Operand K n) (p : Formula K) {v : Operand K n}
    (h : p.run E a = .ok v) : ∀ q ∈ p.parts, (∃ w, q.run E a = .ok w) ∧ ∀ r s, q ≠ .mvCom r s := by
  have key : ∀ q : Formula K, (∃ w, q.run E a = .ok w) → ∀ r s, q ≠ .mvCom r s := by
    rintro q ⟨w, hw⟩ r s rfl
    obtain ⟨_, _, _, _, h⟩ := fnCall2_ok hw
    cases h
  suffices H : ∀ q ∈ p.parts, ∃ w, q.run E a = .ok w from fun q hq => ⟨H q hq, key q (H q hq)⟩
  have two : ∀ {v : Operand K n} {p q : Formula K} {f : Operand K n → Operand K n → Except FnError (Operand K n)},
      (∀ {v}, p.run E a = .ok v → ∀ q ∈ p.parts, ∃ w, q.run E a = .ok w) →
      (∀ {v}, q.run E a = .ok v → ∀ r ∈ q.parts, ∃ w, r.run E a = .ok w) →
      GA.call2 f (p.run E a) (q.run E a) = .ok v → ∀ r ∈ p.parts ++ q.parts, ∃ w, r.run E a = .ok w := by
    intro v p q f h1 h2 h r hr
    obtain ⟨u, w, hu, hw, -⟩ := fnCall2_ok h
    rcases List.mem_append.mp hr with hr | hr
    · exact h1 hu r hr
    · exact h2 hw r hr
  clear key
  induction p generalizing v with
  | var k => intro q hq; rw [List.mem_singleton.mp hq]; exact ⟨_, h⟩
  | num c => intro q hq; rw [List.mem_singleton.mp hq]; exact ⟨_, h⟩
  | mvFn f p h1 | numFn f p h1 | exp f p h1 | grade p f h1 =>
    intro q hq
    rcases List.mem_cons.mp hq with rfl | hq
    · exact ⟨_, h⟩
    · obtain ⟨u, hu, -⟩ := fnBind_ok h
      exact h1 hu q hq
  | op o p q h1 h2 | div p q h1 h2 | sp o p q h1 h2 | proj p q h1 h2 | refl p q h1 h2 | rot o p q h1 h2
    | cross p q h1 h2 | com p q h1 h2 | mvCom p q h1 h2 =>
    intro r hr
    rcases List.mem_cons.mp hr with rfl | hr
    · exact ⟨_, h⟩
    · exact two h1 h2 h r hr

namespace Ex

/-- The example algebra, with `I = e_0^e_1^e_2`. -/
def env : FnEnv ℚ 3 :=
  FnEnv.ordered gN (Mv.ofExpr [(1, .blade [0, 1, 2])]) (Mv.ofExpr [(2, .blade [0, 1, 2])]) "Iinv+"
    ⟨id, id, id, id, id, fun _ => true, fun x => decide (0 < x)⟩ (fun x => x + 1)
    ⟨fun _ => true, fun x => decide (0 ≤ x), fun x => decide (x ≤ 0)⟩ ⟨id, fun x => (x, [])⟩
    (fun x => decide (0 ≤ x)) false

/-- The variables: `A`, `B`, `7`, and `C`. -/
def vars : ℕ → Operand ℚ 3
  | 0 => .mv A
  | 1 => .mv B
  | 2 => .scalar 7
  | _ => .mv C

/-- `rev(x0 * x1) / scalar(dual(x0) + x2) - proj(e_0, even(x3))` -/
def formula : Formula ℚ :=
  .op .sub (.div (.mvFn .rev (.op .mul (.var 0) (.var 1)))
    (.numFn .scalar (.op .add (.mvFn .dual (.var 0)) (.var 2))))
    (.proj (.grade (.var 0) 1) (.mvFn .even (.var 3)))

theorem vars_value : ∀ k, (vars k).IsValue env.g (match vars k with
    | .scalar c => algebraMap ℚ _ c
    | .mv A => A.val env.g)
  | 0 => ⟨A_wf _, by decide +kernel, rfl⟩
  | 1 => ⟨B_wf _, by decide +kernel, rfl⟩
  | 2 => rfl
  | _ + 3 => ⟨C_wf _, by decide +kernel, rfl⟩

/-- The coefficients of a multivector on the eight blades; a number is one coefficient. -/
def shown : Except FnError (Operand ℚ 3) → Except FnError (List ℚ)
  | .ok (.mv A) => .ok A.bladeCoefs
  | .ok (.scalar c) => .ok [c]
  | .error e => .error e

end Ex

/-- The formula returns, and the theorem says what its value is. -/
example : ∃ v, Ex.formula.run Ex.env Ex.vars = .ok v ∧ v.IsValue Ex.env.g
    (Ex.formula.value (Ex.env.i.val Ex.env.g) (Ex.env.iInv.val Ex.env.g) Ex.env.mode fun k =>
      match Ex.vars k with
      | .scalar c => algebraMap ℚ _ c
      | .mv A => A.val Ex.env.g) := by
  have h : (match Ex.formula.run Ex.env Ex.vars with | .ok _ => true | .error _ => false) = true := by
    decide +kernel
  cases hr : Ex.formula.run Ex.env Ex.vars with
  | error e => rw [hr] at h; cases h
  | ok v => exact ⟨v, rfl, C99_value Ex.env Ex.gN_symm (by decide) ⟨Ex.wf_of _ (by decide), by decide +kernel⟩
      ⟨Ex.wf_of _ (by decide), by decide +kernel⟩ Ex.vars_value Ex.formula (by decide) hr⟩

/-- Functions that are given numbers: `rev(scalar(x0))`, `qform(x2)`, `proj(x2, x0)`, `mv.com(x0, x1)`,
`x2 ^ x2` (for which Python calls SymPy), and `cross` of multivectors that are not vectors. -/
example : ([.mvFn .rev (.numFn .scalar (.var 0)), .numFn .qform (.var 2), .proj (.var 2) (.var 0),
    .mvCom (.var 0) (.var 1), .op .wedge (.var 2) (.var 2), .cross (.var 0) (.var 1)].map
      fun p => Ex.shown (Formula.run Ex.env Ex.vars p)) =
    [.error .valueError, .error .typeError, .error .attributeError, .error .importError,
      .error .foreign, .error .method] := by
  decide +kernel
/-- Numbers inside formulas: `scalar(x0) * x1` and `qform(x0) - sp(x0, x1)`. -/
example : ([.op .mul (.numFn .scalar (.var 0)) (.var 3), .op .sub (.numFn .qform (.var 0))
      (.sp (some false) (.var 0) (.var 1))].map
      fun p => Ex.shown (Formula.run Ex.env Ex.vars p)) =
    [.ok [0, 0, 0, 4, 0, 0, 1, 0], .ok [-65/4]] := by
  decide +kernel
/-- `inv` refuses `2 + 2 e_0`, and all three inverses of `2 e_0` return. -/
example : ([.mvFn .inv (.op .add (.num 2) (.grade (.var 0) 1)), .mvFn .shirokovInverse (.grade (.var 0) 1),
    .mvFn .hitzerInverse (.grade (.var 0) 1), .mvFn .inv (.grade (.var 0) 1)].map
      fun p => Ex.shown (Formula.run Ex.env Ex.vars p)) =
    [.error .method, .ok [0, 1/2, 0, 0, 0, 0, 0, 0], .ok [0, 1/2, 0, 0, 0, 0, 0, 0],
      .ok [0, 1/2, 0, 0, 0, 0, 0, 0]] := by
  decide +kernel
example : (Ex.formula.kind fun k => (Ex.vars k).kind) = .ok .multivector := by decide +kernel

end GA
