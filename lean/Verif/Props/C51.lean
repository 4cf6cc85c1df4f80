import Verif.Model.Connection
import Verif.Proofs.Grad
import Verif.Props.C60

/-!
# C51: repeated calls of `connection` and `blade_derivation`

`ConnState.after g de N rb h` is the state of an algebra after the history `h` of calls of the two
methods; `(st.connection … c).1` is what the call `c` returns.

The claim is false: `C51_repeat_counterexample`.
-/

set_option linter.unusedSectionVars false
set_option maxRecDepth 10000

namespace GA
variable {n : ℕ} {K : Type*} [Field K] [DecidableEq K] [Invertible (2 : K)]
  {ρ : Type*} [DecidableEq ρ]
  {g : Matrix (Fin n) (Fin n) K} {de : Fin n → Fin n → Expr K n} {N : Option (Fin n → K)}
  {rb : List (Expr K n)}

theorem connKey_inj {r r' : ρ} {b b' : Sym n} {left : Bool} :
    connKey r b left = connKey r' b' left ↔ r = r' ∧ b = b' := by
  constructor
  · rw [connKey, connKey]
    intro h
    by_cases h1 : b = .blade [] <;> by_cases h2 : b' = .blade [] <;> cases left <;> simp_all
  · rintro ⟨rfl, rfl⟩; rfl

/-- The cached derivatives are the derivatives. -/
def DbOk (de : Fin n → Fin n → Expr K n) (st : ConnState ρ K n) : Prop :=
  ∀ i b db, st.dbases.get? (i, b) = some db → db = symDerivation (de i) b

theorem DbOk.deriv {st : ConnState ρ K n} (h : DbOk de st) (b : Sym n) (i : Fin n) :
    (st.bladeDerivation de b i).1 = symDerivation (de i) b ∧ DbOk de (st.bladeDerivation de b i).2 ∧
      (st.bladeDerivation de b i).2.connect = st.connect := by
  rw [ConnState.bladeDerivation]
  cases hg : st.dbases.get? (i, b) with
  | some db => exact ⟨h i b db hg, h, rfl⟩
  | none =>
    refine ⟨rfl, ?_, rfl⟩
    intro i' b' db hdb
    dsimp only at hdb
    rw [Dict.get?_set] at hdb
    split_ifs at hdb with he
    · obtain ⟨rfl, rfl⟩ := Prod.mk.inj he
      exact (Option.some.inj hdb).symm
    · exact h i' b' db hdb

/-- The sum the loop computes, without the cache. -/
def connSum (g : Matrix (Fin n) (Fin n) K) (de : Fin n → Fin n → Expr K n)
    (N : Option (Fin n → K)) (rb : List (Expr K n)) (b : Sym n) (mode : ProdOp) (left : Bool) :
    Expr K n :=
  (List.finRange n).foldl (fun acc (ib : Fin n) => addE acc (erBlade g (rb.getD ib errorE)
    (divNorm N ib ((symDerivation (de ib) b))) mode left)) []

theorem DbOk.loop {st : ConnState ρ K n} (h : DbOk de st) (b : Sym n) (mode : ProdOp) (left : Bool) :
    (connLoop g de N rb b mode left st).1 = connSum g de N rb b mode left ∧
      DbOk de (connLoop g de N rb b mode left st).2 ∧
      (connLoop g de N rb b mode left st).2.connect = st.connect := by
  rw [connLoop, connSum]
  have key : ∀ (l : List (Fin n)) (E : Expr K n) (st : ConnState ρ K n), DbOk de st →
      (l.foldl (fun acc (ib : Fin n) =>
        let (x, st) := acc.2.bladeDerivation de b ib
        (addE acc.1 (erBlade g (rb.getD ib errorE) (divNorm N ib x) mode left), st)) (E, st)).1 =
      l.foldl (fun acc (ib : Fin n) => addE acc (erBlade g (rb.getD ib errorE)
        (divNorm N ib ((symDerivation (de ib) b))) mode left)) E ∧
      DbOk de (l.foldl (fun acc (ib : Fin n) =>
        let (x, st) := acc.2.bladeDerivation de b ib
        (addE acc.1 (erBlade g (rb.getD ib errorE) (divNorm N ib x) mode left), st)) (E, st)).2 ∧
      (l.foldl (fun acc (ib : Fin n) =>
        let (x, st) := acc.2.bladeDerivation de b ib
        (addE acc.1 (erBlade g (rb.getD ib errorE) (divNorm N ib x) mode left), st)) (E, st)).2.connect =
        st.connect := by
    intro l
    induction l with
    | nil => intro E st h; exact ⟨rfl, h, rfl⟩
    | cons i l ih =>
      intro E st h
      obtain ⟨h1, h2, h3⟩ := h.deriv b i
      simp only [List.foldl_cons]
      obtain ⟨h4, h5, h6⟩ := ih (addE E (erBlade g (rb.getD i errorE) (divNorm N i ((st.bladeDerivation de b i).1)) mode left)) (st.bladeDerivation de b i).2 h2
      refine ⟨?_, h5, h6.trans h3⟩
      rw [← h1]
      exact h4
  exact key _ _ _ h

/-- The entries of the cache are the calls made before. -/
def ConnOk (de : Fin n → Fin n → Expr K n) (h : List (ConnStep ρ n)) (st : ConnState ρ K n) : Prop :=
  DbOk de st ∧ ∀ c : ConnCall ρ n,
    (∃ p ∈ st.connect (c.mode, c.left), p.1 = connKey c.rbase c.keyBase c.left) ↔
      ConnStep.connection c ∈ h

theorem ConnOk.after (h : List (ConnStep ρ n)) : ConnOk de h (ConnState.after g de N rb h) := by
  induction h using List.reverseRecOn with
  | nil =>
    refine ⟨fun i b db hdb => ?_, fun c => ?_⟩
    · simp [ConnState.after, ConnState.new, Dict.get?] at hdb
    · simp [ConnState.after, ConnState.new]
  | append_singleton h s ih =>
    rw [ConnState.after, List.foldl_append, List.foldl_cons, List.foldl_nil,
      ← ConnState.after]
    generalize ConnState.after g de N rb h = st at ih
    obtain ⟨ih1, ih2⟩ := ih
    cases s with
    | derivation b i =>
      obtain ⟨h1, h2, h3⟩ := ih1.deriv b i
      refine ⟨h2, fun c => ?_⟩
      rw [ConnState.step, h3, ih2]
      simp
    | connection c =>
      rw [ConnState.step, ConnState.connection]
      dsimp only
      split_ifs with hk
      · obtain ⟨h1, h2, h3⟩ := ih1.loop (g := g) (N := N) (rb := rb) c.keyBase c.mode c.left
        refine ⟨h2, fun c' => ?_⟩
        dsimp only
        rw [h3, List.mem_append, ← ih2]
        by_cases hm : (c'.mode, c'.left) = (c.mode, c.left)
        · rw [hm, Function.update_self]
          obtain ⟨e1, e2⟩ := Prod.mk.inj hm
          simp only [List.mem_append, List.mem_singleton]
          constructor
          · rintro ⟨p, hp | rfl, hp'⟩
            · left; rw [← hm] at hp; exact ⟨p, by rwa [← hm], hp'⟩
            · right
              dsimp only at hp'
              rw [e2, connKey_inj] at hp'
              obtain ⟨a1, a2, a3, a4⟩ := c
              obtain ⟨b1, b2, b3, b4⟩ := c'
              simp_all
          · rintro (⟨p, hp, hp'⟩ | hc)
            · exact ⟨p, Or.inl hp, hp'⟩
            · obtain rfl := ConnStep.connection.inj hc
              exact ⟨_, Or.inr rfl, rfl⟩
        · rw [Function.update_of_ne hm]
          constructor
          · exact Or.inl
          · rintro (h | h)
            · exact h
            · obtain rfl := ConnStep.connection.inj (List.mem_singleton.mp h)
              exact absurd rfl hm
      · refine ⟨ih1, fun c' => ?_⟩
        rw [ih2, List.mem_append]
        constructor
        · exact Or.inl
        · rintro (h' | h')
          · exact h'
          · obtain rfl := ConnStep.connection.inj (List.mem_singleton.mp h')
            rw [← ih2]
            rw [Bool.not_eq_false, List.any_eq_true] at hk
            obtain ⟨k, hk1, hk2⟩ := hk
            obtain ⟨p, hp, rfl⟩ := List.mem_map.mp hk1
            exact ⟨p, hp, of_decide_eq_true hk2⟩

theorem connection_eq {h : List (ConnStep ρ n)} {st : ConnState ρ K n} (hst : ConnOk de h st)
    (c : ConnCall ρ n) : (ConnStep.connection c ∈ h → (st.connection g de N rb c).1 = .unbound) ∧
      (ConnStep.connection c ∉ h → (st.connection g de N rb c).1 =
        .value (connSum g de N rb c.keyBase c.mode c.left)) := by
  rw [ConnState.connection]
  dsimp only
  have hk : ((st.connect (c.mode, c.left)).map Prod.fst).any
      (fun k => decide (k = connKey c.rbase c.keyBase c.left)) = true ↔
      ConnStep.connection c ∈ h := by
    rw [← hst.2, List.any_eq_true]
    constructor
    · rintro ⟨k, hk1, hk2⟩
      obtain ⟨p, hp, rfl⟩ := List.mem_map.mp hk1
      exact ⟨p, hp, of_decide_eq_true hk2⟩
    · rintro ⟨p, hp, hp'⟩
      exact ⟨p.1, List.mem_map.mpr ⟨p, hp, rfl⟩, decide_eq_true hp'⟩
  refine ⟨fun hc => ?_, fun hc => ?_⟩
  · rw [if_neg (by rw [Bool.not_eq_false]; exact hk.mpr hc)]
  · rw [if_pos (by rw [← Bool.not_eq_true, hk]; exact hc)]
    rw [(hst.1.loop (g := g) (N := N) (rb := rb) c.keyBase c.mode c.left).1]

/-- C51 (first calls): in every history, a call of `connection` with arguments that did not occur
before returns the value a new algebra returns.  Missing for the full claim: repeated calls, which
raise (`C51_repeat_counterexample`). -/
theorem C51_first_call_partial (h : List (ConnStep ρ n)) (c : ConnCall ρ n)
    (hc : ConnStep.connection c ∉ h) :
    ∃ C, ((ConnState.after g de N rb h).connection g de N rb c).1 = .value C ∧
      ((ConnState.new : ConnState ρ K n).connection g de N rb c).1 = .value C := by
  refine ⟨_, (connection_eq (ConnOk.after h) c).2 hc, ?_⟩
  exact (connection_eq (ConnOk.after (g := g) (N := N) (rb := rb) []) c).2 (by simp)

/-- C51 is false: every call of `connection` with arguments that occurred before, in any history,
raises `UnboundLocalError`. -/
theorem C51_repeat_counterexample (h : List (ConnStep ρ n)) (c : ConnCall ρ n)
    (hc : ConnStep.connection c ∈ h) :
    ((ConnState.after g de N rb h).connection g de N rb c).1 = .unbound :=
  (connection_eq (ConnOk.after h) c).1 hc

/-- C51 for `blade_derivation`: after every history it returns the derivative of the blade. -/
theorem C51_blade_derivation (h : List (ConnStep ρ n)) (b : Sym n) (i : Fin n) :
    ((ConnState.after g de N rb h).bladeDerivation de b i).1 = symDerivation (de i) b :=
  ((ConnOk.after h).1.deriv b i).1

theorem mulOpE_spec (hs : g.IsSymm) (op : ProdOp) {A B : Expr K n} (hA : Valid A) (hB : Valid B) :
    Valid (mulOpE g op A B) ∧ den g (mulOpE g op A B) = opS g op (den g A) (den g B) := by
  cases op with
  | geo =>
    exact mul_spec g hs (fun t ht => isBl_mulSym g (hA.syms t ht)) fun t ht => isBl_mulSym g (hB.syms t ht)
  | outer => exact ⟨wedge_valid hA hB, den_wedge g hA hB⟩
  | inner => exact hestenesDot_spec g hs hA hB
  | left => exact leftContract_spec g hs hA hB
  | right => exact rightContract_spec g hs hA hB

/-- C51, the value: what the first call of `connection` with a basis blade returns is the sum over the
coordinates of the products of the reciprocal vectors `u_j` and the derivatives `∇_j` of the blade
(by the arc length if the basis is normalised).  For a basis that is not orthogonal the `u_j` are
`E²` times the reciprocal vectors, so the result is `E²` times the documented one. -/
theorem C51_value (hs : g.IsSymm) {Γ : Fin n → Matrix (Fin n) (Fin n) K}
    (hc : IsConnection g (some de) Γ) (hrb : rBasis g = some rb) (h : List (ConnStep ρ n))
    (r : ρ) {l : List (Fin n)} (hl : l.Pairwise (· < ·)) (op : ProdOp) (left : Bool)
    (hf : ConnStep.connection ⟨r, .blade l, op, left⟩ ∉ h) :
    ∃ (C : Expr K n) (u : Fin n → Fin n → K),
      ((ConnState.after g de N rb h).connection g de N rb ⟨r, .blade l, op, left⟩).1 = .value C ∧
      Valid C ∧
      (∀ i j, Spec.ip g (Pi.single i 1) (u j) =
        if i = j then (if isOrtho g = true then 1 else eSq g) else 0) ∧
      den g C = ∑ j, (if left = true
        then opS g op (Spec.vec g (u j)) ((scaleOf N j)⁻¹ • Spec.nabla g (Γ j) (Spec.blade g l))
        else opS g op ((scaleOf N j)⁻¹ • Spec.nabla g (Γ j) (Spec.blade g l)) (Spec.vec g (u j))) := by
  obtain ⟨-, h2⟩ := rBasis_spec hs hrb
  choose h3 u h4 h5 using h2
  refine ⟨_, u, (connection_eq (ConnOk.after h) _).2 hf, ?_⟩
  dsimp only
  have hx : ∀ j, Valid (divNorm N j ((symDerivation (de j) (.blade l)))) ∧
      den g (divNorm N j ((symDerivation (de j) (.blade l)))) =
        (scaleOf N j)⁻¹ • Spec.nabla g (Γ j) (Spec.blade g l) := by
    intro j
    obtain ⟨v, d⟩ := bladeDerivation_spec (hc j) hl
    cases N with
    | none => exact ⟨v, by simp [scaleOf, symDerivation, divNorm, d]⟩
    | some M => exact ⟨valid_smulE _ v, by simp [scaleOf, symDerivation, divNorm, d]⟩
  have key : ∀ (L : List (Fin n)) (E : Expr K n), Valid E →
      Valid (L.foldl (fun acc (ib : Fin n) => addE acc (erBlade g (rb.getD ib errorE)
        (divNorm N ib ((symDerivation (de ib) (.blade l)))) op left)) E) ∧
      den g (L.foldl (fun acc (ib : Fin n) => addE acc (erBlade g (rb.getD ib errorE)
        (divNorm N ib ((symDerivation (de ib) (.blade l)))) op left)) E) = den g E + (L.map fun j =>
        (if left = true
        then opS g op (Spec.vec g (u j)) ((scaleOf N j)⁻¹ • Spec.nabla g (Γ j) (Spec.blade g l))
        else opS g op ((scaleOf N j)⁻¹ • Spec.nabla g (Γ j) (Spec.blade g l)) (Spec.vec g (u j)))).sum := by
    intro L
    induction L with
    | nil => intro E hE; exact ⟨hE, by simp⟩
    | cons i L ih =>
      intro E hE
      have he : Valid (erBlade g (rb.getD i errorE) (divNorm N i ((symDerivation (de i) (.blade l)))) op left) ∧
          den g (erBlade g (rb.getD i errorE) (divNorm N i ((symDerivation (de i) (.blade l)))) op left) = (if left = true
        then opS g op (Spec.vec g (u i)) ((scaleOf N i)⁻¹ • Spec.nabla g (Γ i) (Spec.blade g l))
        else opS g op ((scaleOf N i)⁻¹ • Spec.nabla g (Γ i) (Spec.blade g l)) (Spec.vec g (u i))) := by
        rw [erBlade]
        cases left with
        | true =>
          have := mulOpE_spec hs op (h3 i) (hx i).1
          rw [h4 i, (hx i).2] at this
          simpa using this
        | false =>
          have := mulOpE_spec hs op (hx i).1 (h3 i)
          rw [h4 i, (hx i).2] at this
          simpa using this
      obtain ⟨a1, a2⟩ := ih _ (valid_addE hE he.1)
      rw [List.foldl_cons]
      refine ⟨a1, ?_⟩
      rw [a2, den_addE, he.2, List.map_cons, List.sum_cons, add_assoc]
  obtain ⟨a1, a2⟩ := key (List.finRange n) [] valid_nil
  refine ⟨a1, fun i j => ?_, ?_⟩
  · rw [h5]; rfl
  · rw [connSum, a2, den_nil, zero_add, ← List.ofFn_eq_map, List.sum_ofFn]

/-- Non-vacuity: in polar coordinates the hypotheses of `C51_value` hold. -/
example (N : Option (Fin 2 → Ex.Fun 2)) (hN : N = none ∨ N = some Ex.polarN) :
    ∃ de rb Γ, (currentMetric N Ex.polar).IsSymm ∧
      IsConnection (currentMetric N Ex.polar) (some de) Γ ∧
      rBasis (currentMetric N Ex.polar) = some rb := by
  obtain ⟨d, hd⟩ := Ex.polar_de N hN
  obtain ⟨Γ, h2, -⟩ := de_spec Ex.polar_symm Ex.partialD hd
  have hr : ∃ rb, rBasis (currentMetric N Ex.polar) = some rb := by
    rw [GA.de] at hd
    split_ifs at hd <;>
    · obtain ⟨rb, h, -⟩ := Option.bind_eq_some_iff.mp hd
      exact ⟨rb, h⟩
  obtain ⟨rb, hrb⟩ := hr
  exact ⟨d, rb, Γ, currentMetric_symm Ex.polar_symm N, h2, hrb⟩

end GA
