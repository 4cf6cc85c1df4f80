import Verif.Proofs.MltText

/-!
# C84: the LaTeX form of a multilinear function
-/

set_option linter.unusedSectionVars false
set_option maxRecDepth 10000

namespace GA
open Tex
variable {A : Type*} {n : ℕ} [CommRing A]

/-! ### The terms -/

/-- C84: if the expanded expression of a multilinear function is a sum, then the list of its terms has the
components of the function: each coefficient is the value of the function at the basis vectors whose
symbols it is multiplied with, no component is listed twice and every component that is not zero is listed.
The order is that of the generic vectors and then of the basis vectors. -/
theorem C84_components_partial {order : List ℕ} {slots : ℕ} (ho : ∀ i ∈ order, i < slots)
    {ts : List (SExpr A n)} (hne : ts ≠ []) (ht : ∀ t ∈ ts, IsTerm order t) :
    ∃ L, (∀ a, expandExpr a slots (.add ts) = some L) ∧
      (∀ t ∈ L, ∃ I : ℕ → Fin n, t.2 = order.map (fun i => (i, I i)) ∧
        t.1 = (SExpr.add ts).value (basisArgs I)) ∧
      (∀ I : ℕ → Fin n, (SExpr.add ts).value (basisArgs I) ≠ 0 →
        order.map (fun i => (i, I i)) ∈ L.map Prod.snd) ∧
      L.Pairwise (fun t u => slotPos t.2 < slotPos u.2) ∧
      ∀ a, (L.map fun t => t.1 * slotProd a t.2).sum = (SExpr.add ts).value a := by
  have hsplit : ∀ a b, ∀ t ∈ ts, splitTerm a slots t = splitTerm b slots t := fun a b t h => by
    obtain ⟨c, I, hc⟩ := (ht t h).split ho
    rw [hc, hc]
  obtain ⟨L, h1, h2, h3, h4⟩ := expandExpr_spec (0 : ℕ → Fin n → A) slots hne
  have hval : ∀ a, (L.map fun t => t.1 * slotProd a t.2).sum = (SExpr.add ts).value a := by
    intro a
    rw [h2 a, SExpr.value, valueSum_eq]
    congr 1
    refine List.map_congr_left fun t h => ?_
    rw [hsplit 0 a t h]
    exact (ht t h).value slots a
  have hL : ∀ t ∈ L, ∃ I : ℕ → Fin n, t.2 = order.map fun i => (i, I i) := by
    intro t h
    obtain ⟨u, hu, e⟩ := (h4 t.2).mp (List.mem_map_of_mem h)
    obtain ⟨c, I, hc⟩ := (ht u hu).split ho
    exact ⟨I, by rw [e, hc]⟩
  have hsum : ∀ I : ℕ → Fin n, (SExpr.add ts).value (basisArgs I) =
      (L.map fun t => if t.2 = order.map (fun i => (i, I i)) then t.1 else 0).sum := by
    intro I
    rw [← hval]
    congr 1
    refine List.map_congr_left fun t h => ?_
    obtain ⟨J, hJ⟩ := hL t h
    rw [hJ, slotProd_basis]
    split_ifs <;> simp
  have hnd : L.Pairwise fun t u => t.2 ≠ u.2 := h3.imp fun h e => by rw [e] at h; exact lt_irrefl _ h
  refine ⟨L, fun a => ?_, fun t h => ?_, fun I hI => ?_, h3, hval⟩
  · rw [← h1, expandExpr, expandExpr, SExpr.args]
    rw [List.map_congr_left (hsplit a 0)]
  · obtain ⟨I, hI⟩ := hL t h
    refine ⟨I, hI, ?_⟩
    rw [hsum, ← hI]
    clear hsum hval h3 h4 h2 h1 hL
    induction L with
    | nil => simp at h
    | cons u L ih =>
      rw [List.pairwise_cons] at hnd
      rw [List.map_cons, List.sum_cons]
      rcases List.mem_cons.mp h with rfl | h'
      · rw [if_pos rfl, List.sum_eq_zero, add_zero]
        intro x hx
        obtain ⟨v, hv, rfl⟩ := List.mem_map.mp hx
        exact if_neg fun e => hnd.1 v hv e.symm
      · rw [if_neg (hnd.1 t h'), zero_add]
        exact ih hnd.2 h'
  · by_contra hn
    apply hI
    rw [hsum]
    refine List.sum_eq_zero fun x hx => ?_
    obtain ⟨v, hv, rfl⟩ := List.mem_map.mp hx
    exact if_neg fun e => hn (by rw [← e]; exact List.mem_map_of_mem hv)

/-- C84 is false for the function zero: an exception is raised. -/
theorem C84_zero_counterexample (a : ℕ → Fin n → A) (slots lcnt nargs : ℕ) (P : MltPrinter A n)
    (h : 2 ≤ nargs) : mltLatex a slots P lcnt nargs (.atom 0) = none := by
  rw [mltLatex, if_neg (by omega)]
  rfl

/-- C84 is false for functions whose expression is one product: the factors are taken for terms, so that
`T(a, b) = 3 a^x b^y` is printed as the number 3. -/
theorem C84_product_counterexample (a : ℕ → Fin 2 → ℚ) :
    expandExpr a 2 (.mul [.atom 3, .slot 0 0, .slot 1 1]) = some [(3, [])] ∧
      ∃ b : ℕ → Fin 2 → ℚ, (SExpr.mul [.atom 3, .slot 0 0, .slot 1 1]).value b ≠ 3 := by
  refine ⟨?_, fun _ _ => 0, ?_⟩
  · simp only [expandExpr, SExpr.args, List.map_cons, List.map_nil, splitTerm, List.foldl_nil]
    simp [List.insertionSort, List.orderedInsert, mltGroup, slotPos]
    norm_num
  · simp [SExpr.value, SExpr.valueProd]

/-! ### The text -/

/-- C84: the text is an `aligned` environment with the sum of the terms, in order, on lines of `lcnt`
terms.  Each term is the coefficient, a sum being in parentheses, and the symbols it is multiplied with,
provided that no coefficient which is not a sum ends in a control word. -/
theorem C84_text_partial {P : MltPrinter A n} (hP : P.Tidy) {lcnt : ℕ} (hl : 0 < lcnt)
    {L : List (A × List (ℕ × Fin n))} (hne : L ≠ [])
    (hc : ∀ t ∈ L, P.isAdd t.1 = false → Closed (P.latex t.1)) :
    ∃ s, mltLines P lcnt L = some s ∧ lex s = lex "\\begin{aligned}".toList ++
      tokensFrom P lcnt L.length 0 L ++ lex "\\end{aligned}".toList :=
  mltLines_spec hP hl L hc hne

/-- C84: the whole text, for functions of at least two arguments whose expression is a sum. -/
theorem C84_latex_partial {P : MltPrinter A n} (hP : P.Tidy) {lcnt nargs : ℕ} (hl : 0 < lcnt)
    (hr : 2 ≤ nargs) {order : List ℕ} {slots : ℕ} (ho : ∀ i ∈ order, i < slots)
    {ts : List (SExpr A n)} (hne : ts ≠ []) (ht : ∀ t ∈ ts, IsTerm order t)
    (hc : ∀ c, P.isAdd c = false → Closed (P.latex c)) (a : ℕ → Fin n → A) :
    ∃ L s, mltLatex a slots P lcnt nargs (.add ts) = some s ∧
      (∀ t ∈ L, ∃ I : ℕ → Fin n, t.2 = order.map (fun i => (i, I i)) ∧
        t.1 = (SExpr.add ts).value (basisArgs I)) ∧
      (∀ b, (L.map fun t => t.1 * slotProd b t.2).sum = (SExpr.add ts).value b) ∧
      L.Pairwise (fun t u => slotPos t.2 < slotPos u.2) ∧
      lex s = lex "\\begin{aligned}".toList ++ tokensFrom P lcnt L.length 0 L ++
        lex "\\end{aligned}".toList := by
  obtain ⟨L, h1, h2, h3, h4, h5⟩ := C84_components_partial ho hne ht
  have hL : L ≠ [] := by
    rintro rfl
    have h6 := h1 a
    rw [expandExpr] at h6
    split at h6
    · simp at h6
    · next t l _ =>
      have := (mltGroup_mem t.1 t.2 l t.2).mpr (Or.inl rfl)
      rw [Option.some.inj h6] at this
      simp at this
  obtain ⟨s, h6, h7⟩ := C84_text_partial hP hl hL fun t _ => hc t.1
  exact ⟨L, s, by rw [mltLatex, if_neg (by omega), h1, Option.bind_some, h6], h2, h5, h4, h7⟩

/-- A coefficient that ends in a control word and the first letter of the symbol after it are read as
another control word: `\alpha` times `a^x` is printed as `\alphaa^x`. -/
theorem C84_control_word_counterexample {P : MltPrinter A n} {c : A}
    {s : ℕ × Fin n} (h1 : P.latex c = "\\alpha".toList) (h2 : P.isAdd c = false)
    (h3 : P.slot s = "a^x".toList) :
    ∃ text, mltLines P 1 [(c, [s])] = some text ∧ "\\alphaa".toList ∈ lex text ∧
      "\\alpha".toList ∉ lex text := by
  refine ⟨_, rfl, ?_⟩
  simp only [mltLoop, mltTerm, h1, h2, h3, List.foldl_cons, List.foldl_nil, if_true, List.length_cons,
    List.length_nil, zero_add, true_or, Nat.mod_self, Bool.false_eq_true, if_false, List.append_nil]
  decide +kernel

/-- C84: with no terms on a line an exception is raised. -/
theorem C84_no_terms_on_a_line (P : MltPrinter A n) (L : List (A × List (ℕ × Fin n))) :
    mltLines P 0 L = none := rfl

/-! ### Concrete cases -/

namespace Ex

/-- Texts of coefficients and symbols: coefficients as strokes. -/
def mltP : MltPrinter ℚ 2 where
  str c := (if c < 0 then ['-'] else []) ++ 'I' :: List.replicate c.num.natAbs 'i'
  latex c := (if c < 0 then ['-'] else []) ++ 'I' :: List.replicate c.num.natAbs 'i'
  isAdd c := decide (c = 5)
  slot s := [['a', 'b', 'c'].getD s.1 'd', '^', ['x', 'y'].getD s.2.1 'z']

theorem mltP_latex (c : ℚ) : Closed (mltP.latex c) := by
  refine closed_of_plain fun ch h => ?_
  rcases List.mem_append.mp h with h | h
  · split_ifs at h
    · rw [List.mem_singleton.mp h]; decide
    · simp at h
  · rcases List.mem_cons.mp h with rfl | h
    · decide
    · rw [List.eq_of_mem_replicate h]; decide

theorem mltP_tidy : mltP.Tidy := by
  refine ⟨fun c => (mltP_latex c).complete, fun s => ?_, fun c => ?_, fun c _ => ?_⟩
  · refine (closed_of_plain fun ch h => ?_).complete
    obtain ⟨i, k⟩ := s
    simp only [mltP, List.mem_cons, List.not_mem_nil, or_false] at h
    rcases h with rfl | rfl | rfl
    · rcases i with _ | _ | _ | i <;> simp
    · decide
    · fin_cases k <;> decide
  · simp only [mltP]
    split_ifs <;> simp [lex, lexGo]
  · simp only [mltP]
    split_ifs <;> simp [lex, lexGo]

/-- The expression `3 a^x b^y - 4 a^x b^x + 2 a^x b^y`. -/
def bilinear : List (SExpr ℚ 2) :=
  [.mul [.atom 3, .slot 0 0, .slot 1 1], .mul [.atom (-4), .slot 0 0, .slot 1 0],
    .mul [.slot 0 0, .atom 2, .slot 1 1]]

theorem bilinear_terms : ∀ t ∈ bilinear, IsTerm [0, 1] t := by
  intro t h
  simp only [bilinear, List.mem_cons, List.not_mem_nil, or_false] at h
  rcases h with rfl | rfl | rfl
  · refine ⟨_, fun i => if i = 0 then 0 else 1, rfl, by decide, fun f hf => ?_⟩
    simp only [List.mem_cons, List.not_mem_nil, or_false] at hf
    rcases hf with rfl | rfl | rfl <;> simp
  · refine ⟨_, fun i => 0, rfl, by decide, fun f hf => ?_⟩
    simp only [List.mem_cons, List.not_mem_nil, or_false] at hf
    rcases hf with rfl | rfl | rfl <;> simp
  · refine ⟨_, fun i => if i = 0 then 0 else 1, rfl, by decide, fun f hf => ?_⟩
    simp only [List.mem_cons, List.not_mem_nil, or_false] at hf
    rcases hf with rfl | rfl | rfl <;> simp

example := C84_latex_partial mltP_tidy (lcnt := 1) one_pos (nargs := 2) le_rfl (slots := 3)
  (by decide : ∀ i ∈ [0, 1], i < 3) (by simp [bilinear]) bilinear_terms (fun c _ => mltP_latex c)
  (fun _ _ => 0)

/-- The two products with the same symbols are one term, whose coefficient 5 is taken for a sum here. -/
example : mltLines mltP 1 [(-4, [(0, 0), (1, 0)]), (5, [(0, 0), (1, 1)])] = some
    "\\begin{aligned}  & -Iiiiia^x b^x \\\\  &  + \\left ( Iiiiii\\right ) a^x b^y  \\end{aligned} ".toList := by
  decide +kernel

example : mltLines mltP 2 [(1, [(0, 0)]), (2, [(0, 1)]), (-1, [(1, 0)]), (3, [(1, 1)])] = some
    "\\begin{aligned}  & Iia^x  + Iiia^y \\\\  & -Iib^x  + Iiiib^y \\\\  \\end{aligned} ".toList := by
  decide +kernel

end Ex
end GA
