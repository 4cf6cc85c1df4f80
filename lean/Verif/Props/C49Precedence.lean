import Verif.Proofs.ParserLine

/-!
# C49: the parentheses that `GAeval` inserts

Expressions, their text and the two ways of reading a string (by the operator order that was given to
`def_prec`, and by Python) are defined in `Verif/Spec/Parser.lean`.
-/

set_option maxRecDepth 10000

namespace GA

open GA.Parser

/-- C49: an expression, written with blanks anywhere, is rewritten to the same expression with parentheses
around the products that are operands of an operator of another group, and around the whole expression if
it is a product; whatever the operator order, the history and the nesting of parentheses.
Missing for the full claim: chains of inner products `A|B|C`, expressions that begin and end with a
product, and expressions in which a part occurs twice.  There the claim is false, see
`C49_chain_counterexample`, `C49_raises_counterexample`, `C49_value_counterexample` and
`C49_repeat_counterexample`. -/
theorem C49_precedence_partial {ops : List Op} (hops : ops.Nodup) (calls : ℕ) (e : PExpr) (he : e.WF ops)
    (hrep : e.NoRepeat ops.length) (hparens : e.SafeParens ops.length) (htop : e.SafeTop ops.length)
    {s : List Char} (hs : s.filter (· ≠ ' ') = e.text) :
    parseLine ops calls s = some (e.grouped ops.length).text := by
  rw [parseLine, hs, parseLineTk_expr hops calls e he hrep hparens htop, Option.map_some]
  simp [Tk.chars, List.flatMap_map]

/-- C49: what Python makes of the rewritten string is what the operator order makes of the given one.
Restrictions as in `C49_precedence_partial`. -/
theorem C49_meaning_partial {ops : List Op} (hops : ops.Nodup) (calls : ℕ) (e : PExpr) (he : e.WF ops)
    (hrep : e.NoRepeat ops.length) (hparens : e.SafeParens ops.length) (htop : e.SafeTop ops.length)
    {s : List Char} (hs : s.filter (· ≠ ' ') = e.text) :
    ∃ r, parseLine ops calls s = some r ∧ readString pyRules r = some e.tree ∧
      readString (orderRules ops) (s.filter (· ≠ ' ')) = some e.tree := by
  refine ⟨_, C49_precedence_partial hops calls e he hrep hparens htop hs, readString_py e he, ?_⟩
  rw [hs]
  exact readString_order hops e he

/-! ### Examples -/

/-- The documented example `X|Y^Z*W`. -/
def docExpr : PExpr := .op 2 (.op 1 (.op 0 (.name ['X']) '|' (.name ['Y'])) '^' (.name ['Z'])) '*'
  (.name ['W'])

/-- `(A|B)^(C1+D*E)*F - (G)^H<K`, with nested parentheses, sums and two products. -/
def bigExpr : PExpr :=
  .op 3 (.op 3 (.name ['Q']) '+' (.op 2 (.op 1 (.paren (.op 0 (.name ['A']) '|' (.name ['B']))) '^'
    (.paren (.op 3 (.name ['C', '1']) '+' (.op 2 (.name ['D']) '*' (.name ['E']))))) '*' (.name ['F']))) '-'
    (.op 1 (.paren (.name ['G'])) '^' (.op 0 (.name ['H']) '<' (.name ['K'])))

theorem docExpr_ok : docExpr.WF [.dots, .wedge, .times] ∧ docExpr.NoRepeat 3 ∧ docExpr.SafeParens 3 ∧
    docExpr.SafeTop 3 := by
  refine ⟨?_, ?_, ?_, ?_⟩
  · simp [docExpr, PExpr.WF, PExpr.IsOp, PExpr.rank, opChar]
    decide
  · rw [PExpr.NoRepeat]; decide +kernel
  · intro e' h
    revert h
    simp [docExpr, PExpr.parts, PExpr.self, PExpr.isProduct, PExpr.rank]
  · rw [PExpr.SafeTop]; decide +kernel

theorem bigExpr_ok : bigExpr.WF [.dots, .wedge, .times] ∧ bigExpr.NoRepeat 3 ∧ bigExpr.SafeParens 3 ∧
    bigExpr.SafeTop 3 := by
  refine ⟨?_, ?_, ?_, ?_⟩
  · simp [bigExpr, PExpr.WF, PExpr.IsOp, PExpr.rank, opChar]
    decide
  · rw [PExpr.NoRepeat]; decide +kernel
  · intro e' h
    simp [bigExpr, PExpr.parts, PExpr.self, PExpr.isProduct, PExpr.rank] at h
    rcases h with rfl | rfl | rfl <;> decide
  · rw [PExpr.SafeTop]; decide +kernel

example (calls : ℕ) : parseLine [.dots, .wedge, .times] calls "X|Y ^ Z*W".toList =
    some "(((X|Y)^Z)*W)".toList :=
  C49_precedence_partial (by decide) calls docExpr docExpr_ok.1 docExpr_ok.2.1 docExpr_ok.2.2.1
    docExpr_ok.2.2.2 (by decide +kernel)

example (calls : ℕ) : parseLine [.dots, .wedge, .times] calls
    "Q + (A|B)^(C1+D*E)*F - (G)^H<K".toList =
    some "Q+(((A|B)^(C1+(D*E)))*F)-((G)^(H<K))".toList :=
  C49_precedence_partial (by decide) calls bigExpr bigExpr_ok.1 bigExpr_ok.2.1 bigExpr_ok.2.2.1
    bigExpr_ok.2.2.2 (by decide +kernel)

/-- Reading is not trivial: by the order `X|Y^Z*W` is `((X|Y)^Z)*W`; for Python it is `X|(Y^(Z*W))`. -/
example : readString (orderRules [.dots, .wedge, .times]) "X|Y^Z*W".toList =
    some (.node (.node (.node (.leaf ['X']) '|' (.leaf ['Y'])) '^' (.leaf ['Z'])) '*' (.leaf ['W'])) ∧
    readString pyRules "X|Y^Z*W".toList =
    some (.node (.leaf ['X']) '|' (.node (.leaf ['Y']) '^' (.node (.leaf ['Z']) '*' (.leaf ['W'])))) := by
  decide +kernel

/-- C49 fails: with the order inner products, `*`, `^` the string `X+A|B^A|B*C`, where a part occurs twice,
is rewritten to `X+(A|B)^((A|B)*C)`, and Python reads this as `(X+(A|B))^((A|B)*C)`. -/
theorem C49_repeat_counterexample : ∃ r,
    parseLine [.dots, .times, .wedge] 0 "X+A|B^A|B*C".toList = some r ∧
    (readString (orderRules [.dots, .times, .wedge]) "X+A|B^A|B*C".toList).isSome = true ∧
    readString pyRules r ≠ readString (orderRules [.dots, .times, .wedge]) "X+A|B^A|B*C".toList := by
  refine ⟨"X+(A|B)^((A|B)*C)".toList, ?_, ?_, ?_⟩ <;> decide +kernel

/-- C49 fails: `X+A|B|C` is not rewritten such that Python reads it from the left or from the right. -/
theorem C49_chain_meaning_counterexample : ∃ r,
    parseLine [.dots, .wedge, .times] 0 "X+A|B|C".toList = some r ∧
    readString pyRules r = some (.node (.node (.leaf ['X']) '+' (.node (.leaf ['A']) '|' (.leaf ['B'])))
      '|' (.leaf ['C'])) := by
  refine ⟨"X+(A|B)|C".toList, ?_, ?_⟩ <;> decide +kernel

end GA
