import Verif.Proofs.MinusRead

/-!
# C49: expressions that begin with a minus sign
-/

set_option maxRecDepth 10000

namespace GA
open GA.Parser (Op parseLine)

/-- C49: an expression with a minus sign in front is rewritten to the minus sign and the expression with the
parentheses that the order implies.  Restrictions: no product and no part in parentheses occurs twice, and no
sum in parentheses both begins and ends with a product; the whole expression may. -/
theorem C49_minus_partial {ops : List Op} (hops : ops.Nodup) (calls : ℕ) (e : PExpr) (he : e.WF ops)
    (hrep : e.NoRepeat ops.length) (hparens : e.SafeParens ops.length)
    {s : List Char} (hs : s.filter (· ≠ ' ') = '-' :: e.text) :
    parseLine ops calls s = some ('-' :: (e.grouped ops.length).text) :=
  parseLine_neg hops calls e he hrep hparens hs

/-- C49: a string with a minus sign in front is rewritten, or raises, as the same string with `0` in front of it,
whatever the string is. -/
theorem C49_zero_minus (ops : List Op) (calls : ℕ) (t : List Char) :
    parseLine ops calls ('0' :: '-' :: t) = (parseLine ops calls ('-' :: t)).map fun r => '0' :: r :=
  Parser.parseLine_minus ops calls t

/-- `-A^B + 2*C^D`, which begins and ends with products. -/
example (calls : ℕ) : parseLine [.dots, .wedge, .times] calls "-A^B + 2*C^D".toList =
    some "-(A^B)+(2*(C^D))".toList := by
  refine (C49_minus_partial (ops := [.dots, .wedge, .times]) (by decide) calls
    (.op 3 (.op 1 (.name ['A']) '^' (.name ['B'])) '+'
      (.op 2 (.name ['2']) '*' (.op 1 (.name ['C']) '^' (.name ['D'])))) ?_ ?_ ?_ rfl).trans ?_
  · refine ⟨⟨⟨by simp, by decide⟩, ⟨by simp, by decide⟩, Or.inl ⟨.wedge, rfl, rfl⟩, by decide, by decide⟩,
      ⟨⟨by simp, by decide⟩, ⟨⟨by simp, by decide⟩, ⟨by simp, by decide⟩, Or.inl ⟨.wedge, rfl, rfl⟩, by decide,
        by decide⟩, Or.inl ⟨.times, rfl, rfl⟩, by decide, by decide⟩, Or.inr ⟨rfl, Or.inl rfl⟩, by decide, by decide⟩
  · unfold PExpr.NoRepeat; decide
  · intro e' h
    exact absurd h (by simp [PExpr.parts, PExpr.self, PExpr.isProduct, PExpr.rank])
  · decide

end GA
