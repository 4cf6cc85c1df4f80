import Verif.Proofs.MinusRead
import Verif.Props.C49Precedence
import Verif.Proofs.Examples

/-!
# C94: sessions with `def_prec` and `GAeval`
-/

set_option linter.unusedSectionVars false
set_option maxRecDepth 10000

namespace GA
open GA.Parser (Op parseLine)

variable {n : ℕ} {R : Type*} [CommRing R] [DecidableEq R] [Invertible (2 : R)]
  {g : Matrix (Fin n) (Fin n) R}

/-- C94: after any history `GAeval(s)` returns the value that `s`, read with the operator order of the last
legal `def_prec`, has in the Clifford algebra, where every name has the value last assigned to it in the
dictionary given to that `def_prec`, before or after it.  Restrictions: those of `C49_precedence_partial`,
and `^`, `|`, `<`, `>` are not used between two numbers. -/
theorem C94_value_partial (hs : g.IsSymm) {cmds : List (Cmd R n)} {d : ℕ} {ops : List Op}
    (hp : LastPrec cmds d ops) (hops : ops.Nodup) (e : PExpr) (he : e.WF ops)
    (hrep : e.NoRepeat ops.length) (hparens : e.SafeParens ops.length) (htop : e.SafeTop ops.length)
    {s : List Char} (htext : s.filter (· ≠ ' ') = e.text) {ν : List Char → Val R n}
    (hν : ∀ name ∈ e.tree.leaves, ¬ name.all Char.isDigit = true →
      LastValue cmds d name (ν name) ∧ (ν name).WF g)
    (ha : e.tree.Algebraic fun name => (ν name).IsMv) (calls : ℕ) :
    ∃ t v, readString (orderRules ops) (s.filter (· ≠ ' ')) = some t ∧
      (Shell.run cmds).gaEval g s calls = some v ∧ v.WF g ∧
      v.value g = t.value g fun name => (ν name).value g := by
  obtain ⟨r, r1, r2, r3⟩ := C49_meaning_partial hops calls e he hrep hparens htop htext
  obtain ⟨p1, p2⟩ := run_prec hp
  obtain ⟨v, v1, v2, v3, -⟩ := evalTree_spec (d := (Shell.run cmds).dicts d) hs (ops_tree e he)
    (fun name h1 h2 => ⟨run_value (hν name h1 h2).1, (hν name h1 h2).2⟩) ha
  refine ⟨e.tree, v, r3, ?_, v2, v3⟩
  rw [Shell.gaEval, p2, r1, Option.bind_some, r2, Option.bind_some, p1]
  exact v1

/-- C94: the same for a string that begins with a minus sign.  The whole expression may begin and end with
products. -/
theorem C94_minus_partial (hs : g.IsSymm) {cmds : List (Cmd R n)} {d : ℕ} {ops : List Op}
    (hp : LastPrec cmds d ops) (hops : ops.Nodup) (e : PExpr) (he : e.WF ops)
    (hrep : e.NoRepeat ops.length) (hparens : e.SafeParens ops.length)
    {s : List Char} (htext : s.filter (· ≠ ' ') = '-' :: e.text) {ν : List Char → Val R n}
    (hν : ∀ name ∈ e.tree.leaves, ¬ name.all Char.isDigit = true →
      LastValue cmds d name (ν name) ∧ (ν name).WF g)
    (ha : e.tree.Algebraic fun name => (ν name).IsMv) (calls : ℕ) :
    ∃ t v, readString (orderRules ops) (s.filter (· ≠ ' ')) = some t ∧
      (Shell.run cmds).gaEval g s calls = some v ∧ v.WF g ∧
      v.value g = t.value g fun name => (ν name).value g := by
  have r1 := parseLine_neg hops calls e he hrep hparens htext
  have hfol : (e.grouped ops.length).Follows pyRules := by
    rw [PExpr.grouped]
    split_ifs
    · exact follows_py e he
    · exact follows_py e he
  have r2 := readString_neg pyRules pyRules_name rfl _ hfol
  have r3 := readString_neg (orderRules ops) (orderRules_name ops) (orderRules_close ops) e
    (follows_order hops e he)
  obtain ⟨p1, p2⟩ := run_prec hp
  obtain ⟨v, v1, v2, v3, -⟩ := evalTree_spec (d := (Shell.run cmds).dicts d) hs
    (t := (e.grouped ops.length).negRead) (ops_negRead_grouped e he)
    (fun name h1 h2 => by
      rw [leaves_negRead, tree_grouped] at h1
      exact ⟨run_value (hν name h1 h2).1, (hν name h1 h2).2⟩)
    (by rw [algebraic_negRead, tree_grouped]; exact ha)
  refine ⟨e.negRead, v, by rw [htext]; exact r3, ?_, v2, ?_⟩
  · rw [Shell.gaEval, p2, r1, Option.bind_some, r2, Option.bind_some, p1]
    exact v1
  · rw [v3, value_grouped_neg e he]

/-- C94: `def_prec` accepts exactly the legal orders. -/
theorem C94_legal (S : Shell R n) (d : ℕ) (s : List Char) :
    (S.defPrec d s).isSome = true ↔ ∃ ops, LegalOrder s ops := by
  constructor
  · intro h
    by_contra k
    rw [defPrec_illegal fun ops h' => k ⟨ops, h'⟩] at h
    cases h
  · rintro ⟨ops, h⟩
    rw [defPrec_legal h]; rfl

/-- C94: a `def_prec` that raises an exception changes no later result. -/
theorem C94_illegal (g : Matrix (Fin n) (Fin n) R) (pre post : List (Cmd R n)) (d : ℕ) {s : List Char}
    (h : ∀ ops, ¬ LegalOrder s ops) (s' : List Char) (calls : ℕ) :
    (Shell.run (pre ++ Cmd.defPrec d s :: post)).gaEval g s' calls =
      (Shell.run (pre ++ post)).gaEval g s' calls := by
  rw [Shell.run, Shell.run, List.foldl_append, List.foldl_append, List.foldl_cons, Shell.step,
    defPrec_illegal h, Option.getD_none]

/-- C94: earlier calls of `GAeval` change no later result. -/
theorem C94_pure (g : Matrix (Fin n) (Fin n) R) (pre post : List (Cmd R n)) (s : List Char) (calls : ℕ)
    (s' : List Char) (calls' : ℕ) :
    (Shell.run (pre ++ Cmd.eval s calls :: post)).gaEval g s' calls' =
      (Shell.run (pre ++ post)).gaEval g s' calls' := by
  rw [Shell.run, Shell.run, List.foldl_append, List.foldl_append, List.foldl_cons]
  rfl

theorem evalTree_empty {t : Tree} {v : Val R n} (h : evalTree g (fun _ => none) t = some v) :
    ∃ k, v = .int k := by
  induction t generalizing v with
  | leaf s =>
    rw [evalTree, leafVal] at h
    split_ifs at h with h1 h2
    obtain ⟨k, -, rfl⟩ := Option.map_eq_some_iff.mp h
    exact ⟨_, rfl⟩
  | neg t ih =>
    rw [evalTree] at h
    obtain ⟨x, hx, rfl⟩ := Option.map_eq_some_iff.mp h
    obtain ⟨k, rfl⟩ := ih hx
    exact ⟨-k, rfl⟩
  | node l c r ihl ihr =>
    rw [evalTree] at h
    obtain ⟨x, hx, h⟩ := Option.bind_eq_some_iff.mp h
    obtain ⟨y, hy, h⟩ := Option.bind_eq_some_iff.mp h
    obtain ⟨op, -, h⟩ := Option.bind_eq_some_iff.mp h
    obtain ⟨a, rfl⟩ := ihl hx
    obtain ⟨b, rfl⟩ := ihr hy
    obtain ⟨k, -, rfl⟩ := Option.map_eq_some_iff.mp (show (intOp op a b).map Val.int = some v from h)
    exact ⟨k, rfl⟩

/-- C94: without a legal `def_prec` no name is defined: `GAeval` returns only integers. -/
theorem C94_unset {cmds : List (Cmd R n)}
    (h : ∀ d s, Cmd.defPrec d s ∈ cmds → ∀ ops, ¬ LegalOrder s ops) {s : List Char} {calls : ℕ}
    {v : Val R n} (hv : (Shell.run cmds).gaEval g s calls = some v) : ∃ k, v = .int k := by
  have := (foldl_prec (Shell.init R n) h).1
  rw [Shell.gaEval] at hv
  obtain ⟨r, -, hv⟩ := Option.bind_eq_some_iff.mp hv
  obtain ⟨t, -, hv⟩ := Option.bind_eq_some_iff.mp hv
  rw [show (Shell.run cmds).gd = none from this] at hv
  exact evalTree_empty hv

/-- C94 fails for two integers: `GAeval('2^3')` is the bitwise 1, not the outer product 6. -/
theorem C94_integers_counterexample (calls : ℕ) :
    (Shell.run [Cmd.defPrec 0 "<>|,^,*".toList] : Shell ℚ 2).gaEval 1 "2^3".toList calls = some (.int 1) ∧
    (∃ t, readString (orderRules [.dots, .wedge, .times]) "2^3".toList = some t ∧
      ∀ x, t.value (1 : Matrix (Fin 2) (Fin 2) ℚ) x = 6) := by
  constructor
  · have hp : LastPrec [Cmd.defPrec 0 "<>|,^,*".toList] 0 [Op.dots, .wedge, .times] (R := ℚ) (n := 2) :=
      ⟨[], _, [], rfl, ⟨by simp, rfl⟩, by simp⟩
    obtain ⟨p1, p2⟩ := run_prec hp
    rw [Shell.gaEval, p1, p2]
    rfl
  · refine ⟨.node (.leaf ['2']) '^' (.leaf ['3']), by decide +kernel, fun x => ?_⟩
    have h2 : digitsValue ['2'] = 2 := by decide
    have h3 : digitsValue ['3'] = 3 := by decide
    have e2 : (Tree.leaf ['2']).value (1 : Matrix (Fin 2) (Fin 2) ℚ) x = algebraMap ℚ _ 2 := by
      rw [Tree.value, if_pos (by decide), h2, map_ofNat]; rfl
    have e3 : (Tree.leaf ['3']).value (1 : Matrix (Fin 2) (Fin 2) ℚ) x = algebraMap ℚ _ 3 := by
      rw [Tree.value, if_pos (by decide), h3, map_ofNat]; rfl
    rw [Tree.value, e2, e3]
    show Spec.wedge _ _ _ = _
    rw [wedge_algebraMap, ← map_mul]
    norm_num
    exact map_ofNat _ 6

namespace Ex

/-- A session: `X` is assigned twice, the second time after `def_prec`; an illegal `def_prec` and another
dictionary play no role. -/
def session : List (Cmd ℚ 3) :=
  [.assign 0 ['X'] (.int 7), .assign 0 ['Y'] (.mv (Mv.vector ![1, 2, 0])), .defPrec 1 "*".toList,
    .assign 0 ['Z'] (.mv (Mv.vector ![0, 1, 5])), .assign 0 ['W'] (.int 2), .defPrec 0 "<>|,^,*".toList,
    .assign 1 ['X'] (.scalar 3), .assign 0 ['X'] (.mv (Mv.vector ![1, 1, 1])), .defPrec 1 "|,^".toList,
    .eval "X*Y".toList 0]

def sessionVal (s : List Char) : Val ℚ 3 :=
  if s = ['X'] then .mv (Mv.vector ![1, 1, 1]) else if s = ['Y'] then .mv (Mv.vector ![1, 2, 0])
  else if s = ['Z'] then .mv (Mv.vector ![0, 1, 5]) else .int 2

theorem illegal_bar : ∀ ops, ¬ LegalOrder "|,^".toList ops := by
  intro ops h
  have := legalOrder_iff.mp h
  rw [show (splitOn ',' "|,^".toList).mapM opOfText = none from by decide] at this
  cases this

theorem session_prec : LastPrec session 0 [.dots, .wedge, .times] := by
  refine ⟨session.take 5, _, session.drop 6, rfl, ⟨by simp, by decide⟩, ?_⟩
  intro d' s' h ops'
  simp only [session, List.drop, List.mem_cons, List.not_mem_nil, or_false, reduceCtorEq, false_or] at h
  cases h
  exact illegal_bar ops'

example (calls : ℕ) : ∃ t v, readString (orderRules [.dots, .wedge, .times]) "X|Y^Z*W".toList = some t ∧
    (Shell.run session).gaEval gN "X|Y ^ Z*W".toList calls = some v ∧ v.WF gN ∧
    v.value gN = t.value gN fun name => (sessionVal name).value gN := by
  have h := C94_value_partial gN_symm session_prec (by decide) docExpr docExpr_ok.1 docExpr_ok.2.1
    docExpr_ok.2.2.1 docExpr_ok.2.2.2 (s := "X|Y ^ Z*W".toList) (by decide +kernel) (ν := sessionVal)
    (by
      intro name h _
      simp only [docExpr, PExpr.tree, Tree.leaves, List.cons_append, List.nil_append, List.mem_cons,
        List.not_mem_nil, or_false] at h
      rcases h with rfl | rfl | rfl | rfl
      · exact ⟨⟨session.take 7, session.drop 8, rfl, by simp [session]⟩,
          (Rep.vector _).wf, (Rep.vector (g := gN) _).flag⟩
      · exact ⟨⟨session.take 1, session.drop 2, rfl, by simp [session]⟩,
          (Rep.vector _).wf, (Rep.vector (g := gN) _).flag⟩
      · exact ⟨⟨session.take 3, session.drop 4, rfl, by simp [session]⟩,
          (Rep.vector _).wf, (Rep.vector (g := gN) _).flag⟩
      · exact ⟨⟨session.take 4, session.drop 5, rfl, by simp [session]⟩, trivial⟩)
    (by
      simp [docExpr, PExpr.tree, Tree.Algebraic, Tree.HasMv, sessionVal, Val.IsMv])
    calls
  exact h

example (calls : ℕ) : ∃ t v, readString (orderRules [.dots, .wedge, .times]) "-X|Y^Z*W".toList = some t ∧
    (Shell.run session).gaEval gN "-X|Y ^ Z*W".toList calls = some v ∧ v.WF gN ∧
    v.value gN = t.value gN fun name => (sessionVal name).value gN := by
  have h := C94_minus_partial gN_symm session_prec (by decide) docExpr docExpr_ok.1 docExpr_ok.2.1
    docExpr_ok.2.2.1 (s := "-X|Y ^ Z*W".toList) (by decide +kernel) (ν := sessionVal)
    (by
      intro name h _
      simp only [docExpr, PExpr.tree, Tree.leaves, List.cons_append, List.nil_append, List.mem_cons,
        List.not_mem_nil, or_false] at h
      rcases h with rfl | rfl | rfl | rfl
      · exact ⟨⟨session.take 7, session.drop 8, rfl, by simp [session]⟩,
          (Rep.vector _).wf, (Rep.vector (g := gN) _).flag⟩
      · exact ⟨⟨session.take 1, session.drop 2, rfl, by simp [session]⟩,
          (Rep.vector _).wf, (Rep.vector (g := gN) _).flag⟩
      · exact ⟨⟨session.take 3, session.drop 4, rfl, by simp [session]⟩,
          (Rep.vector _).wf, (Rep.vector (g := gN) _).flag⟩
      · exact ⟨⟨session.take 4, session.drop 5, rfl, by simp [session]⟩, trivial⟩)
    (by
      simp [docExpr, PExpr.tree, Tree.Algebraic, Tree.HasMv, sessionVal, Val.IsMv])
    calls
  exact h

end Ex

end GA
