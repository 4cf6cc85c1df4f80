import Verif.Spec.GaEval
import Verif.Proofs.Flags
import Verif.Proofs.Calc
import Verif.Proofs.Session
import Verif.Props.C73
import Verif.Proofs.ParserLine

/-! # Lemmas about `GAeval` sessions -/

set_option linter.unusedSectionVars false

namespace GA

open GA.Parser (Op parseLine)

variable {n : ℕ} {R : Type*} [CommRing R] [DecidableEq R] [Invertible (2 : R)]
  {g : Matrix (Fin n) (Fin n) R}

/-! ### Operators -/

theorem Rep.timesScalar {A : Mv R n} {x : Spec.Cl g} (h : Rep g A x) (c : R) :
    Rep g (A.timesScalar c) (c • x) :=
  ⟨(timesScalar_spec h.wf c).1, (ofExpr_valid (g := g) (valid_smulE c h.valid)).2, by
    rw [(timesScalar_spec h.wf c).2, h.val]⟩

theorem Rep.leftScalar {A : Mv R n} {x : Spec.Cl g} (h : Rep g A x) (c : R) :
    Rep g (A.leftScalar c) (c • Spec.grade g 0 x) :=
  ⟨(leftScalar_spec h.wf (Or.inl h.flag) c).1, (scalarMv_spec (g := g) (n := n) (c * A.scalar)).2.1, by
    rw [(leftScalar_spec h.wf (Or.inl h.flag) c).2, h.val]⟩

theorem Rep.subScalar {A : Mv R n} {x : Spec.Cl g} (h : Rep g A x) (c : R) :
    Rep g (Mv.ofExpr (subE A.obj (scalarE c))) (x - algebraMap R _ c) := by
  have := Rep.ofExpr (g := g) (valid_subE h.valid (valid_scalarE c))
  refine this.congr ?_
  rw [den_subE, den_scalarE, h.den]

/-- The operators as elements of the Clifford algebra. -/
noncomputable def binS (g : Matrix (Fin n) (Fin n) R) : BinOp → Spec.Cl g → Spec.Cl g → Spec.Cl g
  | .add, x, y => x + y
  | .sub, x, y => x - y
  | .mul, x, y => x * y
  | .wedge, x, y => Spec.wedge g x y
  | .dot, x, y => Spec.hestenesDot g x y
  | .left, x, y => Spec.leftContraction g x y
  | .right, x, y => Spec.rightContraction g x y
  | _, _, _ => 0

/-- The operators of strings. -/
def BinOp.Basic : BinOp → Prop
  | .antiComm => False
  | .comm => False
  | _ => True

theorem onMvs_rep (hs : g.IsSymm) {op : BinOp} (ho : op.Basic) {A B : Mv R n} {x y : Spec.Cl g}
    (hA : Rep g A x) (hB : Rep g B y) : Rep g (op.onMvs g A B) (binS g op x y) := by
  cases op
  · exact Rep.add hs hA hB
  · exact Rep.sub hs hA hB
  · exact Rep.mul hs hA hB
  · exact Rep.wedge hs hA hB
  · exact Rep.dot hs hA hB
  · exact Rep.left hs hA hB
  · exact Rep.right hs hA hB
  · exact ho.elim
  · exact ho.elim

theorem mvScalar_rep {op : BinOp} (ho : op.Basic) {A : Mv R n} {x : Spec.Cl g}
    (hA : Rep g A x) (c : R) : Rep g (op.mvScalar g A c) (binS g op x (algebraMap R _ c)) := by
  cases op
  · exact hA.addScalar c
  · exact hA.subScalar c
  · exact (hA.smul c).congr (by rw [Algebra.smul_def, Algebra.commutes]; rfl)
  · exact (hA.timesScalar c).congr (wedge_algebraMap_right c x).symm
  · exact Rep.zero.congr (hestenesDot_scalar c x).1.symm
  · exact (hA.leftScalar c).congr (lc_scalar_right c x).symm
  · exact (hA.timesScalar c).congr (rc_scalar c x).symm
  · exact ho.elim
  · exact ho.elim

theorem scalarMv_rep {op : BinOp} (ho : op.Basic) {A : Mv R n} {x : Spec.Cl g}
    (hA : Rep g A x) (c : R) : Rep g (op.scalarMv g c A) (binS g op (algebraMap R _ c) x) := by
  cases op
  · exact (hA.addScalar c).congr (add_comm _ _)
  · exact hA.scalarSub c
  · exact (hA.smul c).congr (Algebra.smul_def _ _)
  · exact (hA.timesScalar c).congr (by rw [binS, wedge_algebraMap, Algebra.smul_def])
  · exact Rep.zero.congr (hestenesDot_scalar c x).2.symm
  · exact (hA.timesScalar c).congr (lc_scalar c x).symm
  · exact (hA.leftScalar c).congr (rc_scalar_left c x).symm
  · exact ho.elim
  · exact ho.elim

theorem binOpOf_spec {c : Char} {op : BinOp} (h : binOpOf c = some op) :
    op.Basic ∧ ∀ x y : Spec.Cl g, binS g op x y = opValue g c x y := by
  rw [binOpOf] at h
  split_ifs at h with h1 h2 h3 h4 h5 h6 h7 <;> cases h <;> refine ⟨trivial, fun x y => ?_⟩ <;>
    simp_all [binS, opValue]

theorem Val.operand_value (v : Val R n) : v.value g = (match v.operand with
    | .scalar c => algebraMap R (Spec.Cl g) c
    | .mv A => A.val g) := by
  cases v with
  | int k => exact (map_intCast (algebraMap R (Spec.Cl g)) k).symm
  | scalar c => rfl
  | mv A => rfl

/-- `x op y` of two values. -/
theorem Val.op_spec (hs : g.IsSymm) {op : BinOp} (ho : op.Basic) {x y : Val R n} (hx : x.WF g)
    (hy : y.WF g) (hd : op = .add ∨ op = .sub ∨ op = .mul ∨ x.IsMv ∨ y.IsMv) :
    ∃ z, x.op g op y = some z ∧ z.WF g ∧ z.value g = binS g op (x.value g) (y.value g) ∧
      (z.IsMv ↔ x.IsMv ∨ y.IsMv) := by
  have sc : ∀ a b : R, (op = .add ∨ op = .sub ∨ op = .mul) → ∃ c, scalarOp op a b = some c ∧
      algebraMap R (Spec.Cl g) c = binS g op (algebraMap R _ a) (algebraMap R _ b) := by
    rintro a b (rfl | rfl | rfl)
    · exact ⟨_, rfl, map_add _ _ _⟩
    · exact ⟨_, rfl, map_sub _ _ _⟩
    · exact ⟨_, rfl, map_mul _ _ _⟩
  have hi : ∀ k : ℤ, (Val.int k : Val R n).value g = algebraMap R _ (k : R) := fun k =>
    (map_intCast (algebraMap R (Spec.Cl g)) k).symm
  cases x with
  | int a =>
    cases y with
    | int b =>
      have hd' : op = .add ∨ op = .sub ∨ op = .mul := by
        rcases hd with h | h | h | h | h
        · exact Or.inl h
        · exact Or.inr (Or.inl h)
        · exact Or.inr (Or.inr h)
        · exact h.elim
        · exact h.elim
      rcases hd' with rfl | rfl | rfl
      · exact ⟨.int (a + b), rfl, trivial, Int.cast_add a b, by simp [Val.IsMv]⟩
      · exact ⟨.int (a - b), rfl, trivial, Int.cast_sub a b, by simp [Val.IsMv]⟩
      · exact ⟨.int (a * b), rfl, trivial, Int.cast_mul a b, by simp [Val.IsMv]⟩
    | scalar b =>
      obtain ⟨c, c1, c2⟩ := sc a b (by
        rcases hd with h | h | h | h | h
        exacts [Or.inl h, Or.inr (Or.inl h), Or.inr (Or.inr h), h.elim, h.elim])
      refine ⟨.scalar c, ?_, trivial, ?_, by simp [Val.IsMv]⟩
      · show (scalarOp op (a : R) b).map Val.scalar = _
        rw [c1]; rfl
      · rw [hi]; exact c2
    | mv B =>
      refine ⟨.mv (op.scalarMv g (a : R) B), rfl, ?_, ?_, by simp [Val.IsMv]⟩
      · have := scalarMv_rep ho (Rep.of_wf hy.1 hy.2) (a : R)
        exact ⟨this.wf, this.flag⟩
      · rw [hi]; exact (scalarMv_rep ho (Rep.of_wf hy.1 hy.2) (a : R)).val
  | scalar a =>
    cases y with
    | int b =>
      obtain ⟨c, c1, c2⟩ := sc a b (by
        rcases hd with h | h | h | h | h
        exacts [Or.inl h, Or.inr (Or.inl h), Or.inr (Or.inr h), h.elim, h.elim])
      refine ⟨.scalar c, ?_, trivial, ?_, by simp [Val.IsMv]⟩
      · show (scalarOp op a (b : R)).map Val.scalar = _
        rw [c1]; rfl
      · rw [hi]; exact c2
    | scalar b =>
      obtain ⟨c, c1, c2⟩ := sc a b (by
        rcases hd with h | h | h | h | h
        exacts [Or.inl h, Or.inr (Or.inl h), Or.inr (Or.inr h), h.elim, h.elim])
      refine ⟨.scalar c, ?_, trivial, c2, by simp [Val.IsMv]⟩
      · show (scalarOp op a b).map Val.scalar = _
        rw [c1]; rfl
    | mv B =>
      refine ⟨.mv (op.scalarMv g a B), rfl, ?_, ?_, by simp [Val.IsMv]⟩
      · have := scalarMv_rep ho (Rep.of_wf hy.1 hy.2) a
        exact ⟨this.wf, this.flag⟩
      · exact (scalarMv_rep ho (Rep.of_wf hy.1 hy.2) a).val
  | mv A =>
    cases y with
    | int b =>
      refine ⟨.mv (op.mvScalar g A (b : R)), rfl, ?_, ?_, by simp [Val.IsMv]⟩
      · have := mvScalar_rep ho (Rep.of_wf hx.1 hx.2) (b : R)
        exact ⟨this.wf, this.flag⟩
      · rw [hi]; exact (mvScalar_rep ho (Rep.of_wf hx.1 hx.2) (b : R)).val
    | scalar b =>
      refine ⟨.mv (op.mvScalar g A b), rfl, ?_, ?_, by simp [Val.IsMv]⟩
      · have := mvScalar_rep ho (Rep.of_wf hx.1 hx.2) b
        exact ⟨this.wf, this.flag⟩
      · exact (mvScalar_rep ho (Rep.of_wf hx.1 hx.2) b).val
    | mv B =>
      refine ⟨.mv (op.onMvs g A B), rfl, ?_, ?_, by simp [Val.IsMv]⟩
      · have := onMvs_rep hs ho (Rep.of_wf hx.1 hx.2) (Rep.of_wf hy.1 hy.2)
        exact ⟨this.wf, this.flag⟩
      · exact (onMvs_rep hs ho (Rep.of_wf hx.1 hx.2) (Rep.of_wf hy.1 hy.2)).val

/-! ### Expressions -/

/-- Every operator of the expression is one of the seven. -/
def Tree.Ops : Tree → Prop
  | .leaf s => s ≠ []
  | .neg t => t.Ops
  | .node l c r => l.Ops ∧ r.Ops ∧ ∃ op, binOpOf c = some op

theorem ops_tree {ops : List Op} (e : PExpr) (he : e.WF ops) : e.tree.Ops := by
  induction e with
  | name s => exact he.1
  | paren e ih => exact ih he
  | op k l c r ihl ihr =>
    refine ⟨ihl he.1, ihr he.2.1, ?_⟩
    rcases he.2.2.1 with ⟨o, -, h⟩ | ⟨-, rfl | rfl⟩
    · cases o with
      | dots =>
        simp only [opChar, Bool.or_eq_true, decide_eq_true_eq] at h
        rcases h with (rfl | rfl) | rfl
        exacts [⟨_, rfl⟩, ⟨_, rfl⟩, ⟨_, rfl⟩]
      | wedge =>
        simp only [opChar, decide_eq_true_eq] at h
        subst h; exact ⟨_, rfl⟩
      | times =>
        simp only [opChar, decide_eq_true_eq] at h
        subst h; exact ⟨_, rfl⟩
    · exact ⟨_, rfl⟩
    · exact ⟨_, rfl⟩

theorem digitsValue_eq (s : List Char) : Nat.ofDigitChars 10 s 0 = digitsValue s := rfl

theorem Val.neg_spec {x : Val R n} (hx : x.WF g) :
    x.neg.WF g ∧ x.neg.value g = -x.value g ∧ (x.neg.IsMv ↔ x.IsMv) := by
  cases x with
  | int k => exact ⟨trivial, Int.cast_neg k, Iff.rfl⟩
  | scalar c => exact ⟨trivial, map_neg (algebraMap R (Spec.Cl g)) c, Iff.rfl⟩
  | mv A =>
    have := Rep.neg (Rep.of_wf hx.1 hx.2)
    exact ⟨⟨this.wf, this.flag⟩, this.val, Iff.rfl⟩

theorem evalTree_spec (hs : g.IsSymm) {d : List Char → Option (Val R n)} {ν : List Char → Val R n}
    {t : Tree} (ht : t.Ops)
    (hν : ∀ s ∈ t.leaves, ¬ s.all Char.isDigit = true → d s = some (ν s) ∧ (ν s).WF g)
    (ha : t.Algebraic fun s => (ν s).IsMv) :
    ∃ v, evalTree g d t = some v ∧ v.WF g ∧ v.value g = t.value g (fun s => (ν s).value g) ∧
      (v.IsMv ↔ t.HasMv fun s => (ν s).IsMv) := by
  induction t with
  | leaf s =>
    by_cases hd : s.all Char.isDigit = true
    · refine ⟨.int (digitsValue s : ℤ), ?_, trivial, ?_, ?_⟩
      · rw [evalTree, leafVal, if_pos hd, if_neg (fun k => ha hd k.1), parseNat, if_pos ⟨ht, hd⟩,
          digitsValue_eq]
        rfl
      · rw [Tree.value, if_pos hd]
        exact Int.cast_natCast _
      · rw [Tree.HasMv]
        exact ⟨fun k => k.elim, fun k => absurd hd k.1⟩
    · obtain ⟨h1, h2⟩ := hν s (List.mem_singleton.mpr rfl) hd
      refine ⟨ν s, ?_, h2, ?_, ?_⟩
      · rw [evalTree, leafVal, if_neg hd, h1]
      · rw [Tree.value, if_neg hd]
      · rw [Tree.HasMv]
        exact ⟨fun k => ⟨hd, k⟩, fun k => k.2⟩
  | neg t ih =>
    obtain ⟨v, v1, v2, v3, v4⟩ := ih ht hν ha
    obtain ⟨w1, w2, w3⟩ := Val.neg_spec v2
    exact ⟨v.neg, by rw [evalTree, v1]; rfl, w1, by rw [w2, v3]; rfl, w3.trans v4⟩
  | node l c r ihl ihr =>
    obtain ⟨v, v1, v2, v3, v4⟩ := ihl ht.1 (fun s hs => hν s (List.mem_append_left _ hs)) ha.1
    obtain ⟨w, w1, w2, w3, w4⟩ := ihr ht.2.1 (fun s hs => hν s (List.mem_append_right _ hs)) ha.2.1
    obtain ⟨op, hop⟩ := ht.2.2
    obtain ⟨b1, b2⟩ := binOpOf_spec (g := g) hop
    have hd : op = .add ∨ op = .sub ∨ op = .mul ∨ v.IsMv ∨ w.IsMv := by
      rcases ha.2.2 with rfl | rfl | rfl | k | k
      · left; cases hop; rfl
      · right; left; cases hop; rfl
      · right; right; left; cases hop; rfl
      · right; right; right; left; exact v4.mpr k
      · right; right; right; right; exact w4.mpr k
    obtain ⟨z, z1, z2, z3, z4⟩ := Val.op_spec hs b1 v2 w2 hd
    refine ⟨z, ?_, z2, ?_, ?_⟩
    · rw [evalTree, v1, w1, hop]; exact z1
    · rw [z3, b2, v3, w3]; rfl
    · rw [z4, v4, w4]; rfl

/-! ### Histories -/

theorem opOfText_some {s : List Char} {o : Op} : opOfText s = some o ↔ s = orderText o := by
  constructor
  · intro h
    rw [opOfText] at h
    split_ifs at h with h1 h2 h3 <;> cases h <;> assumption
  · rintro rfl
    cases o <;> rfl

theorem mapM_opOfText {l : List (List Char)} {ops : List Op} :
    l.mapM opOfText = some ops ↔ l = ops.map orderText := by
  induction l generalizing ops with
  | nil =>
    rw [List.mapM_nil]
    constructor
    · rintro h; cases h; rfl
    · intro h
      rw [List.map_eq_nil_iff.mp h.symm]; rfl
  | cons s l ih =>
    rw [List.mapM_cons]
    constructor
    · intro h
      obtain ⟨o, h1, h2⟩ := Option.bind_eq_some_iff.mp h
      obtain ⟨os, h3, h4⟩ := Option.bind_eq_some_iff.mp h2
      cases h4
      rw [List.map_cons, ← opOfText_some.mp h1, ← ih.mp h3]
    · intro h
      cases ops with
      | nil => cases h
      | cons o os =>
        rw [List.map_cons, List.cons.injEq] at h
        rw [opOfText_some.mpr h.1, ih.mpr h.2]; rfl

theorem joinWith_splitOn (c : Char) (s : List Char) : joinWith c (splitOn c s) = s := by
  induction s with
  | nil => rfl
  | cons x s ih =>
    rw [splitOn]
    split_ifs with h
    · subst h
      cases e : splitOn x s with
      | nil => exact absurd e (splitOn_ne_nil x s)
      | cons w ws => rw [joinWith, ← e, ih]; · rfl
                     · exact List.cons_ne_nil _ _
    · cases e : splitOn c s with
      | nil => exact absurd e (splitOn_ne_nil c s)
      | cons w ws =>
        rw [e] at ih
        dsimp only
        cases ws with
        | nil => rw [← ih]; rfl
        | cons w' ws => rw [← ih]; rfl

theorem legalOrder_iff {s : List Char} {ops : List Op} :
    LegalOrder s ops ↔ (splitOn ',' s).mapM opOfText = some ops := by
  rw [mapM_opOfText]
  constructor
  · rintro ⟨h1, rfl⟩
    refine splitOn_joinWith (by simpa using h1) ?_
    intro w hw
    obtain ⟨o, -, rfl⟩ := List.mem_map.mp hw
    cases o <;> decide
  · intro h
    refine ⟨?_, ?_⟩
    · rintro rfl
      exact splitOn_ne_nil ',' s h
    · rw [← h, joinWith_splitOn]

theorem defPrec_legal {S : Shell R n} {d : ℕ} {s : List Char} {ops : List Op} (h : LegalOrder s ops) :
    S.defPrec d s = some ⟨S.dicts, some d, ops⟩ := by
  rw [Shell.defPrec, legalOrder_iff.mp h]; rfl

theorem defPrec_illegal {S : Shell R n} {d : ℕ} {s : List Char} (h : ∀ ops, ¬ LegalOrder s ops) :
    S.defPrec d s = none := by
  rw [Shell.defPrec]
  cases e : (splitOn ',' s).mapM opOfText with
  | none => rfl
  | some ops => exact absurd (legalOrder_iff.mpr e) (h ops)

theorem foldl_prec {post : List (Cmd R n)} (S : Shell R n)
    (h : ∀ d s, Cmd.defPrec d s ∈ post → ∀ ops, ¬ LegalOrder s ops) :
    (post.foldl Shell.step S).gd = S.gd ∧ (post.foldl Shell.step S).order = S.order := by
  induction post generalizing S with
  | nil => exact ⟨rfl, rfl⟩
  | cons c post ih =>
    have := ih (S.step c) fun d s hd => h d s (List.mem_cons_of_mem _ hd)
    rw [List.foldl_cons, this.1, this.2]
    cases c with
    | assign d name v => exact ⟨rfl, rfl⟩
    | defPrec d s =>
      rw [Shell.step, defPrec_illegal (h d s (List.mem_cons_self ..))]
      exact ⟨rfl, rfl⟩
    | eval s k => exact ⟨rfl, rfl⟩

theorem step_dicts_defPrec (S : Shell R n) (d : ℕ) (s : List Char) :
    (S.step (.defPrec d s)).dicts = S.dicts := by
  rw [Shell.step, Shell.defPrec]
  cases (splitOn ',' s).mapM opOfText <;> rfl

theorem foldl_dicts {post : List (Cmd R n)} (S : Shell R n) {d : ℕ} {name : List Char}
    (h : ∀ v, Cmd.assign d name v ∉ post) :
    (post.foldl Shell.step S).dicts d name = S.dicts d name := by
  induction post generalizing S with
  | nil => rfl
  | cons c post ih =>
    rw [List.foldl_cons, ih (S.step c) fun v hv => h v (List.mem_cons_of_mem _ hv)]
    cases c with
    | assign d' name' v =>
      show (if d = d' ∧ name = name' then some v else S.dicts d name) = _
      rw [if_neg]
      rintro ⟨rfl, rfl⟩
      exact h v (List.mem_cons_self ..)
    | defPrec d' s => rw [step_dicts_defPrec]
    | eval s k => rfl

theorem run_prec {cmds : List (Cmd R n)} {d : ℕ} {ops : List Op} (h : LastPrec cmds d ops) :
    (Shell.run cmds).gd = some d ∧ (Shell.run cmds).order = ops := by
  obtain ⟨pre, s, post, rfl, h1, h2⟩ := h
  rw [Shell.run, List.foldl_append, List.foldl_cons]
  have := foldl_prec (Shell.step (pre.foldl Shell.step (Shell.init R n)) (.defPrec d s)) h2
  rw [this.1, this.2, Shell.step, defPrec_legal h1]
  exact ⟨rfl, rfl⟩

theorem run_value {cmds : List (Cmd R n)} {d : ℕ} {name : List Char} {v : Val R n}
    (h : LastValue cmds d name v) : (Shell.run cmds).dicts d name = some v := by
  obtain ⟨pre, post, rfl, h2⟩ := h
  rw [Shell.run, List.foldl_append, List.foldl_cons, foldl_dicts _ h2]
  show (if d = d ∧ name = name then some v else _) = _
  rw [if_pos ⟨rfl, rfl⟩]

end GA
