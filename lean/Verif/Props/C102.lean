import Verif.Proofs.ReadBack
import Verif.Proofs.Examples

/-!
# C102: `GAeval` reads back what is printed

`names` are the names of the basis vectors, `shows c b` is SymPy's text of a term (`Spec/ReadBack`), `ν` are the values
of the variables of the session, and `ρ` the values of the symbols.  `coef t` is how SymPy writes the coefficient of the
term `t`: whether it begins with a minus sign, and the expression without it.
-/

set_option linter.unusedSectionVars false
set_option maxRecDepth 10000

namespace GA
open GA.Parser (Op parseLine)

variable {n : ℕ} {R : Type*} [CommRing R] [DecidableEq R] [Invertible (2 : R)]
  {g : Matrix (Fin n) (Fin n) R}

/-- C102: after `def_prec` with the order `'<>|,^,*'`, `GAeval(str(A))` is `A` again, if the coefficients of `A` are
positive integers, symbols, products of these and sums in parentheses, with a sign, and the names of basis vectors and
symbols are variables with these values.  Missing: multivectors of more than one term whose first term is a blade of at
least two vectors with coefficient 1 (not -1), coefficients with a sum in parentheses that begins and ends with a
product, powers and decimal fractions, where the claim is false: `C102_raises_counterexample`,
`C102_wrong_counterexample`, `C102_power_counterexample`, `C102_float_counterexample`; and coefficients in which the
same sum, or in sums the same product, occurs twice, or which have quotients or functions. -/
theorem C102_read_back_partial (hs : g.IsSymm) {names : Fin n → List Char} (hn : ∀ i, IsName (names i))
    (hinj : Function.Injective names) {cmds : List (Cmd R n)} {d : ℕ}
    (hp : LastPrec cmds d [.dots, .wedge, .times]) {ν : List Char → Val R n} {ρ : List Char → R}
    (hb : ∀ i, ∃ E : Mv R n, ν (names i) = .mv E ∧ E.WF g ∧ E.isBladeRep = true ∧ E.val g = Spec.e g i)
    (hν : ∀ w, (∃ i, w = names i) ∨ (∃ c, ν w = .scalar c) → LastValue cmds d w (ν w))
    {A : Mv R n} (hA : A.WF g) (hf : A.isBladeRep = true) {args : Expr R n} (hargs : expand args = A.obj)
    (hsub : ∀ t ∈ args, t.2 ∈ A.obj.map Prod.snd) {shows : R → Sym n → List Char}
    (h0 : shows 0 (.blade []) = ['0']) {coef : R × Sym n → Bool × PExpr}
    (ht : ∀ t ∈ A.obj, TermText names ν ρ t.1 (symIndex t.2) (coef t).2 (coef t).1 (shows t.1 t.2))
    (hrep : (A.obj.flatMap fun t => (coefParts (symIndex t.2) (coef t).2).map PExpr.text).Nodup)
    (hfirst : ∀ t ∈ A.obj, (∀ u ∈ A.obj, u ≠ t → Before (symIndex t.2) (symIndex u.2)) →
      A.obj = [t] ∨ (symIndex t.2).length ≤ 1 ∨
        (shows t.1 t.2).filter (· ≠ ' ') ≠ bladeText names (symIndex t.2))
    (calls : ℕ) :
    ∃ s v, mvStr g 1 shows args = some s ∧ (Shell.run cmds).gaEval g s calls = some v ∧ v.WF g ∧
      v.value g = A.val g := by
  have hW : ∀ i, Word (names i) := fun i => (hn i).word
  have hb' : ∀ i, (ν (names i)).IsMv ∧ (ν (names i)).value g = Spec.e g i := by
    intro i
    obtain ⟨E, h1, -, -, h4⟩ := hb i
    rw [h1]
    exact ⟨trivial, h4⟩
  by_cases hE : A.obj = []
  · -- the text is `0`
    have ha : args = [] := by
      cases args with
      | nil => rfl
      | cons t args => have := hsub t List.mem_cons_self; rw [hE] at this; simp at this
    obtain ⟨r, r1, r2, -⟩ := C49_meaning_partial (ops := [.dots, .wedge, .times]) (by decide) calls
      (.name ['0']) ⟨by simp, by decide⟩ (by simp [PExpr.NoRepeat, PExpr.parts])
      (by intro e' h; simp [PExpr.parts] at h) (by intro i _; simp [PExpr.starts]) (s := ['0']) rfl
    obtain ⟨p1, p2⟩ := run_prec hp
    refine ⟨['0'], .int 0, by rw [ha]; unfold mvStr; simp [h0], ?_, trivial, ?_⟩
    · rw [Shell.gaEval, p2, r1, Option.bind_some, r2, Option.bind_some, PExpr.tree, evalTree, leafVal, if_pos (by decide),
        if_neg (by decide)]
      rfl
    · rw [Mv.val, hE, Val.value]; simp
  · have hsay : ∀ t ∈ A.obj, Says names ν ρ shows t ((coef t).1, (coef t).2, symIndex t.2) := by
      intro t h
      obtain ⟨l, -, hl⟩ := hA.2.2 t h
      rw [if_pos (Or.inl hf)] at hl
      exact says_of_termText (by rw [hl]; rfl) (ht t h)
    have hne : ∀ t ∈ A.obj, shows t.1 t.2 ≠ [] ∧ '\n' ∉ shows t.1 t.2 := by
      intro t h
      obtain ⟨-, h2, s, hs, h3⟩ := hsay t h
      have hf := unsigned_facts hW h2.coef _ hs
      rw [h3]
      split_ifs
      · exact ⟨by simp, by simpa using hf.2.2⟩
      · exact ⟨hf.1, hf.2.2⟩
    obtain ⟨t, T, hperm, hord, hstr⟩ := mvStr_one hA hargs hsub (fun t h => (hne t h).1)
      (fun t h => (hne t h).2) hE
    have hmem : ∀ u ∈ t :: T, u ∈ A.obj := fun u hu => hperm.mem_iff.mp hu
    have htm := hmem t List.mem_cons_self
    have hf2 := hfirst t htm (by
      intro u hu hut
      rw [List.pairwise_cons] at hord
      rcases List.mem_cons.mp (hperm.mem_iff.mpr hu) with h | h
      · exact absurd h hut
      · exact hord.1 u h)
    have hu := hsay t htm
    have hts := forall₂_says (names := names) (ν := ν) (ρ := ρ) (shows := shows) (T := T)
      (f := fun t => ((coef t).1, (coef t).2, symIndex t.2)) fun u hu' => hsay u (hmem u (List.mem_cons_of_mem _ hu'))
    have hlen : (T.map fun t => ((coef t).1, (coef t).2, symIndex t.2)).length = T.length := List.length_map _
    have hrep' : ((((false, (coef t).2, symIndex t.2) ::
        T.map fun t => ((coef t).1, (coef t).2, symIndex t.2) : List (Bool × PExpr × List (Fin n)))).flatMap
        fun t => (coefParts t.2.2 t.2.1).map PExpr.text).Nodup := by
      have h1 := (hperm.flatMap_right fun t => (coefParts (symIndex t.2) (coef t).2).map PExpr.text).nodup_iff.mpr hrep
      rw [List.flatMap_cons] at h1 ⊢
      rw [List.flatMap_map]
      exact h1
    generalize (T.map fun t => ((coef t).1, (coef t).2, symIndex t.2)) = ts at hts hrep' hlen
    generalize (coef t).1 = neg at hu
    generalize (coef t).2 = w at hu hrep'
    generalize hl0 : symIndex t.2 = l at hu hrep' hf2
    have hall : List.Forall₂ (Says names ν ρ shows) (t :: T) ((neg, w, l) :: ts) := .cons hu hts
    have hnd : (l :: ts.map fun u => u.2.2).Nodup := by
      have h1 := (hperm.map Prod.snd).nodup_iff.mpr hA.1
      rw [Says.map_snd hall] at h1
      exact h1.of_map
    obtain ⟨hu1, hu2, s0, hs0, hu3⟩ := hu
    simp only at hu1 hu2 hs0 hu3
    have hw := hu2.coef
    have hwf := wf_termExpr hW hw l
    have hcs := Says.coefs hts hn fun i => (hb' i).1
    obtain ⟨q1, -⟩ := wf_sumExpr hW hwf.1 (by omega) fun t ht => (hcs t ht).1
    obtain ⟨q2, q3⟩ := noRepeat_sum hW hinj hw (hu2.basisLeaves hn fun i => (hb' i).1) l hcs hnd hrep'
    obtain ⟨a1, a2, a3⟩ := tree_termExpr (g := g) hn hb' hu2 l
    obtain ⟨b1, b2, b3⟩ := tree_sumExpr hn hb' hts a1 a2
    have hvals : ∀ name ∈ (sumExpr names (termExpr names w l) ts).tree.leaves, ¬ name.all Char.isDigit = true →
        LastValue cmds d name (ν name) ∧ (ν name).WF g := by
      intro name hname hdig
      have hcoef : ∀ c w, IsCoef ν ρ c w → name ∈ w.tree.leaves → LastValue cmds d name (ν name) ∧ (ν name).WF g := by
        intro c w hc hm
        rcases hc.leaves name hm with ⟨h1, -⟩ | ⟨h1, h2⟩
        · exact absurd h1 hdig
        · exact ⟨hν _ (Or.inr ⟨_, h2⟩), by rw [h2]; trivial⟩
      have hnm : (∃ i, name = names i) → LastValue cmds d name (ν name) ∧ (ν name).WF g := by
        rintro ⟨i, rfl⟩
        obtain ⟨E, h1, h2, h3, -⟩ := hb i
        exact ⟨hν _ (Or.inl ⟨i, rfl⟩), by rw [h1]; exact ⟨h2, h3⟩⟩
      rcases b3 name hname with h | h | ⟨c, w, h, h'⟩
      · rcases a3 name h with h | h
        · exact hcoef _ _ hu2 h
        · exact hnm h
      · exact hnm h
      · exact hcoef c w h h'
    have hden : A.val g = t.1 • Spec.blade g l + den g T := by
      have h1 : A.val g = den g (t :: T) := by
        rw [Mv.val, den, den]
        exact ((hperm.map _).sum_eq).symm
      have h2 : den g (t :: T) = t.1 • symDen g t.2 + den g T := by simp [den]
      rw [h1, h2, hu1]
      rfl
    cases neg with
    | true =>
      simp only [if_true] at hu2 hu3 a2
      have htext : (shows t.1 t.2 ++ T.flatMap fun u => signedTerm (shows u.1 u.2)).filter (· ≠ ' ') =
          '-' :: (sumExpr names (termExpr names w l) ts).text := by
        rw [List.filter_append, says_text hW hts, hu3, List.filter_cons_of_pos (by decide), hs0, text_sumExpr,
          text_termExpr]
        rfl
      obtain ⟨tr, v, v1, v2, v3, v4⟩ := C94_minus_partial hs hp (by decide) _ q1 q2 q3 htext (ν := ν) hvals b1 calls
      refine ⟨_, v, hstr, v2, v3, ?_⟩
      have htree : tr = (sumExpr names (termExpr names w l) ts).negRead := by
        have := readString_neg (orderRules [.dots, .wedge, .times]) (orderRules_name _) (orderRules_close _) _
          (follows_order (by decide) _ q1)
        rw [← htext, v1] at this
        exact Option.some.inj this
      have hx : (termExpr names w l).negRead.value g (fun s => (ν s).value g) = t.1 • Spec.blade g l := by
        rw [value_negRead _ hwf.1 hwf.2, a2, neg_smul, neg_neg]
      rw [v4, htree, value_neg_sumExpr hn hb' hts hx, hden]
    | false =>
      simp only [Bool.false_eq_true, if_false] at hu2 hu3 a2
      have hsafe : ts = [] ∨ l.length ≤ 1 ∨ w.text ≠ ['1'] := by
        rw [hu3, hs0] at hf2
        rcases hf2 with h | h | h
        · left
          have h1 := hperm.length_eq
          rw [h] at h1
          have h2 := hts.length_eq
          simp at h1
          rw [h1] at h2
          exact List.length_eq_zero_iff.mp h2.symm
        · exact Or.inr (Or.inl h)
        · by_cases hl : l = []
          · right; left; simp [hl]
          · right; right
            intro hone
            exact h (by rw [unsignedText, if_neg hl, if_pos hone])
      have q4 := safeTop_sum hW hw (ts := ts) hsafe
      have htext : (shows t.1 t.2 ++ T.flatMap fun u => signedTerm (shows u.1 u.2)).filter (· ≠ ' ') =
          (sumExpr names (termExpr names w l) ts).text := by
        rw [List.filter_append, says_text hW hts, hu3, hs0, text_sumExpr, text_termExpr]
      obtain ⟨tr, v, v1, v2, v3, v4⟩ := C94_value_partial hs hp (by decide) _ q1 q2 q3 q4 htext (ν := ν) hvals b1
        calls
      refine ⟨_, v, hstr, v2, v3, ?_⟩
      have htree : tr = (sumExpr names (termExpr names w l) ts).tree := by
        have := readString_order (ops := [.dots, .wedge, .times]) (by decide) _ q1
        rw [← htext, v1] at this
        exact Option.some.inj this
      rw [v4, htree, b2, hden]
      rfl

namespace Ex

/-- The names of the basis vectors. -/
def xyz : Fin 3 → List Char := ![['e', '_', 'x'], ['e', '_', 'y'], ['e', '_', 'z']]

/-- The values of the symbols `a`, `b`, `c` and `d`. -/
def symVal (s : List Char) : ℚ :=
  if s = ['a'] then 7 else if s = ['b'] then 2 else if s = ['c'] then 3 else if s = ['d'] then 5 else 0

/-- The basis vectors and the symbols are variables, and `def_prec` is called. -/
def named : List (Cmd ℚ 3) :=
  [.defPrec 0 "<>|,^,*".toList, .assign 0 (xyz 0) (.mv (Mv.vector (Pi.single 0 1))),
    .assign 0 (xyz 1) (.mv (Mv.vector (Pi.single 1 1))), .assign 0 (xyz 2) (.mv (Mv.vector (Pi.single 2 1))),
    .assign 0 ['a'] (.scalar 7), .assign 0 ['b'] (.scalar 2), .assign 0 ['c'] (.scalar 3),
    .assign 0 ['d'] (.scalar 5)]

def namedVal (s : List Char) : Val ℚ 3 :=
  if s = xyz 0 then .mv (Mv.vector (Pi.single 0 1)) else if s = xyz 1 then .mv (Mv.vector (Pi.single 1 1))
  else if s = xyz 2 then .mv (Mv.vector (Pi.single 2 1))
  else if s = ['a'] ∨ s = ['b'] ∨ s = ['c'] ∨ s = ['d'] then .scalar (symVal s) else .int 0

theorem named_prec : LastPrec named 0 [.dots, .wedge, .times] :=
  ⟨[], _, named.drop 1, rfl, ⟨by simp, by decide⟩, by simp [named]⟩

theorem xyz_name (i : Fin 3) : IsName (xyz i) := by
  fin_cases i <;> exact ⟨by decide, by decide, by decide⟩

theorem xyz_inj : Function.Injective xyz := by decide

/-- How some numbers are written: 7 is `a`, 14 is `2*a`, 9 is `(a+b)` and 42 is `3*a*b`. -/
def coefExpr (k : ℕ) : PExpr :=
  if k = 7 then .name ['a']
  else if k = 14 then .op 2 (.name ['2']) '*' (.name ['a'])
  else if k = 9 then .paren (.op 3 (.name ['a']) '+' (.name ['b']))
  else if k = 42 then .op 2 (.op 2 (.name ['3']) '*' (.name ['a'])) '*' (.name ['b'])
  else if k = 29 then .paren (.op 3 (.op 2 (.name ['a']) '*' (.name ['b'])) '+' (.op 2 (.name ['c']) '*' (.name ['d'])))
  else .name (strNat k)

/-- The text of numbers times blades, with blanks around `+`. -/
def showInt (c : ℚ) (b : Sym 3) : List Char :=
  if c = 0 then ['0']
  else
    let w := (unsignedText xyz (coefExpr c.num.natAbs).text (symIndex b)).flatMap fun x =>
      if x = '+' then [' ', '+', ' '] else [x]
    if c < 0 then '-' :: w else w

/-- `2*a + (a + b)*e_x - 2*e_y + e_x^e_y - 3*a*b*e_y^e_z`. -/
def printed : Mv ℚ 3 :=
  ⟨[(-2, .blade [1]), (14, .blade []), (9, .blade [0]), (-42, .blade [1, 2]), (1, .blade [0, 1])], true⟩

end Ex

/-- C102, the case in which the claim is false: `GAeval` of `str(e_x^e_y + e_y^e_z)` raises an exception, although
`def_prec` was called and the basis vectors are variables. -/
theorem C102_raises_counterexample (calls : ℕ) :
    mvStr (1 : Matrix (Fin 3) (Fin 3) ℚ) 1 Ex.showInt [(1, .blade [0, 1]), (1, .blade [1, 2])] =
      some "e_x^e_y + e_y^e_z".toList ∧
    (Shell.run Ex.named).gaEval (1 : Matrix (Fin 3) (Fin 3) ℚ) "e_x^e_y + e_y^e_z".toList calls = none := by
  constructor
  · decide +kernel
  · obtain ⟨-, p2⟩ := run_prec Ex.named_prec
    rw [Shell.gaEval, p2]
    rfl

deriving instance DecidableEq for Val

/-- C102, the second case in which the claim is false: `GAeval` of `str((a*b + c*d)*e_x)` raises no exception, but
returns `a*b + c*d*e_x`. -/
theorem C102_wrong_counterexample :
    mvStr (1 : Matrix (Fin 3) (Fin 3) ℚ) 1 Ex.showInt [(29, .blade [0])] = some "(a*b + c*d)*e_x".toList ∧
    (Shell.run Ex.named).gaEval (1 : Matrix (Fin 3) (Fin 3) ℚ) "(a*b + c*d)*e_x".toList 0 =
      some (.mv ⟨[(15, .blade [0]), (14, .blade [])], true⟩) := by
  constructor
  · decide +kernel
  · decide +kernel

/-- C102, powers: in the text of `a**2*e_x`, `GAeval` puts the parentheses around `2*e_x`. -/
theorem C102_power_counterexample (calls : ℕ) :
    parseLine [.dots, .wedge, .times] calls "a**2*e_x".toList = some "a**(2*e_x)".toList := rfl

/-- C102, decimal fractions: `GAeval` takes the number `1.5` apart. -/
theorem C102_float_counterexample (calls : ℕ) :
    parseLine [.dots, .wedge, .times] calls "1.5*e_x".toList = some "1.(5*e_x)".toList := rfl

namespace Ex

example : mvStr gN 1 showInt printed.obj = some "2*a + (a + b)*e_x - 2*e_y + e_x^e_y - 3*a*b*e_y^e_z".toList := by
  decide +kernel

theorem named_basis (i : Fin 3) : ∃ E : Mv ℚ 3, namedVal (xyz i) = .mv E ∧ E.WF gN ∧ E.isBladeRep = true ∧
    E.val gN = Spec.e gN i := by
  refine ⟨Mv.vector (Pi.single i 1), ?_, (Rep.vector _).wf, (Rep.vector (g := gN) _).flag, ?_⟩
  · fin_cases i <;> rfl
  · rw [(Rep.vector (g := gN) _).val]
    simp [Spec.e]

theorem named_values (w : List Char) (h : (∃ i, w = xyz i) ∨ ∃ c, namedVal w = .scalar c) :
    LastValue named 0 w (namedVal w) := by
  have h0 : LastValue named 0 (xyz 0) (namedVal (xyz 0)) := ⟨named.take 1, named.drop 2, rfl, by simp [named, xyz]⟩
  have h1 : LastValue named 0 (xyz 1) (namedVal (xyz 1)) := ⟨named.take 2, named.drop 3, rfl, by simp [named, xyz]⟩
  have h2 : LastValue named 0 (xyz 2) (namedVal (xyz 2)) := ⟨named.take 3, named.drop 4, rfl, by simp [named, xyz]⟩
  obtain ⟨i, rfl⟩ | ⟨c, h⟩ := h
  · fin_cases i
    exacts [h0, h1, h2]
  · simp only [namedVal] at h
    split_ifs at h with _ _ _ h3
    rcases h3 with rfl | rfl | rfl | rfl
    · exact ⟨named.take 4, named.drop 5, rfl, by simp [named]⟩
    · exact ⟨named.take 5, named.drop 6, rfl, by simp [named]⟩
    · exact ⟨named.take 6, named.drop 7, rfl, by simp [named]⟩
    · exact ⟨named.take 7, named.drop 8, rfl, by simp [named]⟩

/-- The sign and the expression of a coefficient. -/
def coef (t : ℚ × Sym 3) : Bool × PExpr := (decide (t.1 < 0), coefExpr t.1.num.natAbs)

theorem coef_ok {k : ℕ} (hk : k ∈ [1, 2, 7, 9, 14, 42]) : IsCoef namedVal symVal (k : ℚ) (coefExpr k) := by
  have nm : ∀ c : Char, IsName [c] ↔ nameChar c = true ∧ ¬ c.isDigit = true := by intro c; simp [IsName]
  have s1 : strNat 1 = ['1'] := by decide
  have s2 : strNat 2 = ['2'] := by decide
  fin_cases hk
  all_goals
    refine ⟨?_, ?_, ?_, ?_, ?_, ?_⟩
  all_goals
    simp [coefExpr, PExpr.WF, PExpr.IsOp, PExpr.rank, PExpr.Arith, PExpr.tree, Tree.leaves, Tree.number, opChar, s1, s2,
      PExpr.SafeParens, PExpr.parts, PExpr.self, PExpr.isProduct, PExpr.starts, PExpr.ends, symVal, digitsValue,
      namedVal, nm]
  all_goals first | decide | norm_num

theorem term_ok {t : ℚ × Sym 3} {k : ℕ} (hk : k ∈ [1, 2, 7, 9, 14, 42]) (h1 : t.1.num.natAbs = k)
    (h2 : (k : ℚ) = if t.1 < 0 then -t.1 else t.1) (h3 : ∃ s, showInt t.1 t.2 = (if t.1 < 0 then '-' :: s else s) ∧
      s.filter (· ≠ ' ') = unsignedText xyz (coefExpr k).text (symIndex t.2)) :
    TermText xyz namedVal symVal t.1 (symIndex t.2) (coef t).2 (coef t).1 (showInt t.1 t.2) := by
  obtain ⟨s, h3, h4⟩ := h3
  have h := coef_ok hk
  rw [coef, h1, h3]
  dsimp only
  by_cases hn : t.1 < 0
  · rw [if_pos hn, decide_eq_true hn]
    rw [if_pos hn] at h2
    exact .minus s (h2 ▸ h) h4
  · rw [if_neg hn, decide_eq_false hn]
    rw [if_neg hn] at h2
    exact .plus s (h2 ▸ h) h4

example (calls : ℕ) : ∃ s v, mvStr gN 1 showInt printed.obj = some s ∧
    (Shell.run named).gaEval gN s calls = some v ∧ v.WF gN ∧ v.value gN = printed.val gN := by
  have hwf : printed.WF gN := by
    refine ⟨by decide, by decide, ?_⟩
    intro t ht
    simp only [printed, List.mem_cons, List.not_mem_nil, or_false] at ht
    rcases ht with rfl | rfl | rfl | rfl | rfl
    exacts [⟨[1], by decide, rfl⟩, ⟨[], by decide, rfl⟩, ⟨[0], by decide, rfl⟩, ⟨[1, 2], by decide, rfl⟩,
      ⟨[0, 1], by decide, rfl⟩]
  refine C102_read_back_partial gN_symm xyz_name xyz_inj named_prec (ν := namedVal) (ρ := symVal) named_basis
    named_values hwf rfl (args := printed.obj) (by decide +kernel) (fun t h => List.mem_map_of_mem h)
    (by decide) (coef := coef) ?_ (by decide +kernel) ?_ calls
  · intro t ht
    simp only [printed, List.mem_cons, List.not_mem_nil, or_false] at ht
    rcases ht with rfl | rfl | rfl | rfl | rfl
    · exact term_ok (k := 2) (by decide) (by decide +kernel) (by norm_num)
        ⟨"2*e_y".toList, by decide +kernel, by decide +kernel⟩
    · exact term_ok (k := 14) (by decide) (by decide +kernel) (by norm_num)
        ⟨"2*a".toList, by decide +kernel, by decide +kernel⟩
    · exact term_ok (k := 9) (by decide) (by decide +kernel) (by norm_num)
        ⟨"(a + b)*e_x".toList, by decide +kernel, by decide +kernel⟩
    · exact term_ok (k := 42) (by decide) (by decide +kernel) (by norm_num)
        ⟨"3*a*b*e_y^e_z".toList, by decide +kernel, by decide +kernel⟩
    · exact term_ok (k := 1) (by decide) (by decide +kernel) (by norm_num)
        ⟨"e_x^e_y".toList, by decide +kernel, by decide +kernel⟩
  · intro t ht h
    have : t = (14, .blade []) := by
      by_contra hne
      have := h (14, .blade []) (by decide) (fun h => hne h.symm)
      rcases this with h | ⟨h, h'⟩
      · exact absurd h (by simp [symIndex])
      · exact absurd h' (by simp [symIndex])
    subst this
    decide

/-- `-e_x^e_y + a*e_y^e_z`, whose text begins with a minus sign. -/
example (calls : ℕ) : ∃ s v, mvStr gN 1 showInt [(-1, .blade [0, 1]), (7, .blade [1, 2])] = some s ∧
    s = "-e_x^e_y + a*e_y^e_z".toList ∧ (Shell.run named).gaEval gN s calls = some v ∧ v.WF gN ∧
    v.value gN = (⟨[(-1, .blade [0, 1]), (7, .blade [1, 2])], true⟩ : Mv ℚ 3).val gN := by
  have hwf : (⟨[(-1, .blade [0, 1]), (7, .blade [1, 2])], true⟩ : Mv ℚ 3).WF gN := by
    refine ⟨by decide, by decide, ?_⟩
    intro t ht
    simp only [List.mem_cons, List.not_mem_nil, or_false] at ht
    rcases ht with rfl | rfl
    exacts [⟨[0, 1], by decide, rfl⟩, ⟨[1, 2], by decide, rfl⟩]
  obtain ⟨s, v, h1, h2⟩ := C102_read_back_partial gN_symm xyz_name xyz_inj named_prec (ν := namedVal) (ρ := symVal)
    named_basis named_values hwf rfl (args := [(-1, .blade [0, 1]), (7, .blade [1, 2])]) (by decide +kernel)
    (fun t h => List.mem_map_of_mem h) (shows := showInt) (by decide) (coef := coef) (by
      intro t ht
      simp only [List.mem_cons, List.not_mem_nil, or_false] at ht
      rcases ht with rfl | rfl
      · exact term_ok (k := 1) (by decide) (by decide +kernel) (by norm_num)
          ⟨"e_x^e_y".toList, by decide +kernel, by decide +kernel⟩
      · exact term_ok (k := 7) (by decide) (by decide +kernel) (by norm_num)
          ⟨"a*e_y^e_z".toList, by decide +kernel, by decide +kernel⟩) (by decide +kernel) (by
      intro t ht _
      simp only [List.mem_cons, List.not_mem_nil, or_false] at ht
      rcases ht with rfl | rfl
      · decide +kernel
      · decide +kernel) calls
  have h3 : mvStr gN 1 showInt [(-1, .blade [0, 1]), (7, .blade [1, 2])] =
      some "-e_x^e_y + a*e_y^e_z".toList := by decide +kernel
  exact ⟨s, v, h1, by rw [h3] at h1; exact (Option.some.inj h1).symm, h2⟩

end Ex

end GA
