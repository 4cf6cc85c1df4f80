import Verif.Spec.Parser
import Mathlib.Data.List.TakeWhile
import Mathlib.Tactic

/-!
# Reading the text of an expression
-/

namespace GA

open GA.Parser (Op)

namespace PExpr

/-- The operator that is applied last. -/
def root : PExpr → Option Char
  | op _ _ c _ => some c
  | _ => none

/-- The expression follows the rules. -/
def Follows (R : Rules) : PExpr → Prop
  | name s => s ≠ [] ∧ ∀ c ∈ s, nameChar c = true
  | paren e => e.Follows R
  | op _ l c r => l.Follows R ∧ r.Follows R ∧ ∃ q, R.prec c = some q ∧
      (∀ c' q', l.root = some c' → R.prec c' = some q' → q ≤ q' ∧ (q = q' → R.single c' = false)) ∧
      (∀ c' q', r.root = some c' → R.prec c' = some q' → q < q')

def cost : PExpr → ℕ
  | name _ => 1
  | paren e => e.cost + 2
  | op _ l _ r => l.cost + r.cost + 1

/-- The state after the expression has been read. -/
def last (R : Rules) : PExpr → Option ℕ
  | op _ _ c _ => if R.single c = true then R.prec c else none
  | _ => none

end PExpr

open PExpr

theorem readFrom_mono (R : Rules) : ∀ (k : ℕ) (m : Reading) (s : List Char) (r : Tree × List Char),
    readFrom R k m s = some r → readFrom R (k + 1) m s = some r := by
  intro k
  induction k with
  | zero => intro m s r h; simp [readFrom] at h
  | succ k ih =>
    intro m s r h
    cases m with
    | atom =>
      by_cases hs : ∃ s', s = '(' :: s'
      · obtain ⟨s', rfl⟩ := hs
        rw [readFrom] at h ⊢
        split at h
        · rename_i h1
          rw [ih _ _ _ h1]
          exact h
        · cases h
      · have hs' : ∀ s', s = '(' :: s' → False := fun s' e => hs ⟨s', e⟩
        by_cases hm : ∃ s', s = '-' :: s'
        · obtain ⟨s', rfl⟩ := hm
          rw [readFrom.eq_3] at h ⊢
          obtain ⟨a, h1, h2⟩ := Option.map_eq_some_iff.mp h
          rw [ih _ _ _ h1, Option.map_some, h2]
        · have hm' : ∀ s', s = '-' :: s' → False := fun s' e => hm ⟨s', e⟩
          rw [readFrom.eq_4 _ _ _ hs' hm'] at h ⊢
          exact h
    | expr p =>
      rw [readFrom] at h ⊢
      obtain ⟨a, h1, h2⟩ := Option.bind_eq_some_iff.mp h
      rw [ih _ _ _ h1, Option.bind_some, ih _ _ _ h2]
    | rest p last t =>
      cases s with
      | nil => rw [readFrom] at h ⊢; exact h
      | cons c s' =>
        rw [readFrom] at h ⊢
        split at h
        · exact h
        · rename_i q _
          by_cases h1 : q < p
          · rw [if_pos h1] at h ⊢; exact h
          · by_cases h2 : last = some q
            · rw [if_neg h1, if_pos h2] at h; cases h
            rw [if_neg h1, if_neg h2] at h ⊢
            obtain ⟨a, h3, h4⟩ := Option.bind_eq_some_iff.mp h
            rw [ih _ _ _ h3, Option.bind_some, ih _ _ _ h4]

theorem readFrom_le (R : Rules) {k k' : ℕ} (hk : k ≤ k') {m : Reading} {s : List Char}
    {r : Tree × List Char} (h : readFrom R k m s = some r) : readFrom R k' m s = some r := by
  induction hk with
  | refl => exact h
  | step _ ih => exact readFrom_mono R _ _ _ _ ih

theorem readFrom_pos {R : Rules} {k : ℕ} {m : Reading} {s : List Char} {r : Tree × List Char}
    (h : readFrom R k m s = some r) : 1 ≤ k := by
  cases k with
  | zero => simp [readFrom] at h
  | succ k => omega

theorem readFrom_stop (R : Rules) {p : ℕ} {last : Option ℕ} {t : Tree} {rest : List Char}
    (h : ∀ c s' q, rest = c :: s' → R.prec c = some q → q < p) :
    readFrom R 1 (.rest p last t) rest = some (t, rest) := by
  cases rest with
  | nil => rw [readFrom]
  | cons c s' =>
    rw [readFrom]
    cases hp : R.prec c with
    | none => rfl
    | some q => simp [h c s' q rfl hp]

theorem readFrom_name (R : Rules) {s rest : List Char} (h : s ≠ [] ∧ ∀ c ∈ s, nameChar c = true)
    (hr : ∀ c s', rest = c :: s' → nameChar c = false) {k : ℕ} (hk : 1 ≤ k) :
    readFrom R k .atom (s ++ rest) = some (.leaf s, rest) := by
  obtain ⟨j, rfl⟩ : ∃ j, k = j + 1 := ⟨k - 1, by omega⟩
  have h1 : (s ++ rest).takeWhile nameChar = s := by
    rw [List.takeWhile_append_of_pos h.2]
    cases rest with
    | nil => simp
    | cons c s' => rw [List.takeWhile_cons_of_neg (by simp [hr c s' rfl]), List.append_nil]
  have h2 : (s ++ rest).dropWhile nameChar = rest := by
    rw [List.dropWhile_append_of_pos h.2]
    cases rest with
    | nil => simp
    | cons c s' => rw [List.dropWhile_cons_of_neg (by simp [hr c s' rfl])]
  rw [readFrom.eq_4]
  · rw [h1, h2, if_neg h.1]
  all_goals
    intro s' e
    obtain ⟨c, s, rfl⟩ := List.exists_cons_of_ne_nil h.1
    have hc := h.2 c (by simp)
    rw [(List.cons.inj e).1] at hc
    revert hc
    decide

theorem readFrom_text (R : Rules) (hR : ∀ c q, R.prec c = some q → nameChar c = false)
    (hR' : R.prec ')' = none) (e : PExpr) : e.Follows R → ∀ (p : ℕ) (rest : List Char),
    (∀ c q, e.root = some c → R.prec c = some q → p ≤ q) →
    (∀ c s', rest = c :: s' → nameChar c = false) →
    (∀ c s' q' c' q, rest = c :: s' → R.prec c = some q' → e.root = some c' → R.prec c' = some q →
      q' ≤ q) →
    ∀ k res, readFrom R k (.rest p (e.last R) e.tree) rest = some res →
      readFrom R (k + e.cost) (.expr p) (e.text ++ rest) = some res := by
  induction e with
  | name s =>
    intro h p rest _ hrest _ k res hk
    rw [cost, readFrom, text, readFrom_name R h hrest (readFrom_pos hk), Option.bind_some]
    exact hk
  | paren e ih =>
    intro h p rest _ hrest _ k res hk
    have h1 := ih h 0 (')' :: rest) (by simp) (by
      rintro c s' e'
      obtain ⟨rfl, -⟩ := List.cons.inj e'
      decide) (by
      rintro c s' q' c' q e' hp
      obtain ⟨rfl, -⟩ := List.cons.inj e'
      rw [hR'] at hp
      cases hp) 1 (e.tree, ')' :: rest) (readFrom_stop R (by
      rintro c s' q e' hp
      obtain ⟨rfl, -⟩ := List.cons.inj e'
      rw [hR'] at hp
      cases hp))
    have hpos := readFrom_pos hk
    have h2 : readFrom R (k + e.cost + 1) .atom (text (paren e) ++ rest) = some (e.tree, rest) := by
      rw [text, List.cons_append, List.append_assoc, List.singleton_append, readFrom.eq_2]
      rw [readFrom_le R (by omega) h1]
      rfl
    rw [cost, show k + (e.cost + 2) = (k + e.cost + 1) + 1 by omega, readFrom, h2, Option.bind_some]
    exact readFrom_le R (by omega) hk
  | op g l c r ihl ihr =>
    intro h p rest hp hrest hfol k res hk
    obtain ⟨hl, hr, q, hq, hlq, hrq⟩ := h
    have hpq : p ≤ q := hp c q rfl hq
    rw [cost, show k + (l.cost + r.cost + 1) = (k + r.cost + 1) + l.cost by omega, text,
      List.append_assoc]
    refine ihl hl p (c :: r.text ++ rest) (fun c' q' h1 h2 => hpq.trans (hlq c' q' h1 h2).1) ?_ ?_
      (k + r.cost + 1) res ?_
    · rintro c' s' e'
      obtain ⟨rfl, -⟩ := List.cons.inj e'
      exact hR _ _ hq
    · rintro c1 s' q' c' q1 e' h1 h2 h3
      obtain ⟨rfl, -⟩ := List.cons.inj e'
      rw [hq] at h1
      obtain rfl := Option.some.inj h1
      exact (hlq c' q1 h2 h3).1
    · rw [List.cons_append, readFrom]
      simp only [hq]
      rw [if_neg (by omega), if_neg]
      · have hstop := readFrom_stop R (p := q + 1) (last := r.last R) (t := r.tree) (rest := rest) (by
          intro c1 s' q1 e1 h1
          have := hfol c1 s' q1 c q e1 h1 rfl hq
          omega)
        have h1 := ihr hr (q + 1) rest (fun c' q' h1 h2 => hrq c' q' h1 h2) hrest (by
          intro c1 s' q1 c' q2 e1 h1 h2 h3
          have h4 := hfol c1 s' q1 c q e1 h1 rfl hq
          have h5 := hrq c' q2 h2 h3
          omega) 1 _ hstop
        have hpos := readFrom_pos hk
        rw [readFrom_le R (by omega) h1, Option.bind_some]
        rw [PExpr.last, hq] at hk
        exact readFrom_le R (by omega) hk
      · intro hlast
        cases l with
        | name s => simp [PExpr.last] at hlast
        | paren e => simp [PExpr.last] at hlast
        | op k' l' c' r' =>
          rw [PExpr.last] at hlast
          split_ifs at hlast with hs
          have := (hlq c' q rfl hlast).2 rfl
          rw [hs] at this
          cases this

theorem cost_le {R : Rules} (e : PExpr) (h : e.Follows R) : e.cost ≤ e.text.length := by
  induction e with
  | name s => exact List.length_pos_iff.mpr h.1
  | paren e ih => have := ih h; simp [cost, text]; omega
  | op k l c r ihl ihr =>
    have h1 := ihl h.1
    have h2 := ihr h.2.1
    simp [cost, text]
    omega

theorem readString_text (R : Rules) (hR : ∀ c q, R.prec c = some q → nameChar c = false)
    (hR' : R.prec ')' = none) (e : PExpr) (h : e.Follows R) : readString R e.text = some e.tree := by
  have h1 := readFrom_text R hR hR' e h 0 [] (by simp) (by simp) (by simp) 1 (e.tree, [])
    (readFrom_stop R (by simp))
  have h2 := cost_le e h
  rw [List.append_nil] at h1
  rw [readString, readFrom_le R (by omega) h1]

/-! ### The two sets of rules -/

theorem pyRules_name (c : Char) (q : ℕ) (h : pyRules.prec c = some q) : nameChar c = false := by
  simp only [pyRules] at h
  split_ifs at h with h1 h2 h3 h4 h5
  · subst h1; decide
  · rcases h2 with rfl | rfl <;> decide
  · subst h3; decide
  · subst h4; decide
  · rcases h5 with rfl | rfl <;> decide

theorem opChar_cases {o : Op} {c : Char} (h : opChar o c = true) :
    (o = .dots ∧ (c = '|' ∨ c = '<' ∨ c = '>')) ∨ (o = .wedge ∧ c = '^') ∨ (o = .times ∧ c = '*') := by
  cases o <;> simp [opChar] at h ⊢
  · tauto
  · exact h
  · exact h

theorem opChar_name {o : Op} {c : Char} (h : opChar o c = true) :
    nameChar c = false ∧ c ≠ '+' ∧ c ≠ '-' ∧ c ≠ '(' ∧ c ≠ ')' := by
  rcases opChar_cases h with ⟨-, rfl | rfl | rfl⟩ | ⟨-, rfl⟩ | ⟨-, rfl⟩ <;> decide

theorem opChar_unique {o o' : Op} {c : Char} (h : opChar o c = true) (h' : opChar o' c = true) : o = o' := by
  rcases opChar_cases h with ⟨rfl, rfl | rfl | rfl⟩ | ⟨rfl, rfl⟩ | ⟨rfl, rfl⟩ <;>
    rcases opChar_cases h' with ⟨rfl, h | h | h⟩ | ⟨rfl, h⟩ | ⟨rfl, h⟩ <;>
    first | rfl | (exfalso; revert h; decide)

theorem orderRules_name (ops : List Op) (c : Char) (q : ℕ) (h : (orderRules ops).prec c = some q) :
    nameChar c = false := by
  simp only [orderRules] at h
  split_ifs at h with h1 h2
  · rcases h1 with rfl | rfl <;> decide
  · obtain ⟨o, -, h3⟩ := h2
    exact (opChar_name h3).1

theorem orderRules_close (ops : List Op) : (orderRules ops).prec ')' = none := by
  simp only [orderRules]
  rw [if_neg (by decide), if_neg]
  rintro ⟨o, -, h⟩
  cases o <;> revert h <;> decide

theorem orderRules_prec {ops : List Op} (hn : ops.Nodup) {k : ℕ} {c : Char} (h : IsOp ops k c) :
    k ≤ ops.length ∧ (orderRules ops).prec c = some (ops.length - k) := by
  simp only [orderRules]
  rcases h with ⟨o, ho, hc⟩ | ⟨rfl, hc⟩
  · obtain ⟨hk, rfl⟩ := List.getElem?_eq_some_iff.mp ho
    have h1 := opChar_name hc
    refine ⟨hk.le, ?_⟩
    rw [if_neg (by tauto), if_pos ⟨_, List.getElem_mem hk, hc⟩]
    congr 2
    rw [List.findIdx_eq hk]
    refine ⟨hc, fun j hj => ?_⟩
    rw [Bool.eq_false_iff]
    intro h2
    have := (List.Nodup.getElem_inj_iff hn).mp (opChar_unique h2 hc)
    omega
  · rw [if_pos hc]
    simp

theorem root_isOp {ops : List Op} {e : PExpr} (h : e.WF ops) {c : Char} (hc : e.root = some c) :
    ∃ k, e.rank = k + 1 ∧ IsOp ops k c := by
  cases e with
  | name s => simp [root] at hc
  | paren e => simp [root] at hc
  | op k l c' r =>
    obtain rfl := Option.some.inj hc
    exact ⟨k, rfl, h.2.2.1⟩

theorem follows_order {ops : List Op} (hn : ops.Nodup) (e : PExpr) (h : e.WF ops) :
    e.Follows (orderRules ops) := by
  induction e with
  | name s => exact h
  | paren e ih => exact ih h
  | op k l c r ihl ihr =>
    obtain ⟨h1, h2, h3, h4, h5⟩ := h
    obtain ⟨hk, hq⟩ := orderRules_prec hn h3
    refine ⟨ihl h1, ihr h2, _, hq, fun c' q' hc' hq' => ?_, fun c' q' hc' hq' => ?_⟩
    · obtain ⟨k', hr, ho⟩ := root_isOp h1 hc'
      obtain ⟨hk', hq2⟩ := orderRules_prec hn ho
      rw [hq'] at hq2
      obtain rfl := Option.some.inj hq2
      rw [hr] at h5
      split_ifs at h5 with hd
      · exact ⟨by omega, fun h => by omega⟩
      · refine ⟨by omega, fun h => ?_⟩
        obtain rfl : k' = k := by omega
        rw [Bool.eq_false_iff]
        intro hs
        change opChar .dots c' = true at hs
        rcases ho with ⟨o, ho, hc⟩ | ⟨-, hc⟩
        · obtain rfl := opChar_unique hc hs
          exact hd ho
        · have := opChar_name hs
          tauto
    · obtain ⟨k', hr, ho⟩ := root_isOp h2 hc'
      obtain ⟨hk', hq2⟩ := orderRules_prec hn ho
      rw [hq'] at hq2
      obtain rfl := Option.some.inj hq2
      omega

theorem tree_body (n : ℕ) (e : PExpr) : (e.body n).tree = e.tree := by
  induction e with
  | name s => rfl
  | paren e ih => exact ih
  | op k l c r ihl ihr =>
    rw [body, tree, tree]
    split_ifs <;> simp only [tree, ihl, ihr]

theorem tree_grouped (n : ℕ) (e : PExpr) : (e.grouped n).tree = e.tree := by
  rw [grouped]
  split_ifs
  · exact tree_body n e
  · exact tree_body n e

theorem root_body (n : ℕ) (e : PExpr) : (e.body n).root = e.root := by
  cases e <;> rfl

theorem pyRules_prec {o : Op} {c : Char} (h : opChar o c = true) : ∃ q, pyRules.prec c = some q := by
  rcases opChar_cases h with ⟨-, rfl | rfl | rfl⟩ | ⟨-, rfl⟩ | ⟨-, rfl⟩ <;> exact ⟨_, rfl⟩

theorem pyRules_same {ops : List Op} {k : ℕ} {c c' : Char} (h : IsOp ops k c) (h' : IsOp ops k c')
    (hd : ops[k]? ≠ some .dots) : pyRules.prec c = pyRules.prec c' ∧ pyRules.single c' = false := by
  rcases h with ⟨o, ho, hc⟩ | ⟨hk, hc⟩ <;> rcases h' with ⟨o', ho', hc'⟩ | ⟨hk', hc'⟩
  · rw [ho] at ho'
    obtain rfl := Option.some.inj ho'
    rcases opChar_cases hc with ⟨rfl, -⟩ | ⟨rfl, rfl⟩ | ⟨rfl, rfl⟩
    · exact absurd ho hd
    · obtain rfl : c' = '^' := by simpa [opChar] using hc'
      exact ⟨rfl, rfl⟩
    · obtain rfl : c' = '*' := by simpa [opChar] using hc'
      exact ⟨rfl, rfl⟩
  · subst hk'; simp at ho
  · subst hk; simp at ho'
  · rcases hc with rfl | rfl <;> rcases hc' with rfl | rfl <;> exact ⟨rfl, rfl⟩

theorem follows_py {ops : List Op} (e : PExpr) (h : e.WF ops) :
    (e.body ops.length).Follows pyRules := by
  induction e with
  | name s => exact h
  | paren e ih => exact ih h
  | op k l c r ihl ihr =>
    obtain ⟨h1, h2, h3, h4, h5⟩ := h
    have hkn : k ≤ ops.length := by
      rcases h3 with ⟨o, ho, -⟩ | ⟨rfl, -⟩
      · exact (List.getElem?_eq_some_iff.mp ho).1.le
      · exact le_rfl
    obtain ⟨q, hq⟩ : ∃ q, pyRules.prec c = some q := by
      rcases h3 with ⟨o, ho, hc⟩ | ⟨rfl, rfl | rfl⟩
      · exact pyRules_prec hc
      · exact ⟨_, rfl⟩
      · exact ⟨_, rfl⟩
    rw [body]
    refine ⟨?_, ?_, q, hq, ?_, ?_⟩
    · split_ifs
      · exact ihl h1
      · exact ihl h1
    · split_ifs
      · exact ihr h2
      · exact ihr h2
    · intro c' q' hc' hq'
      split_ifs at hc' with hp
      · simp [root] at hc'
      · rw [root_body] at hc'
        obtain ⟨k', hr, ho⟩ := root_isOp h1 hc'
        have hk' : k' = k := by
          by_contra hne
          refine hp ⟨?_, by omega⟩
          rw [isProduct, decide_eq_true_eq]
          split_ifs at h5 <;> omega
        subst hk'
        have hd : ops[k']? ≠ some .dots := by
          intro hd
          rw [if_pos hd] at h5
          omega
        obtain ⟨h6, h7⟩ := pyRules_same h3 ho hd
        rw [h6, hq'] at hq
        obtain rfl := Option.some.inj hq
        exact ⟨le_rfl, fun _ => h7⟩
    · intro c' q' hc' hq'
      split_ifs at hc' with hp
      · simp [root] at hc'
      · rw [root_body] at hc'
        obtain ⟨k', hr, ho⟩ := root_isOp h2 hc'
        exfalso
        apply hp
        rw [isProduct, decide_eq_true_eq]
        omega

/-- Reading the text of an expression by the order. -/
theorem readString_order {ops : List Op} (hn : ops.Nodup) (e : PExpr) (h : e.WF ops) :
    readString (orderRules ops) e.text = some e.tree :=
  readString_text _ (orderRules_name ops) (orderRules_close ops) e (follows_order hn e h)

/-- Reading the text with parentheses by the rules of Python. -/
theorem readString_py {ops : List Op} (e : PExpr) (h : e.WF ops) :
    readString pyRules (e.grouped ops.length).text = some e.tree := by
  rw [← tree_grouped ops.length e]
  refine readString_text _ pyRules_name rfl _ ?_
  rw [grouped]
  split_ifs
  · exact follows_py e h
  · exact follows_py e h

end GA
