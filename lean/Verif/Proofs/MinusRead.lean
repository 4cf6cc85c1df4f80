import Verif.Proofs.ParserMinus
import Verif.Proofs.GaEval
import Verif.Props.C49Precedence

/-!
# Expressions that begin with a minus sign
-/

set_option linter.unusedSectionVars false

namespace GA

open GA.Parser (Op parseLine parseLine_minus)

namespace PExpr

/-- `0-e`, as a sum from the left. -/
def zeroMinus (m : ℕ) : PExpr → PExpr
  | op k l c r => if k = m then op k (zeroMinus m l) c r else op m (name ['0']) '-' (op k l c r)
  | e => op m (name ['0']) '-' e

/-- What `-e` means: the sign belongs to the first name or parentheses. -/
def negRead : PExpr → Tree
  | name s => .neg (.leaf s)
  | paren e => .neg e.tree
  | op _ l c r => .node l.negRead c r.tree

end PExpr

open PExpr

/-! ### Rewriting -/

theorem text_zeroMinus (m : ℕ) (e : PExpr) : (e.zeroMinus m).text = '0' :: '-' :: e.text := by
  induction e with
  | name s => rfl
  | paren e _ => rfl
  | op k l c r ihl _ =>
    rw [zeroMinus]
    split_ifs
    · rw [text, ihl, text]; rfl
    · rfl

theorem wf_zeroMinus {ops : List Op} (e : PExpr) (h : e.WF ops) :
    (e.zeroMinus ops.length).WF ops ∧ (e.zeroMinus ops.length).rank = ops.length + 1 := by
  have key : ∀ e : PExpr, e.WF ops → e.rank ≤ ops.length →
      (PExpr.op ops.length (.name ['0']) '-' e).WF ops := by
    intro e he hr
    exact ⟨⟨by simp, by decide⟩, he, Or.inr ⟨rfl, Or.inr rfl⟩, hr, by simp [PExpr.rank]⟩
  induction e with
  | name s => exact ⟨key _ h (by simp [PExpr.rank]), rfl⟩
  | paren e _ => exact ⟨key _ h (by simp [PExpr.rank]), rfl⟩
  | op k l c r ihl _ =>
    rw [zeroMinus]
    split_ifs with hk
    · obtain ⟨h1, h2, h3, h4, -⟩ := h
      obtain ⟨i1, i2⟩ := ihl h1
      refine ⟨⟨i1, h2, h3, h4, ?_⟩, by rw [PExpr.rank, hk]⟩
      rw [i2, if_neg (by subst hk; simp), hk]
    · refine ⟨key _ h ?_, rfl⟩
      rw [PExpr.rank]
      rcases h.2.2.1 with ⟨o, ho, -⟩ | ⟨h', -⟩
      · exact (List.getElem?_eq_some_iff.mp ho).1
      · exact absurd h' hk

theorem parts_zeroMinus (m : ℕ) (e : PExpr) :
    (e.zeroMinus m).parts m = e.self m ++ e.parts m ∧ (e.zeroMinus m).rank = m + 1 := by
  induction e with
  | name s => exact ⟨rfl, rfl⟩
  | paren e _ => exact ⟨by simp [zeroMinus, parts, self, isProduct, rank], rfl⟩
  | op k l c r ihl _ =>
    rw [zeroMinus]
    split_ifs with hk
    · subst hk
      refine ⟨?_, rfl⟩
      have hs : (PExpr.op k l c r).self k = [] := by
        rw [self, if_neg]; simp [isProduct, rank]
      have hl : (if l.rank = k + 1 then [] else l.self k) = l.self k := by
        split_ifs with h
        · rw [self, if_neg]; simp [isProduct, h]
        · rfl
      rw [hs, parts, parts, ihl.1, ihl.2, if_pos rfl, hl]
      simp
    · refine ⟨?_, rfl⟩
      rw [parts]
      simp [self, parts, isProduct, rank]

theorem text_parts_le (m : ℕ) (e : PExpr) :
    (∀ p ∈ e.parts m, p.text.length ≤ e.text.length) ∧
      ∀ k l c r, e = .op k l c r → ∀ p ∈ e.parts m, p.text.length < e.text.length := by
  have hself : ∀ (e : PExpr), ∀ p ∈ e.self m, p = e := by
    intro e p hp
    rw [self] at hp
    split_ifs at hp
    · simpa using hp
    · simp at hp
  induction e with
  | name s => exact ⟨by simp [parts], by simp⟩
  | paren e ih =>
    refine ⟨fun p hp => ?_, by simp⟩
    rw [parts] at hp
    rcases List.mem_cons.mp hp with rfl | hp
    · exact le_rfl
    · have : p.text.length ≤ e.text.length := by
        rcases List.mem_append.mp hp with hp | hp
        · rw [hself e p hp]
        · exact ih.1 p hp
      simp [text]; omega
  | op k l c r ihl ihr =>
    have key : ∀ p ∈ (PExpr.op k l c r).parts m, p.text.length < (PExpr.op k l c r).text.length := by
      intro p hp
      have hl : p.text.length ≤ l.text.length ∨ p.text.length ≤ r.text.length := by
        rw [parts] at hp
        rcases List.mem_append.mp hp with hp | hp
        · left
          rcases List.mem_append.mp hp with hp | hp
          · split_ifs at hp
            · simp at hp
            · rw [hself l p hp]
          · exact ihl.1 p hp
        · right
          rcases List.mem_append.mp hp with hp | hp
          · rw [hself r p hp]
          · exact ihr.1 p hp
      simp [text]
      omega
    exact ⟨fun p hp => (key p hp).le, fun _ _ _ _ _ => key⟩

theorem noRepeat_zeroMinus {m : ℕ} {e : PExpr} (h : e.NoRepeat m) : (e.zeroMinus m).NoRepeat m := by
  rw [NoRepeat, (parts_zeroMinus m e).1, self]
  split_ifs with hp
  · rw [List.singleton_append, List.map_cons, List.nodup_cons]
    refine ⟨fun hm => ?_, h⟩
    obtain ⟨p, hp', ht⟩ := List.mem_map.mp hm
    cases e with
    | name s => simp [isProduct, rank] at hp
    | paren e => simp [isProduct, rank] at hp
    | op k l c r =>
      have := (text_parts_le m (.op k l c r)).2 k l c r rfl p hp'
      rw [ht] at this
      omega
  · exact h

theorem safeParens_zeroMinus {m : ℕ} {e : PExpr} (h : e.SafeParens m) : (e.zeroMinus m).SafeParens m := by
  intro e' he'
  rw [(parts_zeroMinus m e).1, self] at he'
  rcases List.mem_append.mp he' with he' | he'
  · split_ifs at he' with hp
    · rw [List.mem_singleton] at he'
      rw [← he'] at hp
      simp [isProduct, rank] at hp
    · simp at he'
  · exact h e' he'

theorem safeTop_zeroMinus (m : ℕ) (e : PExpr) : (e.zeroMinus m).SafeTop m := by
  intro i hi
  right
  have : ∀ e : PExpr, (e.zeroMinus m).starts i = false := by
    intro e
    induction e with
    | name s => simp [zeroMinus, starts]; omega
    | paren e _ => simp [zeroMinus, starts]; omega
    | op k l c r ihl _ =>
      rw [zeroMinus]
      split_ifs with hk
      · rw [starts, ihl]; simp; omega
      · simp [starts]; omega
  rw [this]
  simp

theorem grouped_zeroMinus (m : ℕ) (e : PExpr) :
    ((e.zeroMinus m).grouped m).text = '0' :: '-' :: (e.grouped m).text := by
  have hnp : ∀ e : PExpr, isProduct m (e.zeroMinus m) = false := by
    intro e; simp [isProduct, (parts_zeroMinus m e).2]
  have hg : ∀ e : PExpr, (e.zeroMinus m).grouped m = (e.zeroMinus m).body m := by
    intro e; rw [grouped, hnp e]; rfl
  rw [hg]
  have base : ∀ e : PExpr, ((PExpr.op m (.name ['0']) '-' e).body m).text = '0' :: '-' :: (e.grouped m).text := by
    intro e
    rw [body, if_neg (by simp [isProduct, rank]), grouped]
    rfl
  induction e with
  | name s => exact base _
  | paren e _ => exact base _
  | op k l c r ihl _ =>
    rw [zeroMinus]
    split_ifs with hk
    · subst hk
      have h1 : (PExpr.op k l c r).grouped k = (PExpr.op k l c r).body k := by
        rw [grouped, if_neg]; simp [isProduct, rank]
      have h2 : (if isProduct k l = true ∧ l.rank ≠ k + 1 then paren (l.body k) else l.body k) = l.grouped k := by
        rw [grouped]
        by_cases hp : isProduct k l = true
        · have hne : l.rank ≠ k + 1 := by
            simp only [isProduct, decide_eq_true_eq] at hp
            omega
          rw [if_pos hp, if_pos ⟨hp, hne⟩]
        · rw [if_neg hp, if_neg fun h => hp h.1]
      rw [h1, body, body, h2, hnp l, if_neg (by simp), text, ihl, text]
      rfl
    · exact base _

theorem parseLine_filter (ops : List Op) (calls : ℕ) (s : List Char) :
    parseLine ops calls (s.filter (· ≠ ' ')) = parseLine ops calls s := by
  rw [parseLine, parseLine, List.filter_filter]
  simp only [Bool.and_self]

theorem parseLine_neg {ops : List Op} (hops : ops.Nodup) (calls : ℕ) (e : PExpr) (he : e.WF ops)
    (hrep : e.NoRepeat ops.length) (hparens : e.SafeParens ops.length)
    {s : List Char} (hs : s.filter (· ≠ ' ') = '-' :: e.text) :
    parseLine ops calls s = some ('-' :: (e.grouped ops.length).text) := by
  have h := C49_precedence_partial hops calls (e.zeroMinus ops.length) (wf_zeroMinus e he).1
    (noRepeat_zeroMinus hrep) (safeParens_zeroMinus hparens) (safeTop_zeroMinus _ e) (s := '0' :: s) (by
      rw [List.filter_cons_of_pos (by decide), hs, text_zeroMinus])
  rw [← parseLine_filter, List.filter_cons_of_pos (by decide), hs, parseLine_minus, ← hs, parseLine_filter,
    grouped_zeroMinus] at h
  obtain ⟨r, h1, h2⟩ := Option.map_eq_some_iff.mp h
  rw [h1, (List.cons.inj h2).2]

/-! ### Reading -/

theorem readFrom_neg (R : Rules) (hR : ∀ c q, R.prec c = some q → nameChar c = false)
    (hR' : R.prec ')' = none) (e : PExpr) : e.Follows R → ∀ (p : ℕ) (rest : List Char),
    (∀ c q, e.root = some c → R.prec c = some q → p ≤ q) →
    (∀ c s', rest = c :: s' → nameChar c = false) →
    (∀ c s' q' c' q, rest = c :: s' → R.prec c = some q' → e.root = some c' → R.prec c' = some q →
      q' ≤ q) →
    ∀ k res, readFrom R k (.rest p (e.last R) e.negRead) rest = some res →
      readFrom R (k + e.cost + 1) (.expr p) ('-' :: (e.text ++ rest)) = some res := by
  induction e with
  | name s =>
    intro h p rest _ hrest _ k res hk
    have hpos := readFrom_pos hk
    have h1 : readFrom R (k + 1) .atom ('-' :: (s ++ rest)) = some (.neg (.leaf s), rest) := by
      rw [readFrom.eq_3, readFrom_name R h hrest hpos]; rfl
    rw [cost, readFrom, text, h1, Option.bind_some]
    exact readFrom_le R (by omega) hk
  | paren e _ =>
    intro h p rest _ hrest _ k res hk
    have h1 := readFrom_text R hR hR' e h 0 (')' :: rest) (by simp) (by
      rintro c s' e'
      obtain ⟨rfl, -⟩ := List.cons.inj e'
      decide) (by
      rintro c s' q' c' q e' hp
      obtain ⟨rfl, -⟩ := List.cons.inj e'
      rw [hR'] at hp
      cases hp) 1 (e.tree, ')' :: rest) (readFrom_stop R (by
      rintro c s' q e' hp
      obtain ⟨rfl, -⟩ := List.cons.inj e'
      rw [hR'] at hp
      cases hp))
    have hpos := readFrom_pos hk
    have h2 : readFrom R (k + e.cost + 2) .atom ('-' :: (text (paren e) ++ rest)) = some (.neg e.tree, rest) := by
      rw [readFrom.eq_3, text, List.cons_append, List.append_assoc, List.singleton_append, readFrom.eq_2]
      rw [readFrom_le R (by omega) h1]
      rfl
    rw [cost, show k + (e.cost + 2) + 1 = (k + e.cost + 2) + 1 by omega, readFrom, h2, Option.bind_some]
    exact readFrom_le R (by omega) hk
  | op g l c r ihl _ =>
    intro h p rest hp hrest hfol k res hk
    obtain ⟨hl, hr, q, hq, hlq, hrq⟩ := h
    have hpq : p ≤ q := hp c q rfl hq
    rw [cost, show k + (l.cost + r.cost + 1) + 1 = (k + r.cost + 1) + l.cost + 1 by omega, text,
      List.append_assoc]
    refine ihl hl p (c :: r.text ++ rest) (fun c' q' h1 h2 => hpq.trans (hlq c' q' h1 h2).1) ?_ ?_
      (k + r.cost + 1) res ?_
    · rintro c' s' e'
      obtain ⟨rfl, -⟩ := List.cons.inj e'
      exact hR _ _ hq
    · rintro c1 s' q' c' q1 e' h1 h2 h3
      obtain ⟨rfl, -⟩ := List.cons.inj e'
      rw [hq] at h1
      obtain rfl := Option.some.inj h1
      exact (hlq c' q1 h2 h3).1
    · rw [List.cons_append, readFrom]
      simp only [hq]
      rw [if_neg (by omega), if_neg]
      · have hstop := readFrom_stop R (p := q + 1) (last := r.last R) (t := r.tree) (rest := rest) (by
          intro c1 s' q1 e1 h1
          have := hfol c1 s' q1 c q e1 h1 rfl hq
          omega)
        have h1 := readFrom_text R hR hR' r hr (q + 1) rest (fun c' q' h1 h2 => hrq c' q' h1 h2) hrest (by
          intro c1 s' q1 c' q2 e1 h1 h2 h3
          have h4 := hfol c1 s' q1 c q e1 h1 rfl hq
          have h5 := hrq c' q2 h2 h3
          omega) 1 _ hstop
        have hpos := readFrom_pos hk
        rw [readFrom_le R (by omega) h1, Option.bind_some]
        rw [PExpr.last, hq] at hk
        exact readFrom_le R (by omega) hk
      · intro hlast
        cases l with
        | name s => simp [PExpr.last] at hlast
        | paren e => simp [PExpr.last] at hlast
        | op k' l' c' r' =>
          rw [PExpr.last] at hlast
          split_ifs at hlast with hs
          have := (hlq c' q rfl hlast).2 rfl
          rw [hs] at this
          cases this

theorem readString_neg (R : Rules) (hR : ∀ c q, R.prec c = some q → nameChar c = false)
    (hR' : R.prec ')' = none) (e : PExpr) (h : e.Follows R) :
    readString R ('-' :: e.text) = some e.negRead := by
  have h1 := readFrom_neg R hR hR' e h 0 [] (by simp) (by simp) (by simp) 1 (e.negRead, [])
    (readFrom_stop R (by simp))
  have h2 := cost_le e h
  rw [List.append_nil] at h1
  rw [readString, readFrom_le R (by simp only [List.length_cons]; omega) h1]

/-! ### Values -/

theorem leaves_negRead (e : PExpr) : e.negRead.leaves = e.tree.leaves := by
  induction e with
  | name s => rfl
  | paren e _ => rfl
  | op k l c r ihl _ => rw [negRead, Tree.leaves, ihl]; rfl

theorem hasMv_negRead {P : List Char → Prop} (e : PExpr) : e.negRead.HasMv P ↔ e.tree.HasMv P := by
  induction e with
  | name s => rfl
  | paren e _ => rfl
  | op k l c r ihl _ => rw [negRead, Tree.HasMv, ihl]; rfl

theorem algebraic_negRead {P : List Char → Prop} (e : PExpr) : e.negRead.Algebraic P ↔ e.tree.Algebraic P := by
  induction e with
  | name s => rfl
  | paren e _ => rfl
  | op k l c r ihl _ => rw [negRead, Tree.Algebraic, ihl, hasMv_negRead]; rfl

theorem ops_negRead_grouped {ops : List Op} (e : PExpr) (he : e.WF ops) :
    (e.grouped ops.length).negRead.Ops := by
  have hneg : ∀ e : PExpr, e.tree.Ops → e.negRead.Ops := by
    intro e
    induction e with
    | name s => exact id
    | paren e _ => exact id
    | op k l c r ihl _ => exact fun h => ⟨ihl h.1, h.2.1, h.2.2⟩
  exact hneg _ (by rw [tree_grouped]; exact ops_tree e he)

section values
variable {n : ℕ} {R : Type*} [CommRing R] [Invertible (2 : R)] {g : Matrix (Fin n) (Fin n) R}

theorem opValue_neg {o : Op} {c : Char} (h : opChar o c = true) (x y : Spec.Cl g) :
    opValue g c (-x) y = -opValue g c x y := by
  have hw : Spec.wedge g (-x) y = -Spec.wedge g x y := by
    rw [Spec.wedge, Spec.wedge, map_neg, neg_mul, map_neg]
  have hp : ∀ f, Spec.gradedProduct g f (-x) y = -Spec.gradedProduct g f x y := by
    intro f
    simp only [Spec.gradedProduct, ← Finset.sum_neg_distrib]
    refine Finset.sum_congr rfl fun r _ => Finset.sum_congr rfl fun s _ => ?_
    cases f r s with
    | none => simp
    | some k => simp
  rcases opChar_cases h with ⟨-, rfl | rfl | rfl⟩ | ⟨-, rfl⟩ | ⟨-, rfl⟩
  · exact hp _
  · exact hp _
  · exact hp _
  · exact hw
  · exact neg_mul x y

theorem value_negRead {ops : List Op} (e : PExpr) (he : e.WF ops) (hr : e.rank ≤ ops.length)
    (x : List Char → Spec.Cl g) : e.negRead.value g x = -e.tree.value g x := by
  induction e with
  | name s => rfl
  | paren e _ => rfl
  | op k l c r ihl _ =>
    rw [rank] at hr
    rcases he.2.2.1 with ⟨o, ho, hc⟩ | ⟨rfl, -⟩
    · rw [negRead, Tree.value, ihl he.1, opValue_neg hc]
      · rfl
      · have := he.2.2.2.2
        split_ifs at this <;> omega
    · omega

/-- The parentheses do not matter for the sign. -/
theorem value_grouped_neg {ops : List Op} (e : PExpr) (he : e.WF ops) (x : List Char → Spec.Cl g) :
    (e.grouped ops.length).negRead.value g x = e.negRead.value g x := by
  set m := ops.length with hm
  have key : ∀ e : PExpr, e.WF ops → e.rank ≤ m →
      (e.grouped m).negRead.value g x = e.negRead.value g x := by
    intro e he hr
    rw [value_negRead e he hr, grouped]
    split_ifs with hp
    · rw [negRead, Tree.value, tree_body]
    · cases e with
      | name s => rfl
      | paren e => rw [body, negRead, Tree.value, tree_body]; rfl
      | op k l c r => exact absurd (by simp [isProduct, rank] at hr ⊢; exact hr) hp
  induction e with
  | name s => exact key _ he (by simp [rank])
  | paren e _ => exact key _ he (by simp [rank])
  | op k l c r ihl _ =>
    by_cases hk : k = m
    · have h1 : (PExpr.op k l c r).grouped m = (PExpr.op k l c r).body m := by
        rw [grouped, if_neg]; simp [isProduct, rank, hk]
      have h2 : (if isProduct m l = true ∧ l.rank ≠ k + 1 then paren (l.body m) else l.body m) = l.grouped m := by
        rw [grouped]
        by_cases hp : isProduct m l = true
        · have hne : l.rank ≠ k + 1 := by
            simp only [isProduct, decide_eq_true_eq] at hp
            omega
          rw [if_pos hp, if_pos ⟨hp, hne⟩]
        · rw [if_neg hp, if_neg fun h => hp h.1]
      have h3 : (if isProduct m r = true then paren (r.body m) else r.body m).tree = r.tree := by
        split_ifs
        · exact tree_body m r
        · exact tree_body m r
      rw [h1, body, h2, negRead, Tree.value, ihl he.1, h3]
      rfl
    · refine key _ he ?_
      rw [rank]
      rcases he.2.2.1 with ⟨o, ho, -⟩ | ⟨h', -⟩
      · exact (List.getElem?_eq_some_iff.mp ho).1
      · exact absurd h' hk

end values

end GA
