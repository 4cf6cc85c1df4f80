import Verif.Model.DopConstruct
import Verif.Proofs.Terms
import Mathlib.Algebra.BigOperators.Group.List.Basic
import Mathlib.Data.List.GetD
import Mathlib.Tactic.Ring
import Mathlib.Tactic.NormNum

/-!
# C113: making differential operators

The state of a program has its dictionaries and the operators made so far; a history is any sequence of actions.
-/

set_option linter.unusedSectionVars false

namespace GA.DopHeap
variable {V : Type*} [DecidableEq V] {R : Type*} [CommRing R]

/-- The history assigns to an entry of the dictionary `r`. -/
def Assigns (r : ℕ) (l : List (Action V R)) : Prop := ∃ x n, Action.assign r x n ∈ l

theorem act_pdops (s : State V R) (a : Action V R) : ∃ t, (s.act a).pdops = s.pdops ++ t := by
  cases a with
  | newDict d => exact ⟨[], by simp [State.act]⟩
  | assign r x n => exact ⟨[], by simp [State.act]⟩
  | pdop arg =>
    rw [State.act]
    cases mkPdop s arg with
    | ok p => exact ⟨[p], rfl⟩
    | error e => exact ⟨[], by simp⟩
  | diff p x n =>
    rw [State.act]
    cases s.pdops[p]? with
    | some p => exact ⟨_, rfl⟩
    | none => exact ⟨[], by simp⟩
  | sdop args =>
    rw [State.act]
    cases mkSdop s args with
    | ok p => exact ⟨p.1, rfl⟩
    | error e => exact ⟨[], by simp⟩

theorem act_sdops (s : State V R) (a : Action V R) : ∃ t, (s.act a).sdops = s.sdops ++ t := by
  cases a with
  | newDict d => exact ⟨[], by simp [State.act]⟩
  | assign r x n => exact ⟨[], by simp [State.act]⟩
  | pdop arg =>
    rw [State.act]
    cases mkPdop s arg with
    | ok p => exact ⟨[], by simp⟩
    | error e => exact ⟨[], by simp⟩
  | diff p x n =>
    rw [State.act]
    cases s.pdops[p]? with
    | some p => exact ⟨[], by simp⟩
    | none => exact ⟨[], by simp⟩
  | sdop args =>
    rw [State.act]
    cases mkSdop s args with
    | ok p => exact ⟨[p.2], rfl⟩
    | error e => exact ⟨[], by simp⟩

theorem act_dicts (s : State V R) {a : Action V R} {r : ℕ} (hr : r < s.dicts.length)
    (h : ∀ x n, a ≠ .assign r x n) : (s.act a).dicts[r]? = s.dicts[r]? ∧ s.dicts.length ≤ (s.act a).dicts.length := by
  cases a with
  | newDict d => exact ⟨by simp [State.act, List.getElem?_append_left hr], by simp [State.act]⟩
  | assign r' x n =>
    have : r' ≠ r := by
      rintro rfl
      exact h x n rfl
    exact ⟨by simp [State.act, this], by simp [State.act]⟩
  | pdop arg =>
    rw [State.act]
    cases mkPdop s arg <;> exact ⟨rfl, le_refl _⟩
  | diff p x n =>
    rw [State.act]
    cases s.pdops[p]? <;> exact ⟨rfl, le_refl _⟩
  | sdop args =>
    rw [State.act]
    cases mkSdop s args <;> exact ⟨rfl, le_refl _⟩

theorem run_pdops (s : State V R) (l : List (Action V R)) : ∃ t, (s.run l).pdops = s.pdops ++ t := by
  induction l generalizing s with
  | nil => exact ⟨[], by simp [State.run]⟩
  | cons a l ih =>
    obtain ⟨t, ht⟩ := act_pdops s a
    obtain ⟨t', ht'⟩ := ih (s.act a)
    exact ⟨t ++ t', by rw [State.run, List.foldl_cons, ← State.run, ht', ht, List.append_assoc]⟩

theorem run_sdops (s : State V R) (l : List (Action V R)) : ∃ t, (s.run l).sdops = s.sdops ++ t := by
  induction l generalizing s with
  | nil => exact ⟨[], by simp [State.run]⟩
  | cons a l ih =>
    obtain ⟨t, ht⟩ := act_sdops s a
    obtain ⟨t', ht'⟩ := ih (s.act a)
    exact ⟨t ++ t', by rw [State.run, List.foldl_cons, ← State.run, ht', ht, List.append_assoc]⟩

theorem run_dicts (s : State V R) {l : List (Action V R)} {r : ℕ} (hr : r < s.dicts.length) (h : ¬ Assigns r l) :
    (s.run l).dicts[r]? = s.dicts[r]? := by
  induction l generalizing s with
  | nil => rfl
  | cons a l ih =>
    obtain ⟨h1, h2⟩ := act_dicts s (a := a) hr fun x n e => h ⟨x, n, by simp [e]⟩
    rw [State.run, List.foldl_cons, ← State.run, ih (s.act a) (hr.trans_le h2) fun ⟨x, n, hm⟩ =>
      h ⟨x, n, List.mem_cons_of_mem _ hm⟩, h1]

/-- The dictionary of the operator is one of the program's, and the history assigns to it; or there is no such
dictionary. -/
def Exposed (s : State V R) (p : PObj V) (l : List (Action V R)) : Prop :=
  ∃ r, p.pdiffs = .shared r ∧ (Assigns r l ∨ s.dicts.length ≤ r)

theorem read_run {s : State V R} {p : PObj V} {l : List (Action V R)} (h : ¬ Exposed s p l) :
    (s.run l).read p.pdiffs = s.read p.pdiffs := by
  cases hp : p.pdiffs with
  | own d => rfl
  | shared r =>
    have h1 : ¬ Assigns r l := fun ha => h ⟨r, hp, .inl ha⟩
    have h2 : r < s.dicts.length := not_le.mp fun hl => h ⟨r, hp, .inr hl⟩
    rw [State.read, State.read, List.getD_eq_getElem?_getD, List.getD_eq_getElem?_getD, run_dicts s h2 h1]

/-- C113: the operators that the constructor of `Pdop` makes. `Pdop({})` and `Pdop(None)` do nothing, `Pdop(x)` is the
derivative by `x`, `Pdop({x: m, y: n, ...})` the derivatives one after another, and everything else is refused. -/
theorem C113_pdop (s : State V R) (D : V → R → R) (f : R) :
    (∃ p, mkPdop s .none = .ok p ∧ callPdop s (basicDiff D) p f = f ∧ p.order = 0) ∧
    (∀ x, ∃ p, mkPdop s (.symbol x) = .ok p ∧ callPdop s (basicDiff D) p f = D x f ∧ p.order = 1) ∧
    (∀ r d, s.dicts[r]? = some d → ∃ p, mkPdop s (.dict r) = .ok p ∧
      callPdop s (basicDiff D) p f = d.foldl (fun f xn => (D xn.1)^[xn.2] f) f ∧ p.order = (d.map Prod.snd).sum) ∧
    mkPdop s .other = .error .typeError := by
  refine ⟨⟨_, rfl, rfl, rfl⟩, fun x => ⟨_, rfl, rfl, rfl⟩, fun r d h => ⟨_, rfl, ?_, ?_⟩, rfl⟩
  · simp [callPdop, State.read, List.getD_eq_getElem?_getD, h, Pdop.call, basicDiff]
  · simp [State.read, List.getD_eq_getElem?_getD, h, Pdop.order]

theorem order_diff (d : Pdop V) (x : V) (n : ℕ) :
    Pdop.order (Pdop.diff x n d) = (d.map Prod.snd).sum + n := by
  induction d with
  | nil => simp [Pdop.order, Pdop.diff, Dict.get?, Dict.set]
  | cons kv d ih =>
    obtain ⟨k, v⟩ := kv
    rw [Pdop.order, Pdop.diff] at ih ⊢
    by_cases hk : k = x
    · simp [Dict.get?, Dict.set, hk]; omega
    · cases hg : Dict.get? d x with
      | none =>
        rw [hg] at ih
        simp only [Dict.get?, Dict.set, hk, if_false, hg, List.map_cons, List.sum_cons] at ih ⊢
        omega
      | some m =>
        rw [hg] at ih
        simp only [Dict.get?, Dict.set, hk, if_false, hg, List.map_cons, List.sum_cons] at ih ⊢
        omega

/-- C113: `D.diff(x, n)` of an operator is another operator: first `D`, then `n` derivatives by `x`, if derivatives
commute; its order is that of `D` plus `n`; it is not affected by later assignments. -/
theorem C113_diff {D : V → R → R} (hD : ∀ x y f, D x (D y f) = D y (D x f)) (s : State V R) (p : PObj V)
    (hp : ((s.read p.pdiffs).map Prod.fst).Nodup) (x : V) (n : ℕ) (f : R) (l : List (Action V R)) :
    callPdop (s.run l) (basicDiff D) (diffPdop s p x n) f = (D x)^[n] (callPdop s (basicDiff D) p f) ∧
    (diffPdop s p x n).order = ((s.read p.pdiffs).map Prod.snd).sum + n :=
  ⟨Pdop.call_diff D hD (p := s.read p.pdiffs) hp x n f, order_diff _ x n⟩

/-- C113, histories: every operator stays what it is, whatever is done afterwards, unless the program assigns to the
dictionary it was made from. -/
theorem C113_stable_partial {s : State V R} {i : ℕ} {p : PObj V} (hi : s.pdops[i]? = some p) {l : List (Action V R)}
    (h : ¬ Exposed s p l) (D : V → R → R) (f : R) :
    (s.run l).pdops[i]? = some p ∧ callPdop (s.run l) (basicDiff D) p f = callPdop s (basicDiff D) p f := by
  constructor
  · obtain ⟨t, ht⟩ := run_pdops s l
    rw [ht, List.getElem?_append_left, hi]
    by_contra hn
    rw [List.getElem?_eq_none (not_lt.mp hn)] at hi
    cases hi
  · rw [callPdop, callPdop, read_run h]

/-- C113: an operator made from a symbol, from `None` or by differentiation has a dictionary of its own. -/
theorem C113_own (s : State V R) (l : List (Action V R)) :
    (∀ p, mkPdop s .none = .ok p → ¬ Exposed s p l) ∧ (∀ x p, mkPdop s (.symbol x) = .ok p → ¬ Exposed s p l) ∧
    ∀ p x n, ¬ Exposed s (diffPdop s p x n) l := by
  refine ⟨fun p h => ?_, fun x p h => ?_, fun p x n => ?_⟩
  · cases h
    rintro ⟨r, h, -⟩
    cases h
  · cases h
    rintro ⟨r, h, -⟩
    cases h
  · rintro ⟨r, h, -⟩
    cases h

/-- C113 is false of the code for an operator made from a dictionary to which the program assigns later: it becomes
another operator, with the old attribute `order`. -/
theorem C113_alias_counterexample (x : V) (D : V → R → R) (f : R) (s : State V R) :
    ∃ p, mkPdop (s.act (.newDict [(x, 1)])) (.dict s.dicts.length) = .ok p ∧
      callPdop (s.act (.newDict [(x, 1)])) (basicDiff D) p f = D x f ∧
      callPdop ((s.act (.newDict [(x, 1)])).run [.pdop (.dict s.dicts.length), .assign s.dicts.length x 2])
        (basicDiff D) p f = D x (D x f) ∧ p.order = 1 := by
  refine ⟨_, rfl, ?_, ?_, ?_⟩
  · simp [callPdop, State.read, State.act, Pdop.call, basicDiff]
  · simp [callPdop, State.read, State.act, State.run, mkPdop, Pdop.call, basicDiff, Dict.set]
  · simp [State.read, State.act, Pdop.order]

/-- C113: `Sdop(x)` is the derivative by `x`. -/
theorem C113_sdop_symbol (s : State V R) (x : V) (D : V → R → R) (f : R) :
    ∃ t, (s.act (.sdop [.symbol x])).sdops = s.sdops ++ [t] ∧
      callSdop (s.act (.sdop [.symbol x])) D t f = some (D x f) := by
  refine ⟨[some (1, s.pdops.length)], rfl, ?_⟩
  simp [callSdop, callTerm, State.act, mkSdop, callPdop, State.read, Pdop.call, basicDiff]

/-- C113: `Sdop([(c1, p1), ...])`, with a list or a tuple, and `Sdop([c1, ...], [p1, ...])` are `c1*p1 + ...`. -/
theorem C113_sdop_terms (s : State V R) (l : List (R × ℕ)) (hl : ∀ c ∈ l, c.2 < s.pdops.length) (D : V → R → R) (f : R) :
    ∀ args, args = [.list (l.map fun c => .pair c.1 c.2)] ∨ args = [.tuple (l.map fun c => .pair c.1 c.2)] ∨
      args = [.list (l.map fun c => .coef c.1), .list (l.map fun c => .pdop c.2)] →
    ∃ t, (s.act (.sdop args)).sdops = s.sdops ++ [t] ∧ callSdop (s.act (.sdop args)) D t f =
      some (l.map fun c => c.1 * ((s.pdops[c.2]?).map fun p => callPdop s (basicDiff D) p f).getD 0).sum := by
  have key : ∀ l : List (R × ℕ), (∀ c ∈ l, c.2 < s.pdops.length) → (l.map some).mapM (callTerm s D f) =
      some (l.map fun c => c.1 * ((s.pdops[c.2]?).map fun p => callPdop s (basicDiff D) p f).getD 0) := by
    intro l
    induction l with
    | nil => exact fun _ => rfl
    | cons c l ih =>
      intro hc
      have h1 := hc c List.mem_cons_self
      rw [List.map_cons, List.mapM_cons, ih fun x hx => hc x (List.mem_cons_of_mem _ hx)]
      simp [callTerm, List.getElem?_eq_getElem h1]
  have e1 : (l.map fun c => Elem.pair c.1 c.2).map Elem.term = l.map some := by simp [Elem.term]
  have e2 : (l.map fun c => Elem.coef c.1).zipWith Elem.zip (l.map fun c => Elem.pdop c.2) = l.map some := by
    rw [List.zipWith_map, List.zipWith_self]
    rfl
  have e3 : ∀ args, mkSdop s args = .ok ([], l.map some) → ∃ t, (s.act (.sdop args)).sdops = s.sdops ++ [t] ∧
      callSdop (s.act (.sdop args)) D t f =
      some (l.map fun c => c.1 * ((s.pdops[c.2]?).map fun p => callPdop s (basicDiff D) p f).getD 0).sum := by
    intro args h
    refine ⟨l.map some, by rw [State.act, h], ?_⟩
    have h1 : ∀ t, callTerm (s.act (.sdop args)) D f t = callTerm s D f t := fun t => by
      simp [callTerm, State.act, h, callPdop, State.read]
    rw [callSdop, show callTerm (s.act (.sdop args)) D f = callTerm s D f from funext h1, key l hl]
    rfl
  rintro args (rfl | rfl | rfl)
  · exact e3 _ (by rw [mkSdop, e1])
  · exact e3 _ (by rw [mkSdop, e1])
  · exact e3 _ (by rw [mkSdop, if_pos (by simp), e2])

/-- C113: which arguments of `Sdop` are refused, and how. -/
theorem C113_sdop_errors (s : State V R) (args : List (SArg V R)) :
    (mkSdop s args = .error .valueError ↔ ∃ cs ps, args = [.list cs, .list ps] ∧ cs.length ≠ ps.length) ∧
    (mkSdop s args = .error .typeError ↔
      args.length ≠ 1 ∧ args.length ≠ 2 ∨ args = [.other] ∨ args.length = 2 ∧ ¬ ∃ cs ps, args = [.list cs, .list ps]) := by
  match args with
  | [] => simp [mkSdop]
  | [.symbol x] => simp [mkSdop]
  | [.list l] => simp [mkSdop]
  | [.tuple l] => simp [mkSdop]
  | [.other] => simp [mkSdop]
  | [.list cs, .list ps] =>
    rw [mkSdop]
    split_ifs with h <;> simp [h]
  | [.symbol x, b] => simp [mkSdop]
  | [.tuple l, b] => simp [mkSdop]
  | [.other, b] => simp [mkSdop]
  | [.list l, .symbol x] => simp [mkSdop]
  | [.list l, .tuple x] => simp [mkSdop]
  | [.list l, .other] => simp [mkSdop]
  | a :: b :: c :: r => simp [mkSdop]

/-- C113, histories of `Sdop`s: they stay what they are unless the program assigns to the dictionary of one of their
`Pdop`s. -/
theorem C113_sdop_stable_partial {s : State V R} {i : ℕ} {t : SObj R} (hi : s.sdops[i]? = some t) {l : List (Action V R)}
    (h : ∀ c ∈ t, ∀ c' ∈ c, ∃ p, s.pdops[c'.2]? = some p ∧ ¬ Exposed s p l) (D : V → R → R) (f : R) :
    (s.run l).sdops[i]? = some t ∧ callSdop (s.run l) D t f = callSdop s D t f := by
  constructor
  · obtain ⟨u, hu⟩ := run_sdops s l
    rw [hu, List.getElem?_append_left, hi]
    by_contra hn
    rw [List.getElem?_eq_none (not_lt.mp hn)] at hi
    cases hi
  · rw [callSdop, callSdop]
    congr 1
    have h1 : ∀ c ∈ t, callTerm (s.run l) D f c = callTerm s D f c := by
      intro c hc
      cases c with
      | none => rfl
      | some c =>
        obtain ⟨p, h1, h2⟩ := h _ hc c rfl
        obtain ⟨h3, h4⟩ := C113_stable_partial h1 h2 D f
        simp [callTerm, h1, h3, h4]
    clear hi h
    induction t with
    | nil => rfl
    | cons c t ih =>
      rw [List.mapM_cons, List.mapM_cons, h1 c List.mem_cons_self, ih fun c hc => h1 c (List.mem_cons_of_mem _ hc)]

/-- `d = {x: 1}; p = Pdop(d); q = p.diff(x)`: the second derivative, whatever is assigned afterwards. -/
example (D : ℕ → ℤ → ℤ) (f : ℤ) (l : List (Action ℕ ℤ)) (hD : ∀ x y f, D x (D y f) = D y (D x f)) :
    let s : State ℕ ℤ := ⟨[[(0, 1)]], [⟨.shared 0, 1⟩], []⟩
    callPdop (s.run l) (basicDiff D) (diffPdop s ⟨.shared 0, 1⟩ 0 1) f = D 0 (D 0 f) :=
  (C113_diff hD ⟨[[(0, 1)]], [⟨.shared 0, 1⟩], []⟩ _ (by simp [State.read]) 0 1 f l).1

/-- The hypotheses of `C113_stable_partial` are met by `p = Pdop(d)` and a history that assigns to another dictionary. -/
example (D : ℕ → ℤ → ℤ) (f : ℤ) :
    let s : State ℕ ℤ := ⟨[[(0, 1)], []], [⟨.shared 0, 1⟩], []⟩
    callPdop (s.run [.assign 1 0 5, .sdop [.symbol 3]]) (basicDiff D) ⟨.shared 0, 1⟩ f = D 0 f :=
  (C113_stable_partial (s := ⟨[[(0, 1)], []], [⟨.shared 0, 1⟩], []⟩) (i := 0) rfl (by
    rintro ⟨r, h, h' | h'⟩
    · cases h
      obtain ⟨x, n, h⟩ := h'
      simp at h
    · cases h
      simp at h') D f).2

end GA.DopHeap
