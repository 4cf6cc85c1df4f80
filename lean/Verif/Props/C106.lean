import Verif.Model.Deprecated
import Verif.Props.C19
import Verif.Props.C56

/-!
# C106: the class `MV` of `galgebra.deprecated`

`MV.setup` makes the algebra that all later multivectors `MV(...)` belong to.
-/

set_option maxRecDepth 10000

namespace GA
variable {α : Type*}

/-! ### Specification -/

/-- The values returned by the calls of `MV.setup`, in order. -/
def returns (s : MvClass) : List (MvEvent α) → List MvReturn
  | [] => []
  | e :: evs => (s.step e).2.toList ++ returns (s.step e).1 evs

/-- Python `str(k)` of an integer. -/
def strInt : ℤ → List Char
  | .ofNat k => strNat k
  | .negSucc k => '-' :: strNat (k + 1)

/-- An integer written with `a` blanks before and `b` blanks after it. -/
def padded (x : ℕ × ℤ × ℕ) : List Char :=
  List.replicate x.1 ' ' ++ strInt x.2.1 ++ List.replicate x.2.2 ' '

/-! ### Metrics -/

theorem strInt_ends (k : ℤ) : (strInt k).head? ≠ some ' ' ∧ (strInt k).getLast? ≠ some ' ' ∧ ',' ∉ strInt k := by
  have h1 : ∀ m : ℕ, ' ' ∉ strNat m := fun m => not_mem_strNat (by decide) m
  have h2 : ∀ m : ℕ, ',' ∉ strNat m := fun m => not_mem_strNat (by decide) m
  cases k with
  | ofNat m =>
    exact ⟨fun h => h1 m (List.mem_of_mem_head? h), fun h => h1 m (List.mem_of_mem_getLast? h), h2 m⟩
  | negSucc m =>
    refine ⟨by simp [strInt], fun h => ?_, ?_⟩
    · have := List.mem_of_mem_getLast? h
      rw [strInt, List.mem_cons] at this
      exact this.elim (by decide) (h1 _)
    · rw [strInt, List.mem_cons, not_or]
      exact ⟨by decide, h2 _⟩

theorem pyInt_padded (x : ℕ × ℤ × ℕ) : pyInt (padded x) = some x.2.1 := by
  obtain ⟨h1, h2, -⟩ := strInt_ends x.2.1
  rw [pyInt, padded, strip_pad h1 h2]
  obtain ⟨a, k, b⟩ := x
  cases k with
  | ofNat m =>
    have hn := strNat_ne_nil m
    have hd : ∀ c ∈ strNat m, c.isDigit = true := fun c => isDigit_strNat
    have hp := parseNat_strNat m
    simp only [strInt]
    generalize strNat m = w at hn hd hp
    split
    · exact absurd (hd '-' (by simp)) (by decide)
    · exact absurd (hd '+' (by simp)) (by decide)
    · rw [hp]; rfl
  | negSucc m =>
    simp only [strInt]
    rw [parseNat_strNat]
    rfl

/-- C106: a metric given as the text of a list of integers, with any blanks, is the list of these integers. -/
theorem C106_metric {l : List (ℕ × ℤ × ℕ)} (hl : l ≠ []) :
    (convertMetric ('[' :: joinWith ',' (l.map padded) ++ [']']) : Option (MetricVal α)) =
      some (.ints (l.map fun x => x.2.1)) := by
  have hc : ∀ w ∈ l.map padded, ',' ∉ w := by
    intro w hw
    obtain ⟨x, -, rfl⟩ := List.mem_map.mp hw
    have h := (strInt_ends x.2.1).2.2
    simp [padded, h]
  rw [List.cons_append, convertMetric, if_pos ⟨rfl, by rw [← List.cons_append, List.getLast?_concat]⟩, List.drop_one, List.tail_cons, List.dropLast_concat,
    splitOn_joinWith (by simpa using hl) hc]
  have : (l.map padded).mapM pyInt = some (l.map fun x => x.2.1) := by
    clear hl hc
    induction l with
    | nil => rfl
    | cons x l ih => simp [pyInt_padded, ih]
  rw [this]
  rfl

/-- C106: other texts are passed on to `Ga` as they are. -/
theorem C106_metric_text {s : List Char} (h0 : s ≠ []) (h : s.head? ≠ some '[' ∨ s.getLast? ≠ some ']') :
    (convertMetric s : Option (MetricVal α)) = some (.text s) := by
  cases s with
  | nil => exact absurd rfl h0
  | cons c s =>
    rw [convertMetric, if_neg]
    rintro ⟨rfl, h2⟩
    rcases h with h | h
    · exact h rfl
    · exact h h2

/-- C106, errors: the empty text and the empty list raise. -/
theorem C106_metric_counterexample : (convertMetric [] : Option (MetricVal α)) = none ∧
    (convertMetric "[]".toList : Option (MetricVal α)) = none ∧
    (convertMetric "[1/2]".toList : Option (MetricVal α)) = none := ⟨rfl, rfl, rfl⟩

/-! ### The algebra of the class -/

/-- The calls as they act on the names of algebras. -/
def MvEvent.toEvent : MvEvent α → Event
  | .other e => e
  | .setup a => .ga (if a.gArg.isSome then a.build else .early)

theorem step_session (s : MvClass) (e : MvEvent α) : (s.step e).1.session = (s.session.step e.toEvent).1 := by
  cases e with
  | other e => rfl
  | setup a =>
    rw [MvClass.step, MvEvent.toEvent, Session.step]
    cases a.gArg with
    | none => rfl
    | some m =>
      simp only [Option.isSome_some, if_true]
      split_ifs <;> rfl

theorem run_session (s : MvClass) (evs : List (MvEvent α)) :
    (s.run evs).session = s.session.run (evs.map MvEvent.toEvent) := by
  induction evs generalizing s with
  | nil => rfl
  | cons e evs ih =>
    have := ih (s.step e).1
    rw [step_session] at this
    exact this

theorem mvRun_append (s : MvClass) (h t : List (MvEvent α)) : s.run (h ++ t) = (s.run h).run t :=
  List.foldl_append ..

theorem returns_append (s : MvClass) (h t : List (MvEvent α)) :
    returns s (h ++ t) = returns s h ++ returns (s.run h) t := by
  induction h generalizing s with
  | nil => rfl
  | cons e h ih =>
    rw [List.cons_append, returns, returns, ih, List.append_assoc]
    rfl

/-- One call and the class attributes. -/
theorem step_spec (s : MvClass) (e : MvEvent α) :
    ((s.step e).2 = none ∧ (s.step e).1.ga = s.ga ∧ (s.step e).1.i = s.i ∧ (s.step e).1.metric = s.metric ∧
      (s.step e).1.grad = s.grad) ∨
    ∃ r, (s.step e).2 = some r ∧ (s.step e).1.ga = some r.basis ∧ (s.step e).1.i = some r.basis ∧
      (s.step e).1.metric = some r.basis ∧ (∀ x, r.grad = some x → x = r.basis) ∧
      (s.step e).1.grad = (r.grad <|> s.grad) ∧ (s.step e).1.session.names = s.session.names ++ [r.basis] := by
  cases e with
  | other e => exact .inl ⟨rfl, rfl, rfl, rfl, rfl⟩
  | setup a =>
    cases hg : a.gArg with
    | none => left; simp [MvClass.step, hg]
    | some m =>
      cases hb : a.build with
      | early => left; simp [MvClass.step, hg, hb, Session.build]
      | late => left; simp [MvClass.step, hg, hb, Session.build]
      | ok =>
        right
        refine ⟨⟨gaName s.session.count, if a.coords then some (gaName s.session.count) else none⟩, ?_⟩
        cases hc : a.coords <;> simp [MvClass.step, hg, hb, hc, Session.build]

/-- C106: after every history of calls, a new multivector belongs to the algebra of the last `MV.setup` that
returned, and without one its construction raises; calls that raise change nothing. -/
theorem C106_algebra (evs : List (MvEvent α)) :
    (MvClass.init.run evs).newMv = (returns MvClass.init evs).getLast?.map MvReturn.basis := by
  induction evs using List.reverseRecOn with
  | nil => rfl
  | append_singleton evs e ih =>
    rw [mvRun_append, returns_append, MvClass.newMv]
    change ((MvClass.init.run evs).step e).1.ga = _
    simp only [returns, List.append_nil]
    rcases step_spec (MvClass.init.run evs) e with ⟨h1, h2, -⟩ | ⟨r, h1, h2, -⟩
    · rw [h1, h2, Option.toList_none, List.append_nil]; exact ih
    · rw [h1, h2]; simp

/-- C106: `MV.I` and `MV.metric` always belong to the algebra of new multivectors. -/
theorem C106_attributes (evs : List (MvEvent α)) :
    (MvClass.init.run evs).i = (MvClass.init.run evs).newMv ∧
    (MvClass.init.run evs).metric = (MvClass.init.run evs).newMv := by
  induction evs using List.reverseRecOn with
  | nil => exact ⟨rfl, rfl⟩
  | append_singleton evs e ih =>
    rw [mvRun_append, MvClass.newMv]
    change ((MvClass.init.run evs).step e).1.i = ((MvClass.init.run evs).step e).1.ga ∧
      ((MvClass.init.run evs).step e).1.metric = ((MvClass.init.run evs).step e).1.ga
    rcases step_spec (MvClass.init.run evs) e with ⟨-, h2, h3, h4, -⟩ | ⟨r, -, h2, h3, h4, -⟩
    · rw [h2, h3, h4]; exact ih
    · rw [h2, h3, h4]; exact ⟨rfl, rfl⟩

/-- C106: the gradient in the list that `MV.setup` returns belongs to the same algebra as the vectors. -/
theorem C106_returned (evs : List (MvEvent α)) {r : MvReturn} (hr : r ∈ returns MvClass.init evs) {x : List Char}
    (hx : r.grad = some x) : x = r.basis := by
  generalize MvClass.init = s at hr
  induction evs generalizing s with
  | nil => simp [returns] at hr
  | cons e evs ih =>
    rw [returns, List.mem_append] at hr
    rcases hr with hr | hr
    · rcases step_spec s e with ⟨h1, -⟩ | ⟨r', h1, -, -, -, h5, -⟩
      · simp [h1] at hr
      · rw [h1, Option.mem_toList] at hr
        obtain rfl := Option.some.inj hr
        exact h5 x hx
    · exact ih _ hr

/-- C106, the attribute `MV.grad`: it belongs to the last `MV.setup` that had coordinates.  The claim that it
belongs to the algebra of new multivectors holds if all calls have coordinates. -/
theorem C106_grad_partial (evs : List (MvEvent α)) :
    (MvClass.init.run evs).grad = ((returns MvClass.init evs).filterMap MvReturn.grad).getLast? ∧
    ((∀ r ∈ returns MvClass.init evs, r.grad ≠ none) →
      (MvClass.init.run evs).grad = (MvClass.init.run evs).newMv) := by
  have key : (MvClass.init.run evs).grad = ((returns MvClass.init evs).filterMap MvReturn.grad).getLast? := by
    induction evs using List.reverseRecOn with
    | nil => rfl
    | append_singleton evs e ih =>
      rw [mvRun_append, returns_append]
      change ((MvClass.init.run evs).step e).1.grad = _
      simp only [returns, List.append_nil, List.filterMap_append]
      rcases step_spec (MvClass.init.run evs) e with ⟨h1, -, -, -, h2⟩ | ⟨r, h1, -, -, -, -, h2, -⟩
      · rw [h1, h2, Option.toList_none, List.filterMap_nil, List.append_nil]; exact ih
      · rw [h1, h2, ih]
        cases hg : r.grad <;> simp [hg]
  refine ⟨key, fun h => ?_⟩
  rw [key, C106_algebra]
  have e : (returns MvClass.init evs).filterMap MvReturn.grad = (returns MvClass.init evs).map MvReturn.basis := by
    rw [← List.filterMap_eq_map]
    refine List.filterMap_congr fun r hr => ?_
    obtain ⟨x, hx⟩ := Option.ne_none_iff_exists'.mp (h r hr)
    rw [hx, C106_returned evs hr hx]
    rfl
  rw [e, List.getLast?_map]

/-- C106, multivectors made at different times: what is made before and after some calls can be combined exactly
if no `MV.setup` among these calls returned. -/
theorem C106_mixing {R : Type*} {n : ℕ} {β : Type*} (op : Mv R n → Mv R n → β) (h t : List (MvEvent α))
    {a b : List Char} (ha : (MvClass.init.run h).newMv = some a) (hb : (MvClass.init.run (h ++ t)).newMv = some b)
    (A B : Mv R n) :
    (guarded op ⟨a, A⟩ ⟨b, B⟩ = none ↔ returns (MvClass.init.run h) t ≠ []) ∧
    (guarded op ⟨a, A⟩ ⟨b, B⟩ = some (op A B) ↔ returns (MvClass.init.run h) t = []) := by
  -- names of algebras only grow
  have hgrow : ∀ (s : Session) (ev : Event), ∃ L, (s.step ev).1.names = s.names ++ L := by
    have hbuild : ∀ (s : Session) b, ∃ L, (s.build b).1.names = s.names ++ L := by
      intro s b
      cases b
      · exact ⟨[], (List.append_nil _).symm⟩
      · exact ⟨[], (List.append_nil _).symm⟩
      · exact ⟨_, rfl⟩
    have hdual : ∀ (s : Session) m, (s.dualMode m).1.names = s.names := by
      intro s m
      rw [Session.dualMode]
      split_ifs <;> rfl
    intro s ev
    cases ev with
    | dualMode m => exact ⟨[], by rw [List.append_nil]; exact hdual s m⟩
    | ga b => exact hbuild s b
    | cl p q r b =>
      rw [Session.step]
      split_ifs
      · exact ⟨[], (List.append_nil _).symm⟩
      · exact hdual s "I+" ▸ hbuild _ b
    | kingdon p q r b =>
      rw [Session.step]
      split_ifs
      · exact ⟨[], (List.append_nil _).symm⟩
      · exact hdual s "Iinv+" ▸ hbuild _ b
  have key : ∀ (s : MvClass) (t : List (MvEvent α)), ∃ L, (s.run t).session.names = s.session.names ++ L ∧
      (returns s t = [] → (s.run t).ga = s.ga) ∧
      (returns s t ≠ [] → ∃ x ∈ L, (s.run t).ga = some x) := by
    intro s t
    induction t using List.reverseRecOn with
    | nil => exact ⟨[], (List.append_nil _).symm, fun _ => rfl, fun h => absurd rfl h⟩
    | append_singleton t e ih =>
      obtain ⟨L, h1, h2, h3⟩ := ih
      rw [mvRun_append, returns_append]
      simp only [returns, List.append_nil]
      rcases step_spec (s.run t) e with ⟨hr, hga, -⟩ | ⟨r, hr, hga, -, -, -, -, hn⟩
      · obtain ⟨L', hL'⟩ := hgrow (s.run t).session e.toEvent
        refine ⟨L ++ L', ?_, ?_, ?_⟩
        · change ((s.run t).step e).1.session.names = _
          rw [step_session, hL', h1, List.append_assoc]
        · rw [hr, Option.toList_none, List.append_nil]
          intro h
          exact hga.trans (h2 h)
        · rw [hr, Option.toList_none, List.append_nil]
          intro h
          obtain ⟨x, hx, hx'⟩ := h3 h
          exact ⟨x, List.mem_append_left _ hx, hga.trans hx'⟩
      · refine ⟨L ++ [r.basis], ?_, ?_, fun _ => ⟨r.basis, by simp, hga⟩⟩
        · change ((s.run t).step e).1.session.names = _
          rw [hn, h1, List.append_assoc]
        · rw [hr]
          simp
  obtain ⟨L0, e1, e2, e3⟩ := key MvClass.init h
  obtain ⟨L, f1, f2, f3⟩ := key (MvClass.init.run h) t
  rw [mvRun_append] at hb
  rw [MvClass.newMv] at ha hb
  have hnodup : ((MvClass.init.run (h ++ t)).session.names).Nodup := by
    rw [run_session]
    exact (run_namesOk _ (s := Session.init) ⟨by decide, fun w hw => by simp [Session.init] at hw⟩).1
  rw [mvRun_append, f1] at hnodup
  have hmem : a ∈ (MvClass.init.run h).session.names := by
    rw [e1]
    by_cases hr : returns MvClass.init h = []
    · rw [e2 hr] at ha; cases ha
    · obtain ⟨x, hx, hx'⟩ := e3 hr
      rw [ha] at hx'
      obtain rfl := Option.some.inj hx'
      exact List.mem_append_right _ hx
  by_cases hr : returns (MvClass.init.run h) t = []
  · have : a = b := by
      rw [f2 hr, ha] at hb
      exact Option.some.inj hb
    subst this
    simp [guarded, gaEq, hr]
  · obtain ⟨x, hx, hx'⟩ := f3 hr
    rw [hb] at hx'
    obtain rfl := Option.some.inj hx'
    have hab : a ≠ b := fun hab => (List.disjoint_of_nodup_append hnodup) hmem (hab ▸ hx)
    simp [guarded, gaEq, hr, hab]

/-! ### Other arguments of `setup` -/

/-- C106: without `curv` the given metric is the metric of the algebra. -/
theorem C106_setup_metric (a : MvSetup α) (h : a.curv = (false, false)) (hm : ∀ s, a.metric ≠ .text s) :
    a.gArg = some a.metric := by
  obtain ⟨m, c, v, b⟩ := a
  cases m with
  | text s => exact absurd rfl (hm s)
  | none => simp [MvSetup.gArg] at h ⊢
  | ints l => simp [MvSetup.gArg] at h ⊢; simp [h]
  | obj x => simp [MvSetup.gArg] at h ⊢; simp [h]

/-- C106: with a second element of `curv` alone the metric that was given is dropped. -/
theorem C106_curv_counterexample (l : List ℤ) (c : Bool) (b : Build) :
    (⟨.ints l, c, (false, true), b⟩ : MvSetup α).gArg = some .none := rfl

/-- C106: a `setup` without coordinates after one with coordinates: `MV.grad` is the gradient of the first
algebra, and multiplying it with a new multivector raises. -/
theorem C106_grad_counterexample : ∃ evs : List (MvEvent ℕ),
    (MvClass.init.run evs).grad = some "GA1".toList ∧ (MvClass.init.run evs).newMv = some "GA2".toList ∧
    guarded (fun A B => A.mul Ex.gO B) ⟨"GA1".toList, Ex.A⟩ ⟨"GA2".toList, Ex.B⟩ = none :=
  ⟨[.setup ⟨.ints [1, 1, 1], true, (false, false), .ok⟩, .setup ⟨.ints [1, 1, 1], false, (false, false), .ok⟩],
    by decide, by decide, rfl⟩

/-- A history with a failing call between two that return, and another algebra. -/
example : returns MvClass.init [MvEvent.setup (α := ℕ) ⟨.text "[1, -1]".toList, true, (false, false), .ok⟩,
      .setup ⟨.text "[x]".toList, false, (false, false), .ok⟩, .other (.cl 3 0 0 .ok),
      .setup ⟨.text "1 0, 0 1".toList, false, (false, false), .ok⟩] =
    [⟨"GA1".toList, some "GA1".toList⟩, ⟨"GA3".toList, none⟩] := by decide

example : (convertMetric "[1, -1,  0 ]".toList : Option (MetricVal ℕ)) = some (.ints [1, -1, 0]) := by
  rw [show "[1, -1,  0 ]".toList = '[' :: joinWith ',' (([(0, 1, 0), (1, -1, 0), (2, 0, 1)] :
    List (ℕ × ℤ × ℕ)).map padded) ++ [']'] by decide]
  exact C106_metric (by simp)

end GA
