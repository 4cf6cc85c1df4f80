import Verif.Proofs.Session
import Verif.Spec.Witness

/-!
# C19, C46, C47: dual mode, algebra identity, `Cl(p, q, r)`

A history is an arbitrary list of calls (`Event`), each of which may return or raise.
-/

set_option linter.unusedSectionVars false
set_option maxRecDepth 10000

namespace GA

/-! ## C19 -/

/-- Specification: the call asks for this (documented) dual mode. -/
inductive Requests : Event → String → Prop
  | call {m} (h : m ∈ ["+I", "I+", "-I", "I-", "+Iinv", "Iinv+", "-Iinv", "Iinv-"]) : Requests (.dualMode m) m
  | cl {p q r b} (h : 0 < p + q + r) : Requests (.cl p q r b) "I+"
  | kingdon {p q r b} (h : 0 < p + q + r) : Requests (.kingdon p q r b) "Iinv+"

theorem build_mode (s : Session) (b : Build) : (s.build b).1.mode = s.mode := by
  cases b <;> rfl

theorem step_mode_of_requests (s : Session) {e : Event} {m : String} (h : Requests e m) :
    (s.step e).1.mode = m := by
  cases h with
  | call h => rw [Session.step, Session.dualMode, if_pos (show _ ∈ dualModeLst from h)]
  | cl h =>
    rw [Session.step, if_neg (by omega), build_mode, Session.dualMode, if_pos (by decide)]
  | kingdon h =>
    rw [Session.step, if_neg (by omega), build_mode, Session.dualMode, if_pos (by decide)]

theorem step_mode_of_not (s : Session) {e : Event} (h : ∀ m, ¬ Requests e m) :
    (s.step e).1.mode = s.mode := by
  cases e with
  | dualMode m =>
    rw [Session.step, Session.dualMode, if_neg]
    intro hm
    exact h m (.call hm)
  | ga b => exact build_mode s b
  | cl p q r b =>
    rw [Session.step, if_pos]
    by_contra h0
    exact h _ (.cl (by omega))
  | kingdon p q r b =>
    rw [Session.step, if_pos]
    by_contra h0
    exact h _ (.kingdon (by omega))

theorem run_mode_of_not (s : Session) {evs : List Event} (h : ∀ e ∈ evs, ∀ m, ¬ Requests e m) :
    (s.run evs).mode = s.mode := by
  induction evs generalizing s with
  | nil => rfl
  | cons e evs ih =>
    have := ih (s.step e).1 (fun e' he' => h e' (List.mem_cons_of_mem _ he'))
    rw [Session.run] at this ⊢
    rw [List.foldl_cons, this, step_mode_of_not s (h e (by simp))]

theorem run_append (s : Session) (a b : List Event) : s.run (a ++ b) = (s.run a).run b := by
  simp [Session.run, List.foldl_append]

/-- C19: after any history the active mode is the one requested by the last call that asks for a
documented mode. -/
theorem C19_last_request (before after : List Event) {e : Event} {m : String} (h : Requests e m)
    (hafter : ∀ e' ∈ after, ∀ m', ¬ Requests e' m') :
    (Session.init.run (before ++ e :: after)).mode = m := by
  rw [run_append, show e :: after = [e] ++ after from rfl, run_append, run_mode_of_not _ hafter]
  exact step_mode_of_requests _ h

/-- C19: without such a call it is the default `'I+'`. -/
theorem C19_default (evs : List Event) (h : ∀ e ∈ evs, ∀ m, ¬ Requests e m) :
    (Session.init.run evs).mode = "I+" :=
  run_mode_of_not _ h

/-- C19: after every history the active mode is one of the eight documented ones. -/
theorem C19_documented (evs : List Event) : (Session.init.run evs).mode ∈
    ["+I", "I+", "-I", "I-", "+Iinv", "Iinv+", "-Iinv", "Iinv-"] := by
  have key : ∀ (s : Session), s.mode ∈ dualModeLst → (s.run evs).mode ∈ dualModeLst := by
    induction evs with
    | nil => exact fun s h => h
    | cons e evs ih =>
      intro s hs
      refine ih (s.step e).1 ?_
      by_cases h : ∃ m, Requests e m
      · obtain ⟨m, hm⟩ := h
        rw [step_mode_of_requests s hm]
        cases hm with
        | call h => exact h
        | cl h => decide
        | kingdon h => decide
      · rw [step_mode_of_not s (fun m hm => h ⟨m, hm⟩)]
        exact hs
  exact key _ (by decide)

/-- C19: a call of `dual_mode` with anything else raises and changes nothing. -/
theorem C19_invalid (s : Session) {m : String}
    (h : m ∉ ["+I", "I+", "-I", "I-", "+Iinv", "Iinv+", "-Iinv", "Iinv-"]) :
    s.step (.dualMode m) = (s, false) := by
  rw [Session.step, Session.dualMode, if_neg (show _ ∉ dualModeLst from h)]

/-- C19: a valid call of `dual_mode` returns. -/
theorem C19_valid (s : Session) {m : String}
    (h : m ∈ ["+I", "I+", "-I", "I-", "+Iinv", "Iinv+", "-Iinv", "Iinv-"]) :
    s.step (.dualMode m) = ({ s with mode := m }, true) := by
  rw [Session.step, Session.dualMode, if_pos (show _ ∈ dualModeLst from h)]

/-- C19 fails for constructors that raise: the mode is not the one set by the last *successful*
call, because `Cl(p, q, r, ...)` sets the mode before it builds the algebra.  Here `Cl(3, 0, 1, bad=1)`
of kingdon raises, and the mode is nevertheless `'Iinv+'`. -/
theorem C19_failed_constructor_counterexample :
    ∃ s e, (Session.step s e).2 = false ∧ s.mode = "-I" ∧ (Session.step s e).1.mode = "Iinv+" :=
  ⟨Session.init.run [.dualMode "-I"], .kingdon 3 0 1 .early, by decide, by decide, by decide⟩

example : (Session.init.run [.dualMode "-I", .ga .ok, .kingdon 3 0 1 .ok, .dualMode "bad", .ga .late,
    .cl 0 0 0 .ok]).mode = "Iinv+" :=
  C19_last_request [.dualMode "-I", .ga .ok] [.dualMode "bad", .ga .late, .cl 0 0 0 .ok]
    (.kingdon (by decide)) (by
      intro e' he' m' h
      cases h <;> simp_all)

/-! ## C46 -/

theorem gaName_inj {i j : ℕ} (h : gaName i = gaName j) : i = j := by
  simp only [gaName, List.cons.injEq, true_and] at h
  exact strNat_inj h

/-- All names were made from smaller counters, and they are pairwise different. -/
def NamesOk (s : Session) : Prop := s.names.Nodup ∧ ∀ w ∈ s.names, ∃ i < s.count, w = gaName i

theorem build_namesOk {s : Session} (h : NamesOk s) (b : Build) : NamesOk (s.build b).1 := by
  obtain ⟨h1, h2⟩ := h
  cases b with
  | early => exact ⟨h1, h2⟩
  | late =>
    refine ⟨h1, fun w hw => ?_⟩
    obtain ⟨i, hi, e⟩ := h2 w hw
    exact ⟨i, Nat.lt_succ_of_lt hi, e⟩
  | ok =>
    refine ⟨?_, fun w hw => ?_⟩
    · show (s.names ++ [gaName s.count]).Nodup
      rw [List.nodup_append]
      refine ⟨h1, by simp, ?_⟩
      intro a ha b hb e
      rw [List.mem_singleton] at hb
      obtain ⟨i, hi, e'⟩ := h2 a ha
      have := gaName_inj (e'.symm.trans (e.trans hb))
      omega
    · replace hw : w ∈ s.names ++ [gaName s.count] := hw
      rw [List.mem_append, List.mem_singleton] at hw
      rcases hw with hw | hw
      · obtain ⟨i, hi, e⟩ := h2 w hw
        exact ⟨i, Nat.lt_succ_of_lt hi, e⟩
      · exact ⟨s.count, Nat.lt_succ_self _, hw⟩

theorem dualMode_namesOk {s : Session} (h : NamesOk s) (m : String) : NamesOk (s.dualMode m).1 := by
  rw [Session.dualMode]
  split_ifs
  · exact h
  · exact h

theorem run_namesOk (evs : List Event) {s : Session} (h : NamesOk s) : NamesOk (s.run evs) := by
  induction evs generalizing s with
  | nil => exact h
  | cons e evs ih =>
    refine ih (s := (s.step e).1) ?_
    cases e with
    | dualMode m => exact dualMode_namesOk h m
    | ga b => exact build_namesOk h b
    | cl p q r b =>
      rw [Session.step]
      split_ifs
      · exact h
      · exact build_namesOk (dualMode_namesOk h _) b
    | kingdon p q r b =>
      rw [Session.step]
      split_ifs
      · exact h
      · exact build_namesOk (dualMode_namesOk h _) b

/-- C46: the algebras created in one process have pairwise different names, and `==` holds exactly
between an algebra and itself: for the `i`-th and the `j`-th algebra returned in any history,
`ga_i == ga_j` if and only if `i = j`. -/
theorem C46_identity (evs : List Event) {i j : ℕ} {a b : List Char}
    (ha : (Session.init.run evs).names[i]? = some a) (hb : (Session.init.run evs).names[j]? = some b) :
    gaEq a b = true ↔ i = j := by
  have h := run_namesOk evs (s := Session.init) ⟨by decide, fun w hw => by simp [Session.init] at hw⟩
  rw [gaEq, decide_eq_true_eq]
  constructor
  · intro e
    obtain ⟨hi, rfl⟩ := List.getElem?_eq_some_iff.mp ha
    obtain ⟨hj, rfl⟩ := List.getElem?_eq_some_iff.mp hb
    exact (List.Nodup.getElem_inj_iff h.1).mp e
  · rintro rfl
    rw [ha] at hb
    exact Option.some.inj hb

/-- C46: a binary operation between multivectors of different algebras raises, and one between
multivectors of the same algebra returns the operation's value. -/
theorem C46_mixing {R : Type*} {n : ℕ} {β : Type*} (op : Mv R n → Mv R n → β) (evs : List Event)
    {i j : ℕ} {a b : List Char}
    (ha : (Session.init.run evs).names[i]? = some a) (hb : (Session.init.run evs).names[j]? = some b)
    (A B : Mv R n) :
    (i ≠ j → guarded op ⟨a, A⟩ ⟨b, B⟩ = none) ∧
    (i = j → guarded op ⟨a, A⟩ ⟨b, B⟩ = some (op A B)) := by
  have h := C46_identity evs ha hb
  refine ⟨fun hij => ?_, fun hij => ?_⟩
  · rw [guarded, if_neg]
    exact fun e => hij (h.mp e)
  · rw [guarded, if_pos (h.mpr hij)]

example : (Session.init.run [.ga .ok, .ga .late, .cl 3 0 0 .ok]).names = ["GA1".toList, "GA3".toList] := by
  decide

example : guarded (fun A B => A.mul Ex.gO B) ⟨"GA1".toList, Ex.A⟩ ⟨"GA3".toList, Ex.B⟩ = none :=
  (C46_mixing (i := 0) (j := 1) (fun A B => A.mul Ex.gO B) [.ga .ok, .ga .late, .cl 3 0 0 .ok]
    (by decide) (by decide) Ex.A Ex.B).1 (by decide)

/-! ## C47 -/

/-- Specification of the signature: `p` ones, then `q` minus ones, then `r` zeros. -/
def IsSignature (p q r : ℕ) (d : List ℤ) : Prop :=
  d.length = p + q + r ∧ (∀ i < p, d[i]? = some 1) ∧ (∀ i, p ≤ i → i < p + q → d[i]? = some (-1)) ∧
  (∀ i, p + q ≤ i → i < p + q + r → d[i]? = some 0)

theorem clMetric_signature (p q r : ℕ) : IsSignature p q r (clMetric p q r) := by
  refine ⟨by simp [clMetric]; omega, fun i hi => ?_, fun i h1 h2 => ?_, fun i h1 h2 => ?_⟩
  · rw [clMetric, List.append_assoc, List.getElem?_append_left (by simpa using hi)]
    simp [hi]
  · rw [clMetric, List.getElem?_append_left (by simpa using h2),
      List.getElem?_append_right (by simpa using h1)]
    simp [List.getElem?_replicate]; omega
  · rw [clMetric, List.getElem?_append_right (by simpa using h1)]
    simp [List.getElem?_replicate]; omega

theorem names_nodup (root : List Char) (k m : ℕ) :
    ((List.range m).map fun i => root ++ '_' :: strNat (i + k)).Nodup := by
  refine List.Nodup.map (fun i j h => ?_) List.nodup_range
  have := List.append_cancel_left h
  simp only [List.cons.injEq, true_and] at this
  have := strNat_inj this
  omega

/-- A root name without the characters that have a meaning in basis strings. -/
def PlainRoot (root : List Char) : Prop := '*' ∉ root ∧ '|' ∉ root ∧ ',' ∉ root ∧ ' ' ∉ root

theorem symbolsList_star {root : List Char} (hr : PlainRoot root) (k m : ℕ) (hm : 2 ≤ m) :
    symbolsList (root ++ '*' :: joinWith '|' ((List.range m).map fun i => strNat (i + k))) true =
      some ((List.range m).map fun i => root ++ '_' :: strNat (i + k)) := by
  set l := (List.range m).map fun i => strNat (i + k) with hl
  have hlen : 2 ≤ l.length := by simp [hl, hm]
  have hbar : '|' ∈ joinWith '|' l := sep_mem_joinWith hlen
  have hstar : '*' ∉ joinWith '|' l := by
    intro h
    rcases mem_joinWith h with h | ⟨w, hw, h⟩
    · exact absurd h (by decide)
    · rw [hl, List.mem_map] at hw
      obtain ⟨i, -, rfl⟩ := hw
      exact not_mem_strNat (by decide) _ h
  have hsplit : splitOn '|' (joinWith '|' l) = l := by
    refine splitOn_joinWith (by intro h; simp [h] at hlen) ?_
    intro w hw h
    rw [hl, List.mem_map] at hw
    obtain ⟨i, -, rfl⟩ := hw
    exact not_mem_strNat (by decide) _ h
  rw [symbolsList, if_pos (by simp), splitOn_append hr.1, splitOn_of_not_mem hstar]
  simp only [if_true]
  rw [if_pos (by simp [hbar]), hsplit, hl, List.map_map]
  simp [Function.comp_def]

theorem symbolsList_space {root : List Char} (hr : PlainRoot root) (k m : ℕ) (hm : 2 ≤ m) :
    symbolsList (joinWith ' ' ((List.range m).map fun i => root ++ '_' :: strNat (i + k))) true =
      some ((List.range m).map fun i => root ++ '_' :: strNat (i + k)) := by
  set l := (List.range m).map fun i => root ++ '_' :: strNat (i + k) with hl
  have hlen : 2 ≤ l.length := by simp [hl, hm]
  have hsp : ' ' ∈ joinWith ' ' l := sep_mem_joinWith hlen
  have hno : ∀ c : Char, c.isDigit = false → c ∉ root → c ≠ '_' → ∀ w ∈ l, c ∉ w := by
    intro c h1 h2 h3 w hw h
    rw [hl, List.mem_map] at hw
    obtain ⟨i, -, rfl⟩ := hw
    rw [List.mem_append, List.mem_cons] at h
    rcases h with h | h | h
    · exact h2 h
    · exact h3 h
    · exact not_mem_strNat h1 _ h
  have hno' : ∀ c : Char, c.isDigit = false → c ∉ root → c ≠ '_' → c ≠ ' ' → c ∉ joinWith ' ' l := by
    intro c h1 h2 h3 h4 h
    rcases mem_joinWith h with h | ⟨w, hw, h⟩
    · exact h4 h
    · exact hno c h1 h2 h3 w hw h
  have hsplit : splitOn ' ' (joinWith ' ' l) = l :=
    splitOn_joinWith (by intro h; simp [h] at hlen) (hno ' ' (by decide) hr.2.2.2 (by decide))
  rw [symbolsList, if_neg (hno' '*' (by decide) hr.1 (by decide) (by decide))]
  have hnil : joinWith ' ' l ≠ [] := by intro h; rw [h] at hsp; simp at hsp
  simp only [if_true, if_neg hnil, if_neg (hno' ',' (by decide) hr.2.2.1 (by decide) (by decide)),
    hsplit]

theorem buildDiagonal_star (root s : List Char) (d : List ℤ) :
    buildDiagonal (root ++ '*' :: s) d = (symbolsList (root ++ '*' :: s) true).map (⟨·, d⟩) := by
  rw [buildDiagonal, if_pos (by simp)]

theorem buildDiagonal_space {l : List (List Char)} (h : 2 ≤ l.length) (d : List ℤ) :
    buildDiagonal (joinWith ' ' l) d = (symbolsList (joinWith ' ' l) true).map (⟨·, d⟩) := by
  rw [buildDiagonal, if_pos (Or.inl (sep_mem_joinWith h))]

theorem cl_of_two_le {p q r : ℕ} {root : List Char} (hr : PlainRoot root) (h : 2 ≤ p + q + r) :
    cl p q r root =
      some ⟨(List.range (p + q + r)).map fun i => root ++ '_' :: strNat (i + 1), clMetric p q r⟩ := by
  rw [cl, if_neg (by omega), clBasis]
  split_ifs
  · rw [buildDiagonal_star, symbolsList_star hr 1 _ h]; rfl
  · rw [buildDiagonal_space (by simpa using h), symbolsList_space hr 1 _ h]; rfl

theorem kingdonCl_of_two_le {p q r : ℕ} {root : List Char} (hr : PlainRoot root) (h : 2 ≤ p + q + r) :
    kingdonCl p q r root =
      some ⟨(List.range (p + q + r)).map fun i => root ++ '_' :: strNat i, clMetric p q r⟩ := by
  rw [kingdonCl, if_neg (by omega), kingdonBasis]
  split_ifs
  · rw [buildDiagonal_star, show (fun i => strNat i) = fun i => strNat (i + 0) from rfl,
      symbolsList_star hr 0 _ h]; rfl
  · rw [buildDiagonal_space (by simpa using h)]
    exact congrArg (Option.map _) (symbolsList_space hr 0 _ h)

theorem symbolsList_star_one {root : List Char} (hr : PlainRoot root) (k : ℕ) :
    symbolsList (root ++ '*' :: strNat k) true =
      some ((List.range k).map fun i => root ++ '_' :: strNat i) := by
  rw [symbolsList, if_pos (by simp), splitOn_append hr.1,
    splitOn_of_not_mem (not_mem_strNat (by decide) k)]
  simp only [if_true]
  rw [if_neg, parseNat_strNat]
  · simp
  · rw [List.mem_append, List.mem_cons]
    rintro (h | h | h)
    · exact hr.2.1 h
    · exact absurd h (by decide)
    · exact not_mem_strNat (by decide) k h

theorem cl_of_one {p q r : ℕ} {root : List Char} (hr : PlainRoot root) (h : p + q + r = 1) :
    cl p q r root = some ⟨[root ++ '_' :: strNat 0], clMetric p q r⟩ := by
  rw [cl, if_neg (by omega), clBasis, if_pos (by omega), h]
  show buildDiagonal (root ++ '*' :: strNat 1) _ = _
  rw [buildDiagonal_star, symbolsList_star_one hr 1]
  rfl

/-- C47: `Cl(p, q, r)` raises exactly when `p+q+r = 0`; otherwise it yields `p+q+r` basis vectors with
distinct names and a diagonal metric with `p` ones, `q` minus ones and `r` zeros in this order.  From
two dimensions on the names are numbered from 1. -/
theorem C47_cl (p q r : ℕ) {root : List Char} (hr : PlainRoot root) :
    (cl p q r root = none ↔ p + q + r = 0) ∧
    ∀ alg, cl p q r root = some alg →
      alg.names.length = p + q + r ∧ alg.names.Nodup ∧ IsSignature p q r alg.diagonal ∧
      (2 ≤ p + q + r → alg.names = (List.range (p + q + r)).map fun i => root ++ '_' :: strNat (i + 1)) := by
  rcases Nat.lt_trichotomy (p + q + r) 1 with h | h | h
  · have e : cl p q r root = none := by rw [cl, if_pos (by omega)]
    exact ⟨⟨fun _ => by omega, fun _ => e⟩, fun alg ha => by rw [e] at ha; cases ha⟩
  · have e := cl_of_one hr h
    refine ⟨⟨fun h' => (by rw [e] at h'; cases h'), fun h' => by omega⟩, fun alg ha => ?_⟩
    rw [e] at ha
    have ha := Option.some.inj ha; subst ha
    exact ⟨by simp [h], by simp, clMetric_signature p q r, fun h2 => by omega⟩
  · have e := cl_of_two_le hr (p := p) (q := q) (r := r) (by omega)
    refine ⟨⟨fun h' => (by rw [e] at h'; cases h'), fun h' => by omega⟩, fun alg ha => ?_⟩
    rw [e] at ha
    have ha := Option.some.inj ha; subst ha
    exact ⟨by simp, names_nodup root 1 _, clMetric_signature p q r, fun _ => rfl⟩

/-- C47 for `galgebra.interop.kingdon.Cl`, numbered from 0.  Missing: `p+q+r = 1`, where the claim is
false (`C47_kingdon_counterexample`). -/
theorem C47_kingdon_partial (p q r : ℕ) {root : List Char} (hr : PlainRoot root) (h1 : p + q + r ≠ 1) :
    (kingdonCl p q r root = none ↔ p + q + r = 0) ∧
    ∀ alg, kingdonCl p q r root = some alg →
      alg.names.length = p + q + r ∧ alg.names.Nodup ∧ IsSignature p q r alg.diagonal ∧
      alg.names = (List.range (p + q + r)).map fun i => root ++ '_' :: strNat i := by
  by_cases h : p + q + r = 0
  · have e : kingdonCl p q r root = none := by rw [kingdonCl, if_pos (by omega)]
    exact ⟨⟨fun _ => by omega, fun _ => e⟩, fun alg ha => by rw [e] at ha; cases ha⟩
  · have e := kingdonCl_of_two_le hr (p := p) (q := q) (r := r) (by omega)
    refine ⟨⟨fun h' => (by rw [e] at h'; cases h'), fun h' => by omega⟩, fun alg ha => ?_⟩
    rw [e] at ha
    have ha := Option.some.inj ha; subst ha
    exact ⟨by simp, names_nodup root 0 _, clMetric_signature p q r, rfl⟩

/-- C47 fails for `galgebra.interop.kingdon.Cl` in one dimension: the basis string is `'e*0'`, which
`symbols_list` reads as "zero vectors", so the algebra has no basis vector at all. -/
theorem C47_kingdon_counterexample {root : List Char} (hr : PlainRoot root) {p q r : ℕ}
    (h : p + q + r = 1) : kingdonCl p q r root = some ⟨[], clMetric p q r⟩ := by
  rw [kingdonCl, if_neg (by omega), kingdonBasis, if_pos (by omega), h]
  show buildDiagonal (root ++ '*' :: strNat 0) _ = _
  rw [buildDiagonal_star, symbolsList_star_one hr 0]
  rfl

/-- C47: the documented numbering from 1 fails for `galgebra.interop.Cl` in one dimension: `'e*1'` is
read as "one vector, numbered from 0". -/
theorem C47_numbering_counterexample :
    cl 1 0 0 ['e'] = some ⟨[['e', '_', '0']], [1]⟩ := by decide

example : PlainRoot ['e'] := by unfold PlainRoot; decide
example : cl 1 1 1 ['e'] = some ⟨[['e', '_', '1'], ['e', '_', '2'], ['e', '_', '3']], [1, -1, 0]⟩ := by
  decide
example : (cl 12 0 0 ['e']).map (fun a => a.names.length) = some 12 := by decide +kernel

end GA
