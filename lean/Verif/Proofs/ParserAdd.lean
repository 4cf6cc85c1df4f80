import Verif.Proofs.ParserExpr

/-!
# `_add_paren` and `parse_line` on expressions
-/

namespace GA.Parser

/-! ### Tokens and the groups they stand for -/

/-- A symbol of the line in which the groups are tokens, and the item it stands for. -/
def Match (c : ℕ) (f : Tk → Line) (t : Tk) : It → Prop
  | .tk s => t = s ∧ ¬ IsC c t
  | .grp l => IsC c t ∧ f t = gtext l

theorem match_lines {c : ℕ} {f : Tk → Line} (hother : ∀ t, ¬ IsC c t → f t = [t]) :
    ∀ (m : Line) (T : List It), (∀ t ∈ m, isParen t = false) →
      (∀ t ∈ m, IsC c t → ∃ l, Good l ∧ f t = gtext l) → Good T → m.flatMap f = renders T →
      List.Forall₂ (Match c f) m T := by
  intro m
  induction m with
  | nil =>
    intro T _ _ _ h
    rcases T with _ | ⟨t | l, T⟩
    · exact .nil
    · simp at h
    · simp at h
  | cons t m ih =>
    intro T hp hm hT h
    rw [List.flatMap_cons] at h
    by_cases hc : IsC c t
    · obtain ⟨l, hl, hft⟩ := hm t (by simp) hc
      rw [hft] at h
      rcases T with _ | ⟨s | l', T⟩
      · simp [gtext_eq] at h
      · rw [good_tk] at hT
        rw [gtext_eq, renders_tk, List.cons_append] at h
        exact absurd (List.cons.inj h).1.symm (not_open hT.1)
      · rw [good_grp] at hT
        have h' : renders l ++ .ch ')' :: m.flatMap f = renders l' ++ .ch ')' :: renders T := by
          rw [gtext_eq, renders_grp] at h
          simpa using h
        obtain ⟨rfl, h2⟩ := renders_inj l l' hl hT.1 _ _ h'
        exact .cons ⟨hc, hft⟩ (ih T (fun t ht => hp t (by simp [ht])) (fun t ht => hm t (by simp [ht])) hT.2 h2)
    · rw [hother t hc] at h
      rcases T with _ | ⟨s | l', T⟩
      · simp at h
      · rw [good_tk] at hT
        rw [renders_tk] at h
        obtain ⟨rfl, h2⟩ := List.cons.inj h
        exact .cons ⟨rfl, hc⟩ (ih T (fun t ht => hp t (by simp [ht])) (fun t ht => hm t (by simp [ht])) hT.2 h2)
      · rw [renders_grp] at h
        exact absurd (List.cons.inj h).1 (not_open (hp t (by simp)))

theorem forall₂_append_right' {α β : Type*} {R : α → β → Prop} : ∀ (X Y : List β) (m : List α),
    List.Forall₂ R m (X ++ Y) → ∃ a b, m = a ++ b ∧ List.Forall₂ R a X ∧ List.Forall₂ R b Y := by
  intro X
  induction X with
  | nil => exact fun Y m h => ⟨[], m, rfl, .nil, h⟩
  | cons x X ih =>
    intro Y m h
    rw [List.cons_append] at h
    cases h with
    | @cons y _ m' _ h1 h2 =>
      obtain ⟨a, b, rfl, h3, h4⟩ := ih Y m' h2
      exact ⟨y :: a, b, rfl, .cons h1 h3, h4⟩

theorem match_render {c : ℕ} {f : Tk → Line} (hother : ∀ t, ¬ IsC c t → f t = [t]) {m : Line}
    {T : List It} (h : List.Forall₂ (Match c f) m T) : m.flatMap f = renders T := by
  induction h with
  | nil => simp
  | @cons t x m T h1 _ ih =>
    rw [List.flatMap_cons, ih]
    cases x with
    | tk s =>
      obtain ⟨rfl, hc⟩ := h1
      rw [hother _ hc]
      simp
    | grp l => rw [h1.2, renders_grp']

theorem match_opd {c : ℕ} {f : Tk → Line} {m : Line} {X : List It} (h : List.Forall₂ (Match c f) m X)
    (hX : SE.OpdIt X) : OpdLine m := by
  refine ⟨?_, fun t ht => ?_⟩
  · rintro rfl
    cases h
    exact hX.1 rfl
  · obtain ⟨i, hi, rfl⟩ := List.getElem_of_mem ht
    have hi' : i < X.length := by rw [← h.length_eq]; exact hi
    have := List.Forall₂.get h hi hi'
    rw [List.get_eq_getElem, List.get_eq_getElem] at this
    cases hx : X[i] with
    | tk s =>
      rw [hx] at this
      rw [this.1]
      exact hX.2 _ (List.getElem_mem hi') s hx
    | grp l =>
      rw [hx] at this
      cases hm : m[i] with
      | ch x => rw [hm] at this; exact this.1.elim
      | tok a b d => rfl

/-- The operands and operators of the line with tokens. -/
theorem match_alt {c : ℕ} {f : Tk → Line} : ∀ (r : List (Char × List It)) (m : Line),
    List.Forall₂ (Match c f) m (flat SE.sepIt r) →
    ∃ r' : List (Char × Line), m = flat Tk.ch r' ∧
      List.Forall₂ (fun p q => p.1 = q.1 ∧ List.Forall₂ (Match c f) p.2 q.2) r' r := by
  intro r
  induction r with
  | nil =>
    intro m h
    cases h
    exact ⟨[], rfl, .nil⟩
  | cons p r ih =>
    intro m h
    have e : flat SE.sepIt (p :: r) = SE.sepIt p.1 :: (p.2 ++ flat SE.sepIt r) := by simp [flat]
    rw [e] at h
    cases h with
    | @cons t _ m' _ h1 h2 =>
      obtain ⟨a, b, rfl, h3, h4⟩ := forall₂_append_right' _ _ _ h2
      obtain ⟨r', rfl, h5⟩ := ih b h4
      refine ⟨(p.1, a) :: r', ?_, .cons ⟨rfl, h3⟩ h5⟩
      rw [h1.1]
      simp [flat]

theorem takeWhile_rel {β γ : Type*} {Q : Char → Bool} {R : β → γ → Prop} {r' : List (Char × β)}
    {r : List (Char × γ)} (h : List.Forall₂ (fun p q => p.1 = q.1 ∧ R p.2 q.2) r' r) :
    List.Forall₂ (fun p q => p.1 = q.1 ∧ R p.2 q.2) (r'.takeWhile fun p => Q p.1)
      (r.takeWhile fun p => Q p.1) ∧
    List.Forall₂ (fun p q => p.1 = q.1 ∧ R p.2 q.2) (r'.dropWhile fun p => Q p.1)
      (r.dropWhile fun p => Q p.1) := by
  induction h with
  | nil => exact ⟨.nil, .nil⟩
  | @cons p q r' r h1 h2 ih =>
    simp only [List.takeWhile_cons, List.dropWhile_cons, h1.1]
    split_ifs
    · exact ⟨.cons h1 ih.1, ih.2⟩
    · exact ⟨.nil, .cons h1 h2⟩

theorem flat_render {c : ℕ} {f : Tk → Line} (hother : ∀ t, ¬ IsC c t → f t = [t])
    {r' : List (Char × Line)} {r : List (Char × List It)}
    (h : List.Forall₂ (fun p q => p.1 = q.1 ∧ List.Forall₂ (Match c f) p.2 q.2) r' r) :
    (flat Tk.ch r').flatMap f = renders (flat SE.sepIt r) := by
  induction h with
  | nil => simp [flat]
  | @cons p q r' r h1 _ ih =>
    have e1 : flat Tk.ch (p :: r') = .ch p.1 :: (p.2 ++ flat Tk.ch r') := by simp [flat]
    have e2 : flat SE.sepIt (q :: r) = SE.sepIt q.1 :: (q.2 ++ flat SE.sepIt r) := by simp [flat]
    rw [e1, e2, List.flatMap_cons, List.flatMap_append, ih, match_render hother h1.2,
      hother (.ch p.1) (by simp [IsC]), SE.sepIt, renders_tk, renders_append, h1.1]
    rfl

/-- Grouping the line with tokens is grouping the items. -/
theorem runs_render {c : ℕ} {f : Tk → Line} (hother : ∀ t, ¬ IsC c t → f t = [t]) (Q : Char → Bool) :
    ∀ (n : ℕ) (x : Line) (X : List It) (r' : List (Char × Line)) (r : List (Char × List It)),
    r'.length ≤ n → List.Forall₂ (Match c f) x X →
    List.Forall₂ (fun p q => p.1 = q.1 ∧ List.Forall₂ (Match c f) p.2 q.2) r' r →
    (runs Tk.ch Q wrapLine x r').flatMap f = renders (runs SE.sepIt Q (fun l => [.grp l]) X r) := by
  have hch : ∀ x, f (.ch x) = [.ch x] := fun x => hother _ (by simp [IsC])
  intro n
  induction n with
  | zero =>
    intro x X r' r hn hx hr
    obtain rfl := List.length_eq_zero_iff.mp (by omega : r'.length = 0)
    cases hr
    rw [runs_nil, runs_nil, match_render hother hx]
  | succ n ih =>
    intro x X r' r hn hx hr
    rw [runs_eq, runs_eq, List.flatMap_append, renders_append]
    obtain ⟨h1, h2⟩ := takeWhile_rel (Q := Q) hr
    congr 1
    · generalize (r'.takeWhile fun p => Q p.1) = a' at h1
      generalize (r.takeWhile fun p => Q p.1) = a at h1
      by_cases ha : a = []
      · subst ha
        cases h1
        rw [if_pos rfl, if_pos rfl, match_render hother hx]
      · have ha' : a' ≠ [] := by
          rintro rfl
          cases h1
          exact ha rfl
        rw [if_neg ha, if_neg ha', wrapLine, renders_grp, renders_nil, renders_append]
        simp only [List.flatMap_cons, List.flatMap_append, List.flatMap_nil, hch,
          match_render hother hx, flat_render hother h1]
        simp
    · have hl := (List.dropWhile_suffix (fun p : Char × Line => Q p.1) (l := r')).length_le
      generalize (r'.dropWhile fun p => Q p.1) = b' at h2 hl
      generalize (r.dropWhile fun p => Q p.1) = b at h2
      by_cases hb : b' = r'
      · subst hb
        cases h2 with
        | nil => simp [next]
        | @cons p q b' b h3 h4 =>
          obtain ⟨c1, y⟩ := p
          obtain ⟨c2, Y⟩ := q
          obtain ⟨rfl, h5⟩ := h3
          rw [next, next, List.flatMap_cons, hch, SE.sepIt, renders_tk,
            ih y Y b' b (by simp at hn; omega) h5 h4]
          rfl
      · cases h2 with
        | nil => simp [next]
        | @cons p q b' b h3 h4 =>
          obtain ⟨c1, y⟩ := p
          obtain ⟨c2, Y⟩ := q
          obtain ⟨rfl, h5⟩ := h3
          rw [next, next, List.flatMap_cons, hch, SE.sepIt, renders_tk,
            ih y Y b' b (by simp at hl; omega) h5 h4]
          rfl

/-! ### `_add_paren` -/

theorem dropDouble_flat {m : Line} (hm : ∀ t ∈ m, isParen t = false) :
    dropDouble (.ch '(' :: (m ++ [.ch ')'])) = .ch '(' :: (m ++ [.ch ')']) := by
  rw [dropDouble, if_neg]
  rintro ⟨h1, -⟩
  cases m with
  | nil => simp at h1
  | cons t m =>
    simp at h1
    exact not_open (hm t (by simp)) h1

/-- One operator on a balanced line; `g` is what the operator does with the line in which the groups
are tokens. -/
theorem addInner_tree {op : Op} {calls : ℕ} {T T' : List It} (hT : Good T) (hc : Clean T)
    (hb : Below calls (renders T)) (hop : ∀ l, inG l T → ∀ t ∈ renders l, op.isOp t = false)
    (hsub : ∀ (c : ℕ) (f : Tk → Line) (m : Line), (∀ t, ¬ IsC c t → f t = [t]) →
      List.Forall₂ (Match c f) m T → (sub op m).flatMap f = renders T') :
    ∃ calls', addInner op calls (renders T) = some (renders T', calls') ∧ calls ≤ calls' := by
  rw [addInner]
  have hf := hb.fresh
  split_ifs with hp
  · obtain ⟨l0, levels, h1, h2, h3⟩ := parseParen_tree hT hc hf
    obtain ⟨f, hP⟩ := parseParen_spec keepsTok_all hf h1
    have hexk : ∀ l : Line, ex (fun _ => true) f l = l.flatMap f := fun l => by rw [ex, keep_all]
    have htok : ∀ t, t ∈ (levels.headD []).map Group.token → ∃ l, inG l T ∧ f t = gtext l := by
      intro t ht
      obtain ⟨G, hG, rfl⟩ := List.mem_map.mp ht
      have hL : levels.headD [] ∈ levels := by
        cases levels with
        | nil => simp at hG
        | cons L Ls => simp
      obtain ⟨l, m, h4, h5, -⟩ := h3 _ hL G hG
      exact ⟨l, h4, by rw [hP.text _ hL G hG, keep_all, h5]⟩
    have hmatch : List.Forall₂ (Match (calls + 1) f) l0 T := by
      refine match_lines hP.other l0 T h2 (fun t ht hct => ?_) hT ?_
      · obtain ⟨l, h4, h5⟩ := htok t (hP.line0 t ht hct)
        exact ⟨l, good_of_inG hT h4, h5⟩
      · rw [← hexk, hP.value, keep_all]
    have hlev : (levels.map fun level => level.map fun g => { g with cur := sub op g.cur }) = levels := by
      refine (List.map_congr_left fun L hL => ?_).trans (List.map_id _)
      refine (List.map_congr_left fun G hG => ?_).trans (List.map_id _)
      obtain ⟨l, m, h4, h5, h6, h7⟩ := h3 L hL G hG
      have : sub op G.cur = G.cur := by
        refine sub_of_no_op op fun t ht => ?_
        by_cases hct : IsC (calls + 1) t
        · cases t with
          | ch x => exact hct.elim
          | tok a b d => cases op <;> simp [Op.isOp]
        · have hmem : t ∈ G.cur.flatMap f := List.mem_flatMap.mpr ⟨t, ht, by rw [hP.other t hct]; simp⟩
          rw [← hexk, ← hP.group L hL G hG, hP.text L hL G hG, keep_all, h5, gtext_eq] at hmem
          simp only [List.mem_cons, List.mem_append, List.not_mem_nil, or_false] at hmem
          rcases hmem with rfl | hmem | rfl
          · cases op <;> rfl
          · exact hop l h4 t hmem
          · cases op <;> rfl
      rw [this]
      rfl
    refine ⟨calls + 1, ?_, by omega⟩
    rw [h1, Option.map_some]
    simp only [hlev]
    obtain ⟨h8, h9⟩ := unparse_spec keepsTok_all (f := f) (c := calls + 1) levels 1 (fun L hL G hG => by
      obtain ⟨l, m, h4, h5, h6, h7⟩ := h3 L hL G hG
      rw [h7, dropDouble_flat h6, ← h7]
      exact hP.group L hL G hG) hP.ok (sub op l0) (fun t ht hct => by
        refine hP.line0 t ?_ hct
        exact isC_core keepsTok_core (core_sub op l0) hct ht)
    have h10 := ex_of_not_isC (q := fun _ => true) hP.other h9
    rw [keep_all, h8, hexk, hsub (calls + 1) f l0 hP.other hmatch] at h10
    rw [h10]
  · push Not at hp
    refine ⟨calls, ?_, le_rfl⟩
    have hno : ∀ t ∈ renders T, isParen t = false := by
      intro t ht
      rw [Bool.eq_false_iff]
      intro h
      simp [isParen] at h
      rcases h with rfl | rfl
      · exact hp.1 ht
      · exact hp.2 ht
    have hm := match_lines (c := calls + 1) (f := fun t => [t]) (fun _ _ => rfl) (renders T) T hno
      (fun t ht h => absurd h (hf t ht)) hT (by simp)
    have := hsub (calls + 1) (fun t => [t]) (renders T) (fun _ _ => rfl) hm
    simp only [List.flatMap_singleton'] at this
    rw [this]

open SE

theorem inG_top {ops : List Op} {i : ℕ} {e : SE} (h : WF ops e) {l : List It} (hl : inG l (top i e)) :
    ∃ b, WF ops b ∧ b.rank ≤ i ∧ l = st i b := by
  have key : inG l (st i e) → ∃ b, WF ops b ∧ b.rank ≤ i ∧ l = st i b := by
    intro hl
    obtain ⟨b, h1, h2, rfl⟩ := inG_st le_rfl e hl
    exact ⟨b, inner_wf e h b h1, isCh_rank h2, rfl⟩
  rw [top] at hl
  split_ifs at hl with hi
  · rw [inG] at hl
    rcases hl with rfl | hl | hl
    · exact ⟨e, h, isCh_rank hi, rfl⟩
    · exact key hl
    · simp [inG] at hl
  · exact key hl

theorem core_tops {ops : List Op} (i : ℕ) (e : SE) (h : WF ops e) : core (renders (top i e)) = text e := by
  rw [top]
  split_ifs
  · rw [renders_grp, core_open, renders_nil, core_append, core_close, List.append_nil, core_top i e h]
  · exact core_top i e h

theorem below_top {ops : List Op} {calls : ℕ} (i : ℕ) {e : SE} (h : WF ops e) (hb : Below calls (text e)) :
    Below calls (renders (top i e)) := by
  intro a b d ht
  exact hb a b d (by rw [← core_tops i e h]; exact mem_core_tok.mpr ht)

theorem below_st {ops : List Op} {calls : ℕ} (i : ℕ) {e : SE} (h : WF ops e) (hb : Below calls (text e)) :
    Below calls (renders (st i e)) := by
  intro a b d ht
  exact hb a b d (by rw [← core_top i e h]; exact mem_core_tok.mpr ht)

/-- One operator on an expression in which the products of the operators before it are in groups. -/
theorem addInner_stage {ops : List Op} (hn : ops.Nodup) {i : ℕ} {o : Op} (ho : ops[i]? = some o)
    {calls : ℕ} {e : SE} (h : WF ops e) (hd : ((inner ops.length e).map text).Nodup)
    (hb : Below calls (text e)) :
    ∃ calls', addInner o calls (renders (top i e)) = some (renders (top (i + 1) e), calls') ∧
      calls ≤ calls' := by
  have hi : i < ops.length := (List.getElem?_eq_some_iff.mp ho).1
  refine addInner_tree (good_top i e h) (clean_top hi.le e h hd) (below_top i h hb) ?_ ?_
  · intro l hl
    obtain ⟨b, h1, h2, rfl⟩ := inG_top h hl
    exact st_no_op hn ho i b h1 h2
  · intro c f m hother hm
    rw [← flat_alt i e h] at hm
    obtain ⟨x, b, rfl, h1, h2⟩ := forall₂_append_right' _ _ _ hm
    obtain ⟨r', rfl, h3⟩ := match_alt _ _ h2
    obtain ⟨ha1, ha2⟩ := alt_opd i e h
    have hr' : AltLine r' := by
      intro p hp
      obtain ⟨j, hj, rfl⟩ := List.getElem_of_mem hp
      have hj' : j < (alt i e).2.length := by rw [← h3.length_eq]; exact hj
      have := List.Forall₂.get h3 hj hj'
      rw [List.get_eq_getElem, List.get_eq_getElem] at this
      have h4 := ha2 _ (List.getElem_mem hj')
      rw [this.1]
      exact ⟨h4.1, match_opd this.2 h4.2⟩
    have hmap : r'.map Prod.fst = (alt i e).2.map Prod.fst := by
      clear hr' hm h2 ha2
      generalize (alt i e).2 = r at h3
      induction h3 with
      | nil => rfl
      | cons h _ ih => rw [List.map_cons, List.map_cons, h.1, ih]
    rw [sub_flat o (match_opd h1 ha1) hr' (fun hdots => by
      rw [hmap]; subst hdots; exact noRow_alt hn ho e h),
      runs_render hother _ r'.length x _ r' _ le_rfl h1 h3, runs_alt hn ho e h]

/-- An operator that does not occur. -/
theorem addInner_none {ops : List Op} (hn : ops.Nodup) {i : ℕ} {o : Op} (ho : ops[i]? = some o)
    {calls : ℕ} {e : SE} (h : WF ops e) (hd : ((inner ops.length e).map text).Nodup)
    (hb : Below calls (text e)) (hr : e.rank ≤ i) :
    ∃ calls', addInner o calls (renders (st i e)) = some (renders (st i e), calls') ∧
      calls ≤ calls' := by
  have hi : i < ops.length := (List.getElem?_eq_some_iff.mp ho).1
  refine addInner_tree (good_st i e h) (clean_st hi.le e h hd) (below_st i h hb) ?_ ?_
  · intro l hl
    obtain ⟨b, h1, h2, rfl⟩ := inG_st le_rfl e hl
    exact st_no_op hn ho i b (inner_wf e h b h1) (isCh_rank h2)
  · intro c f m hother hm
    rw [sub_of_no_op, match_render hother hm]
    intro t ht
    have hno := st_no_op hn ho i e h hr
    generalize st i e = T at hm hno
    induction hm with
    | nil => simp at ht
    | @cons s x m T h1 _ ih =>
      rcases List.mem_cons.mp ht with rfl | ht
      · cases x with
        | tk s' =>
          rw [h1.1]
          exact hno s' (by simp)
        | grp l =>
          cases t with
          | ch y => exact h1.1.elim
          | tok a b d => cases o <;> simp [Op.isOp]
      · refine ih ht fun t' ht' => hno t' ?_
        cases x with
        | tk s' => simp [ht']
        | grp l => simp [ht']

theorem addParen_wrap (op : Op) (calls : ℕ) (l : Line) : addParen op calls (wrapLine l) =
    (addInner op calls l).map fun r => (wrapLine r.1, r.2) := by
  rw [addParen, if_neg (by simp [wrapLine]), if_pos]
  · simp [wrapLine]
  · refine ⟨by simp [wrapLine], ?_⟩
    rw [wrapLine, ← List.cons_append, List.getLast?_concat]

theorem addAll_cons (op : Op) (ops : List Op) (calls : ℕ) (line : Line) :
    addAll (op :: ops) calls line = (addParen op calls line).bind fun r => addAll ops r.2 r.1 := by
  simp only [addAll, List.foldlM_cons]
  rfl

/-- All operators on an expression in parentheses. -/
theorem addAll_wrap {ops : List Op} (hn : ops.Nodup) {e : SE} (h : WF ops e)
    (hd : ((inner ops.length e).map text).Nodup) : ∀ (suf : List Op) (i calls : ℕ), ops.drop i = suf →
      i ≤ ops.length → Below calls (text e) →
      ∃ calls', addAll suf calls (wrapLine (renders (top i e))) =
        some (wrapLine (renders (top ops.length e)), calls') ∧ calls ≤ calls' := by
  intro suf
  induction suf with
  | nil =>
    intro i calls hs hi _
    have : i = ops.length := by
      have := congrArg List.length hs
      simp at this
      omega
    subst this
    exact ⟨calls, rfl, le_rfl⟩
  | cons o suf ih =>
    intro i calls hs hi hb
    have ho : ops[i]? = some o := by
      have := congrArg List.head? hs
      rwa [List.head?_drop, List.head?_cons] at this
    have hi' : i < ops.length := (List.getElem?_eq_some_iff.mp ho).1
    obtain ⟨c1, h1, h2⟩ := addInner_stage hn ho h hd hb
    obtain ⟨c2, h3, h4⟩ := ih (i + 1) c1 (by
      have := congrArg List.tail hs
      rwa [List.tail_drop, List.tail_cons] at this) (by omega) (hb.mono h2)
    refine ⟨c2, ?_, by omega⟩
    rw [addAll_cons, addParen_wrap, h1]
    exact h3

/-- The line begins or ends with a product of the first `i` operators. -/
def startsG (i : ℕ) : SE → Bool
  | .leaf _ => false
  | .op k l _ _ => decide (k < i) || startsG i l

def endsG (i : ℕ) : SE → Bool
  | .leaf _ => false
  | .op k _ _ r => decide (k < i) || endsG i r

theorem head_leaf (x : Line) : renders (x.map It.tk) = x := by
  have : ∀ x : Line, renders (x.map It.tk) = x := by
    intro x
    induction x with
    | nil => simp
    | cons t x ih => simp [ih]
  exact this x

theorem top_ne {ops : List Op} (i : ℕ) (e : SE) (h : WF ops e) : renders (top i e) ≠ [] := by
  intro h'
  have := core_tops i e h
  rw [h'] at this
  have ht : text e ≠ [] := by
    cases e with
    | leaf x => exact h.1
    | op k l c r => simp [text]
  exact ht this.symm

theorem head_top {ops : List Op} (i : ℕ) (e : SE) (h : WF ops e)
    (hs : (renders (top i e)).head? = some (.ch '(')) : startsG i e = true := by
  induction e with
  | leaf x =>
    rw [top, if_neg (by simp [isCh]), st, head_leaf x] at hs
    have := h.2 _ (List.mem_of_mem_head? hs)
    simp [isOperand] at this
  | op k l c r ihl ihr =>
    rw [startsG]
    by_cases hk : k < i
    · simp [hk]
    · rw [top, if_neg (by simp [isCh, hk]), st_op_ge (by omega), renders_append,
        List.head?_append_of_ne_nil _ (top_ne i l h.1)] at hs
      simp [ihl h.1 hs]

theorem last_top {ops : List Op} (i : ℕ) (e : SE) (h : WF ops e)
    (hs : (renders (top i e)).getLast? = some (.ch ')')) : endsG i e = true := by
  induction e with
  | leaf x =>
    rw [top, if_neg (by simp [isCh]), st, head_leaf x] at hs
    have := h.2 _ (List.mem_of_getLast? hs)
    simp [isOperand] at this
  | op k l c r ihl ihr =>
    rw [endsG]
    by_cases hk : k < i
    · simp [hk]
    · rw [top, if_neg (by simp [isCh, hk]), st_op_ge (by omega), renders_append, renders_tk,
        List.getLast?_append_of_ne_nil _ (by simp)] at hs
      rw [← List.singleton_append, List.getLast?_append_of_ne_nil _ (top_ne i r h.2.1)] at hs
      simp [ihr h.2.1 hs]

theorem wrap_grp (T : List It) : renders [.grp T] = wrapLine (renders T) := by
  rw [renders_grp, renders_nil, wrapLine]

/-- All operators on an expression that is not in parentheses. -/
theorem addAll_top {ops : List Op} (hn : ops.Nodup) {e : SE} (h : WF ops e)
    (hd : ((inner ops.length e).map text).Nodup)
    (hse : ∀ i < ops.length, isCh i e = true ∨ ¬ (startsG i e = true ∧ endsG i e = true)) :
    ∀ (suf : List Op) (i calls : ℕ), ops.drop i = suf →
      i ≤ ops.length → Below calls (text e) →
      ∃ calls', addAll suf calls (renders (top i e)) = some (renders (top ops.length e), calls') ∧
        calls ≤ calls' := by
  intro suf
  induction suf with
  | nil =>
    intro i calls hs hi _
    have : i = ops.length := by
      have := congrArg List.length hs
      simp at this
      omega
    subst this
    exact ⟨calls, rfl, le_rfl⟩
  | cons o suf ih =>
    intro i calls hs hi hb
    have ho : ops[i]? = some o := by
      have := congrArg List.head? hs
      rwa [List.head?_drop, List.head?_cons] at this
    have hi' : i < ops.length := (List.getElem?_eq_some_iff.mp ho).1
    have hdrop : ops.drop (i + 1) = suf := by
      have := congrArg List.tail hs
      rwa [List.tail_drop, List.tail_cons] at this
    have hstep : ∃ c1, addParen o calls (renders (top i e)) = some (renders (top (i + 1) e), c1) ∧
        calls ≤ c1 := by
      by_cases hch : isCh i e = true
      · obtain ⟨c1, h1, h2⟩ := addInner_none hn ho h hd hb (isCh_rank hch)
        refine ⟨c1, ?_, h2⟩
        rw [top, top, if_pos hch, if_pos (isCh_mono (by omega) hch), wrap_grp, wrap_grp, addParen_wrap, h1,
          st_stable i e h (by have := isCh_rank hch; omega)]
        rfl
      · obtain ⟨c1, h1, h2⟩ := addInner_stage hn ho h hd hb
        refine ⟨c1, ?_, h2⟩
        rw [addParen, if_neg (top_ne i e h), if_neg, h1]
        rintro ⟨h3, h4⟩
        exact ((hse i hi').resolve_left hch) ⟨head_top i e h h3, last_top i e h h4⟩
    obtain ⟨c1, h1, h2⟩ := hstep
    obtain ⟨c2, h3, h4⟩ := ih (i + 1) c1 hdrop (by omega) (hb.mono h2)
    refine ⟨c2, ?_, by omega⟩
    rw [addAll_cons, h1]
    exact h3

end GA.Parser
