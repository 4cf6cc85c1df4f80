import Verif.Proofs.ParserAdd
import Verif.Proofs.ParserRead

/-!
# `parse_line` on expressions with parentheses
-/

namespace GA.Parser

/-- The items of an expression. -/
def items : PExpr → List It
  | .name s => s.map fun c => .tk (.ch c)
  | .paren e => [.grp (items e)]
  | .op _ l c r => items l ++ .tk (.ch c) :: items r

theorem renders_items (e : PExpr) : renders (items e) = e.text.map Tk.ch := by
  induction e with
  | name s =>
    rw [items, PExpr.text]
    induction s with
    | nil => simp
    | cons c s ih => simp [ih]
  | paren e ih => simp [items, PExpr.text, ih]
  | op k l c r ihl ihr => simp [items, PExpr.text, renders_append, ihl, ihr]

theorem isOp_opChar (o : Op) (c : Char) : o.isOp (.ch c) = opChar o c := by
  cases o <;> simp [Op.isOp, opChar]

theorem nameChar_operand {c : Char} (h : nameChar c = true) : isOperand (.ch c) = true := by
  simp only [nameChar, Bool.or_eq_true] at h
  simp only [isOperand, Bool.or_eq_true]
  exact .inl h

theorem sepOk_of_isOp {ops : List Op} {k : ℕ} {c : Char} (h : PExpr.IsOp ops k c) : SE.sepOk ops k c := by
  rcases h with ⟨o, ho, hc⟩ | ⟨hk, hc⟩
  · exact .inl ⟨o, ho, by rw [isOp_opChar, hc]⟩
  · refine .inr ⟨hk, ?_⟩
    rcases hc with rfl | rfl
    · exact ⟨by decide, by decide, fun o => by cases o <;> decide⟩
    · exact ⟨by decide, by decide, fun o => by cases o <;> decide⟩

theorem good_items {ops : List Op} (e : PExpr) (h : e.WF ops) : Good (items e) := by
  induction e with
  | name s =>
    rw [items]
    have h2 := h.2
    clear h
    induction s with
    | nil => exact good_nil
    | cons c s ih =>
      rw [List.map_cons, good_tk]
      exact ⟨SE.operand_not_paren (nameChar_operand (h2 c (by simp))), ih fun c hc => h2 c (by simp [hc])⟩
  | paren e ih =>
    rw [items, good_grp]
    exact ⟨ih h, good_nil⟩
  | op k l c r ihl ihr =>
    rw [items, good_append, good_tk]
    exact ⟨ihl h.1, (SE.sepOk_not (sepOk_of_isOp h.2.2.1)).2, ihr h.2.1⟩

theorem inG_name {l : List It} {s : List Char} : ¬ inG l (s.map fun c => It.tk (.ch c)) := by
  induction s with
  | nil => simp [inG]
  | cons c s ih => rw [List.map_cons, inG]; exact ih

theorem inG_items {n : ℕ} (e : PExpr) {l : List It} (h : inG l (items e)) :
    ∃ p, PExpr.paren p ∈ e.parts n ∧ l = items p := by
  induction e with
  | name s => exact absurd h inG_name
  | paren e ih =>
    rw [items, inG] at h
    rcases h with rfl | h | h
    · exact ⟨e, by simp [PExpr.parts], rfl⟩
    · obtain ⟨p, h1, h2⟩ := ih h
      exact ⟨p, by simp [PExpr.parts, h1], h2⟩
    · simp [inG] at h
  | op k l' c r ihl ihr =>
    rw [items, SE.inG_append, inG] at h
    rcases h with h | h
    · obtain ⟨p, h1, h2⟩ := ihl h
      exact ⟨p, by simp [PExpr.parts, h1], h2⟩
    · obtain ⟨p, h1, h2⟩ := ihr h
      exact ⟨p, by simp [PExpr.parts, h1], h2⟩

theorem text_of_items {p q : PExpr} (h : items p = items q) : p.text = q.text := by
  have := congrArg renders h
  rw [renders_items, renders_items] at this
  exact List.map_injective_iff.mpr (fun a b h => by simpa using h) this

theorem clean_items {n : ℕ} (e : PExpr) (h : e.NoRepeat n) : Clean (items e) := by
  induction e with
  | name s =>
    refine ⟨fun a b ha _ => ?_, fun b hb => absurd hb inG_name⟩
    simp [items] at ha
  | paren e ih =>
    have h' : e.NoRepeat n := by
      rw [PExpr.NoRepeat, PExpr.parts, List.map_cons, List.nodup_cons, List.map_append] at h
      exact (List.nodup_append.mp h.2).2.1
    exact SE.clean_grp (ih h')
  | op k l c r ihl ihr =>
    rw [PExpr.NoRepeat, PExpr.parts, List.map_append, List.nodup_append] at h
    obtain ⟨h1, h2, h3⟩ := h
    rw [List.map_append] at h1 h2
    have hl := ihl (List.nodup_append.mp h1).2.1
    have hr := ihr (List.nodup_append.mp h2).2.1
    have key : ∀ a, inG a (items l) → inG a (items r) → False := by
      intro a ha ha'
      obtain ⟨p, hp, rfl⟩ := inG_items (n := n) l ha
      obtain ⟨p', hp', e'⟩ := inG_items (n := n) r ha'
      refine h3 (PExpr.paren p).text (List.mem_map_of_mem (by simp [hp])) (PExpr.paren p').text
        (by rw [List.map_append, List.mem_append]; exact .inr (List.mem_map_of_mem hp')) ?_
      rw [PExpr.text, PExpr.text, text_of_items e']
    refine ⟨fun a b ha hb hab => ?_, fun b hb => ?_⟩
    · rw [items, List.mem_append, List.mem_cons] at ha hb
      have ha' : It.grp a ∈ items l ∨ It.grp a ∈ items r := by simpa using ha
      have hb' : It.grp b ∈ items l ∨ It.grp b ∈ items r := by simpa using hb
      rcases ha' with ha | ha <;> rcases hb' with hb | hb
      · exact hl.1 a b ha hb hab
      · exact key a (inG_of_mem ha) (inG_trans hab (inG_of_mem hb))
      · exact key a (inG_trans hab (inG_of_mem hb)) (inG_of_mem ha)
      · exact hr.1 a b ha hb hab
    · rw [items, SE.inG_append, inG] at hb
      rcases hb with hb | hb
      · exact hl.2 b hb
      · exact hr.2 b hb

/-! ### One pair of parentheses -/

/-- The expression with the tokens of the parts in parentheses; `E` is a list of these parts. -/
inductive Corr (c : ℕ) (f : Tk → Line) (E : List PExpr) : PExpr → SE → Prop
  | name (s : List Char) : Corr c f E (.name s) (.leaf (s.map Tk.ch))
  | paren {e : PExpr} {t : Tk} (hc : IsC c t) (hf : f t = gtext (items e)) (he : PExpr.paren e ∈ E) :
      Corr c f E (.paren e) (.leaf [t])
  | op {k : ℕ} {l r : PExpr} {l' r' : SE} {o : Char} (hl : Corr c f E l l') (hr : Corr c f E r r') :
      Corr c f E (.op k l o r) (.op k l' o r')

theorem Corr.rank {c : ℕ} {f : Tk → Line} {E : List PExpr} {e : PExpr} {s : SE} (h : Corr c f E e s) :
    s.rank = e.rank := by
  cases h <;> rfl

theorem Corr.isCh {c : ℕ} {f : Tk → Line} {E : List PExpr} {e : PExpr} {s : SE} (h : Corr c f E e s)
    (n : ℕ) : SE.isCh n s = e.isProduct n := by
  cases h with
  | name => rfl
  | paren => rfl
  | @op k => simp [SE.isCh, PExpr.isProduct, PExpr.rank]

theorem exists_corr {ops : List Op} {c : ℕ} {f : Tk → Line} {E : List PExpr} {n : ℕ} (e : PExpr)
    (h : e.WF ops) : ∀ m : Line, List.Forall₂ (Match c f) m (items e) → (∀ p ∈ e.parts n, p ∈ E) →
      ∃ s, SE.WF ops s ∧ s.text = m ∧ Corr c f E e s := by
  induction e with
  | name s =>
    intro m hm _
    have : m = s.map Tk.ch := by
      rw [items] at hm
      clear h
      induction s generalizing m with
      | nil => cases hm; rfl
      | cons a s ih =>
        rw [List.map_cons] at hm
        cases hm with
        | cons h1 h2 => rw [h1.1, ih _ h2 (by simp [PExpr.parts]), List.map_cons]
    subst this
    refine ⟨.leaf (s.map Tk.ch), ⟨by simpa using h.1, fun t ht => ?_⟩, rfl, .name s⟩
    obtain ⟨a, ha, rfl⟩ := List.mem_map.mp ht
    exact nameChar_operand (h.2 a ha)
  | paren e ih =>
    intro m hm hE
    rw [items] at hm
    cases hm with
    | @cons t _ m' _ h1 h2 =>
      cases h2
      refine ⟨.leaf [t], ⟨by simp, fun t' ht' => ?_⟩, rfl, .paren h1.1 h1.2 (hE _ (by simp [PExpr.parts]))⟩
      rw [List.mem_singleton] at ht'
      subst ht'
      cases t' with
      | ch x => exact h1.1.elim
      | tok a b d => rfl
  | op k l o r ihl ihr =>
    intro m hm hE
    rw [items] at hm
    obtain ⟨a, b, rfl, h1, h2⟩ := forall₂_append_right' _ _ _ hm
    cases h2 with
    | @cons t _ b _ h3 h4 =>
      obtain ⟨l', hl1, hl2, hl3⟩ := ihl h.1 a h1 fun p hp => hE p (by simp [PExpr.parts, hp])
      obtain ⟨r', hr1, hr2, hr3⟩ := ihr h.2.1 b h4 fun p hp => hE p (by simp [PExpr.parts, hp])
      refine ⟨.op k l' o r', ⟨hl1, hr1, ?_, ?_, sepOk_of_isOp h.2.2.1, ?_⟩, ?_, .op hl3 hr3⟩
      · rw [hl3.rank]
        have := h.2.2.2.2
        split_ifs at this <;> omega
      · rw [hr3.rank]; exact h.2.2.2.1
      · intro hd
        have := h.2.2.2.2
        rw [if_pos hd] at this
        rw [hl3.rank]; exact this
      · rw [SE.text, hl2, hr2, h3.1]

theorem Corr.text {c : ℕ} {f : Tk → Line} (hother : ∀ t, ¬ IsC c t → f t = [t]) {E : List PExpr}
    {e : PExpr} {s : SE} (h : Corr c f E e s) : s.text.flatMap f = e.text.map Tk.ch := by
  have hch : ∀ x, f (.ch x) = [.ch x] := fun x => hother _ (by simp [IsC])
  induction h with
  | name s =>
    rw [SE.text, PExpr.text]
    induction s with
    | nil => rfl
    | cons a s ih => rw [List.map_cons, List.flatMap_cons, ih, hch]; rfl
  | paren hc hf _ =>
    rw [SE.text, List.flatMap_cons, hf, gtext_eq, renders_items, PExpr.text]
    simp
  | op _ _ ihl ihr =>
    rw [SE.text, PExpr.text, List.flatMap_append, List.flatMap_cons, ihl, ihr, hch]
    simp

theorem Corr.self {c : ℕ} {f : Tk → Line} (hother : ∀ t, ¬ IsC c t → f t = [t]) {E : List PExpr}
    {e : PExpr} {s : SE} (h : Corr c f E e s) (n : ℕ) :
    ((SE.self n s).map SE.text).map (fun m => m.flatMap f) =
      ((e.self n).map PExpr.text).map (fun m => m.map Tk.ch) := by
  rw [SE.self, PExpr.self, h.isCh n]
  split_ifs
  · simp [h.text hother]
  · rfl

theorem Corr.inner {c : ℕ} {f : Tk → Line} (hother : ∀ t, ¬ IsC c t → f t = [t]) {E : List PExpr}
    {e : PExpr} {s : SE} (h : Corr c f E e s) (n : ℕ) :
    List.Sublist (((SE.inner n s).map SE.text).map (fun m => m.flatMap f))
      (((e.parts n).map PExpr.text).map (fun m => m.map Tk.ch)) := by
  induction h with
  | name s => simp [SE.inner]
  | paren hc hf _ => simp [SE.inner]
  | @op k l r l' r' o hl hr ihl ihr =>
    rw [SE.inner, PExpr.parts]
    simp only [List.map_append]
    refine List.Sublist.append (List.Sublist.append ?_ ihl) (List.Sublist.append ?_ ihr)
    · rw [hl.rank]
      split_ifs
      · exact .refl _
      · rw [hl.self hother n]
    · rw [hr.self hother n]

theorem Corr.nodup {c : ℕ} {f : Tk → Line} (hother : ∀ t, ¬ IsC c t → f t = [t]) {E : List PExpr}
    {e : PExpr} {s : SE} (h : Corr c f E e s) {n : ℕ} (hn : e.NoRepeat n) :
    ((SE.inner n s).map SE.text).Nodup := by
  refine List.Nodup.of_map (fun m => m.flatMap f) ((h.inner hother n).nodup ?_)
  exact List.Nodup.map (List.map_injective_iff.mpr (fun a b h => by simpa using h)) hn

theorem Corr.starts {c : ℕ} {f : Tk → Line} {E : List PExpr}
    {e : PExpr} {s : SE} (h : Corr c f E e s) (i : ℕ) : startsG i s = e.starts i ∧ endsG i s = e.ends i := by
  induction h with
  | name s => exact ⟨rfl, rfl⟩
  | paren hc hf _ => exact ⟨rfl, rfl⟩
  | op _ _ ihl ihr => rw [startsG, PExpr.starts, endsG, PExpr.ends, ihl.1, ihr.2]; exact ⟨rfl, rfl⟩

theorem render_zero (s : SE) : renders (SE.top 0 s) = s.text := by
  have h0 : ∀ s : SE, SE.isCh 0 s = false := fun s => by cases s <;> rfl
  rw [SE.top, if_neg (by simp [h0])]
  induction s with
  | leaf x => rw [SE.st, head_leaf, SE.text]
  | op k l c r ihl ihr =>
    rw [SE.st, if_neg (by simp [h0]), if_neg (by simp [h0]), renders_append, renders_tk, ihl, ihr, SE.text]

/-- The expression with parentheses, from the line with tokens. -/
theorem Corr.body {c : ℕ} {f g : Tk → Line} {E : List PExpr} {n : ℕ}
    (hch : ∀ x, g (.ch x) = [.ch x])
    (hg : ∀ t e, IsC c t → f t = gtext (items e) → PExpr.paren e ∈ E →
      g t = .ch '(' :: ((e.body n).text.map Tk.ch ++ [.ch ')']))
    {e : PExpr} {s : SE} (h : Corr c f E e s) :
    (renders (SE.st n s)).flatMap g = (e.body n).text.map Tk.ch := by
  induction h with
  | name s =>
    rw [SE.st, head_leaf, PExpr.body, PExpr.text]
    induction s with
    | nil => rfl
    | cons a s ih => rw [List.map_cons, List.flatMap_cons, ih, hch]; rfl
  | paren hc hf he =>
    rw [SE.st, head_leaf, List.flatMap_cons, hg _ _ hc hf he, PExpr.body, PExpr.text]
    simp
  | @op k l r l' r' o hl hr ihl ihr =>
    rw [SE.st, PExpr.body, PExpr.text, renders_append, renders_tk, List.flatMap_append, List.flatMap_cons,
      hch, hl.isCh n, hr.isCh n, hl.rank, List.map_append, List.map_cons]
    congr 1
    · split_ifs
      · simp [hch, ihl, PExpr.text]
      · exact ihl
    · rw [List.singleton_append]
      congr 1
      split_ifs
      · simp [hch, ihr, PExpr.text]
      · exact ihr

theorem Corr.grouped {c : ℕ} {f g : Tk → Line} {E : List PExpr} {n : ℕ}
    (hch : ∀ x, g (.ch x) = [.ch x])
    (hg : ∀ t e, IsC c t → f t = gtext (items e) → PExpr.paren e ∈ E →
      g t = .ch '(' :: ((e.body n).text.map Tk.ch ++ [.ch ')']))
    {e : PExpr} {s : SE} (h : Corr c f E e s) :
    (renders (SE.top n s)).flatMap g = (e.grouped n).text.map Tk.ch := by
  rw [SE.top, PExpr.grouped, h.isCh n]
  split_ifs
  · simp [hch, h.body hch hg, PExpr.text]
  · exact h.body hch hg

theorem dropDouble_wrap {l : Line} (h : ¬ (l.head? = some (.ch '(') ∧ l.getLast? = some (.ch ')'))) :
    dropDouble (wrapLine l) = wrapLine l := by
  rw [dropDouble, if_neg]
  rintro ⟨h1, h2⟩
  apply h
  cases l using List.reverseRecOn with
  | nil => simp [wrapLine] at h1
  | append_singleton l x =>
    refine ⟨?_, ?_⟩
    · rw [wrapLine] at h1
      cases l with
      | nil => simpa using h1
      | cons y l => simpa using h1
    · rw [List.getLast?_concat]
      have e : wrapLine (l ++ [x]) = (.ch '(' :: l) ++ [x, .ch ')'] := by simp [wrapLine]
      rw [e, List.length_append, List.drop_append_of_le_length (by simp)] at h2
      simp at h2
      simp [h2]

theorem dropDouble_double (l : Line) : dropDouble (wrapLine (wrapLine l)) = wrapLine l := by
  have e : wrapLine (wrapLine l) = [.ch '(', .ch '('] ++ l ++ [.ch ')', .ch ')'] := by simp [wrapLine]
  rw [dropDouble, if_pos]
  · rw [wrapLine, List.drop_one, List.tail_cons, List.dropLast_concat]
  · rw [e]
    refine ⟨by simp, ?_⟩
    rw [List.length_append, List.drop_append_of_le_length (by simp)]
    simp

/-- What becomes of a part in parentheses. -/
theorem Corr.dropDouble {ops : List Op} {c : ℕ} {f g : Tk → Line} {E : List PExpr}
    (hch : ∀ x, g (.ch x) = [.ch x])
    (hg : ∀ t e, IsC c t → f t = gtext (items e) → PExpr.paren e ∈ E →
      g t = .ch '(' :: ((e.body ops.length).text.map Tk.ch ++ [.ch ')']))
    {e : PExpr} {s : SE} (h : Corr c f E e s) (hs : SE.WF ops s)
    (hsafe : e.isProduct ops.length = true ∨ ¬ (e.starts ops.length = true ∧ e.ends ops.length = true)) :
    (Parser.dropDouble (wrapLine (renders (SE.top ops.length s)))).flatMap g =
      .ch '(' :: ((e.body ops.length).text.map Tk.ch ++ [.ch ')']) := by
  by_cases hp : e.isProduct ops.length = true
  · rw [SE.top, if_pos (by rw [h.isCh, hp]), wrap_grp, dropDouble_double, wrapLine]
    simp [hch, h.body hch hg]
  · rw [dropDouble_wrap]
    · rw [wrapLine]
      simp only [List.flatMap_cons, List.flatMap_append, hch, List.flatMap_nil]
      rw [SE.top, if_neg (by rw [h.isCh]; exact hp), h.body hch hg]
      simp
    · rintro ⟨h1, h2⟩
      refine hsafe.resolve_left hp ?_
      rw [← (h.starts _).1, ← (h.starts _).2]
      exact ⟨head_top _ s hs h1, last_top _ s hs h2⟩

/-! ### All levels -/

theorem addLevel_total {ops : List Op} {P : Group → Line → Prop} : ∀ (gs : List Group) (calls : ℕ),
    (∀ G ∈ gs, ∀ c', calls ≤ c' → ∃ r c'', addAll ops c' G.cur = some (r, c'') ∧ c' ≤ c'' ∧ P G r) →
    ∃ gs' c', addLevel ops calls gs = some (gs', c') ∧ calls ≤ c' ∧
      ∀ G' ∈ gs', ∃ G ∈ gs, G'.token = G.token ∧ P G G'.cur
  | [], calls, _ => ⟨[], calls, rfl, le_rfl, by simp⟩
  | g :: gs, calls, h => by
    obtain ⟨r, c1, h1, h2, h3⟩ := h g (by simp) calls le_rfl
    obtain ⟨gs', c2, h4, h5, h6⟩ := addLevel_total gs c1 fun G hG c' hc' =>
      h G (by simp [hG]) c' (h2.trans hc')
    refine ⟨{ g with cur := r } :: gs', c2, ?_, h2.trans h5, fun G' hG' => ?_⟩
    · rw [addLevel, h1, Option.bind_some, h4]
      rfl
    · rcases List.mem_cons.mp hG' with rfl | hG'
      · exact ⟨g, by simp, rfl, h3⟩
      · obtain ⟨G, hG, h7, h8⟩ := h6 G' hG'
        exact ⟨G, by simp [hG], h7, h8⟩

theorem addLevels_total {ops : List Op} {P : Group → Line → Prop} : ∀ (Ls : List (List Group)) (calls : ℕ),
    (∀ L ∈ Ls, ∀ G ∈ L, ∀ c', calls ≤ c' →
      ∃ r c'', addAll ops c' G.cur = some (r, c'') ∧ c' ≤ c'' ∧ P G r) →
    ∃ Ls' c', addLevels ops calls Ls = some (Ls', c') ∧
      ∀ L' ∈ Ls', ∀ G' ∈ L', ∃ L ∈ Ls, ∃ G ∈ L, G'.token = G.token ∧ P G G'.cur
  | [], calls, _ => ⟨[], calls, rfl, by simp⟩
  | L :: Ls, calls, h => by
    obtain ⟨L', c1, h1, h2, h3⟩ := addLevel_total L calls fun G hG => h L (by simp) G hG
    obtain ⟨Ls', c2, h4, h5⟩ := addLevels_total Ls c1 fun M hM G hG c' hc' =>
      h M (by simp [hM]) G hG c' (h2.trans hc')
    refine ⟨L' :: Ls', c2, ?_, fun M' hM' G' hG' => ?_⟩
    · rw [addLevels, h1, Option.bind_some, h4]
      rfl
    · rcases List.mem_cons.mp hM' with rfl | hM'
      · obtain ⟨G, hG, h6⟩ := h3 G' hG'
        exact ⟨L, by simp, G, hG, h6⟩
      · obtain ⟨M, hM, G, hG, h6⟩ := h5 M' hM' G' hG'
        exact ⟨M, by simp [hM], G, hG, h6⟩

theorem parts_sub {n : ℕ} (e : PExpr) {p : PExpr} (h : PExpr.paren p ∈ e.parts n) :
    List.Sublist (p.parts n) (e.parts n) := by
  induction e with
  | name s => simp [PExpr.parts] at h
  | paren e ih =>
    rw [PExpr.parts, List.mem_cons, List.mem_append] at h
    rcases h with h | h | h
    · cases h
      rw [PExpr.parts]
      exact (List.sublist_append_right _ _).cons _
    · rw [PExpr.self] at h
      split_ifs at h with hp
      · rw [List.mem_singleton] at h
        subst h
        simp [PExpr.isProduct, PExpr.rank] at hp
      · simp at h
    · rw [PExpr.parts]
      exact ((ih h).trans (List.sublist_append_right _ _)).cons _
  | op k l c r ihl ihr =>
    have hself : ∀ x : PExpr, PExpr.paren p ∉ x.self n := by
      intro x hx
      rw [PExpr.self] at hx
      split_ifs at hx with hp
      · rw [List.mem_singleton] at hx
        subst hx
        simp [PExpr.isProduct, PExpr.rank] at hp
      · simp at hx
    rw [PExpr.parts] at h ⊢
    simp only [List.mem_append] at h
    rcases h with (h | h) | h | h
    · split_ifs at h
      · simp at h
      · exact absurd h (hself l)
    · exact ((ihl h).trans (List.sublist_append_right _ _)).trans (List.sublist_append_left _ _)
    · exact absurd h (hself r)
    · exact ((ihr h).trans (List.sublist_append_right _ _)).trans (List.sublist_append_right _ _)

theorem parts_wf {ops : List Op} {n : ℕ} (e : PExpr) (h : e.WF ops) {p : PExpr}
    (hp : PExpr.paren p ∈ e.parts n) : p.WF ops := by
  have hself : ∀ x : PExpr, PExpr.paren p ∉ x.self n := by
    intro x hx
    rw [PExpr.self] at hx
    split_ifs at hx with hp
    · rw [List.mem_singleton] at hx
      subst hx
      simp [PExpr.isProduct, PExpr.rank] at hp
    · simp at hx
  induction e with
  | name s => simp [PExpr.parts] at hp
  | paren e ih =>
    rw [PExpr.parts, List.mem_cons, List.mem_append] at hp
    rcases hp with hp | hp | hp
    · cases hp; exact h
    · exact absurd hp (hself e)
    · exact ih h hp
  | op k l c r ihl ihr =>
    rw [PExpr.parts] at hp
    simp only [List.mem_append] at hp
    rcases hp with (hp | hp) | hp | hp
    · split_ifs at hp
      · simp at hp
      · exact absurd hp (hself l)
    · exact ihl h.1 hp
    · exact absurd hp (hself r)
    · exact ihr h.2.1 hp

theorem LevelsOk.mem {c : ℕ} : ∀ {k : ℕ} {Ls : List (List Group)}, LevelsOk c k Ls → ∀ {L : List Group},
    L ∈ Ls → ∀ {G : Group}, G ∈ L → ∀ {t : Tk}, t ∈ G.cur → IsC c t → ∃ L' ∈ Ls, t ∈ L'.map Group.token
  | _, [], _, _, hL, _, _, _, _, _ => by simp at hL
  | k, M :: Ls, h, L, hL, G, hG, t, ht, hc => by
    rcases List.mem_cons.mp hL with rfl | hL
    · have := h.2.1 G hG t ht hc
      cases Ls with
      | nil => simp at this
      | cons L' Ls => exact ⟨L', by simp, this⟩
    · obtain ⟨L', h1, h2⟩ := LevelsOk.mem h.2.2 hL hG ht hc
      exact ⟨L', by simp [h1], h2⟩

theorem LevelsOk.isC {c : ℕ} : ∀ {k : ℕ} {Ls : List (List Group)}, LevelsOk c k Ls → ∀ {L : List Group},
    L ∈ Ls → ∀ {G : Group}, G ∈ L → IsC c G.token
  | _, [], _, _, hL, _, _ => by simp at hL
  | k, M :: Ls, h, L, hL, G, hG => by
    rcases List.mem_cons.mp hL with rfl | hL
    · obtain ⟨g, hg⟩ := h.1 G hG
      rw [hg]
      rfl
    · exact LevelsOk.isC h.2.2 hL hG

/-- `parse_line` on an expression. -/
theorem parseLineTk_expr {ops : List Op} (hn : ops.Nodup) (calls : ℕ) (E : PExpr) (hE : E.WF ops)
    (hrep : E.NoRepeat ops.length) (hsafe : E.SafeParens ops.length) (htop : E.SafeTop ops.length) :
    parseLineTk ops calls (E.text.map Tk.ch) = some ((E.grouped ops.length).text.map Tk.ch) := by
  set n := ops.length with hnlen
  have hgood := good_items E hE
  have hnotok : ∀ a b d, Tk.tok a b d ∉ E.text.map Tk.ch := by
    intro a b d h
    obtain ⟨x, -, h⟩ := List.mem_map.mp h
    cases h
  have hfresh : ∀ t ∈ renders (items E), ¬ IsC (calls + 1) t := by
    intro t ht hc
    rw [renders_items] at ht
    cases t with
    | ch x => exact hc
    | tok a b d => exact hnotok a b d ht
  obtain ⟨l0, levels, h1, h2, h3⟩ := parseParen_tree hgood (clean_items E hrep) hfresh
  obtain ⟨f, hP⟩ := parseParen_spec keepsTok_all hfresh h1
  have hexk : ∀ (f : Tk → Line) (l : Line), ex (fun _ => true) f l = l.flatMap f :=
    fun f l => by rw [ex, keep_all]
  -- the tokens
  have hchf : ∀ x, f (.ch x) = [.ch x] := fun x => hP.other _ (by simp [IsC])
  have htokG : ∀ L ∈ levels, ∀ G ∈ L, ∃ p, PExpr.paren p ∈ E.parts n ∧ f G.token = gtext (items p) := by
    intro L hL G hG
    obtain ⟨l, m, h4, h5, -⟩ := h3 L hL G hG
    obtain ⟨p, h6, rfl⟩ := inG_items (n := n) E h4
    exact ⟨p, h6, by rw [hP.text L hL G hG, keep_all, h5]⟩
  have hgoodtok : ∀ t, ∀ L ∈ levels, t ∈ L.map Group.token → ∃ l, Good l ∧ f t = gtext l := by
    intro t L hL ht
    obtain ⟨G, hG, rfl⟩ := List.mem_map.mp ht
    obtain ⟨p, h4, h5⟩ := htokG L hL G hG
    exact ⟨_, good_items p (parts_wf E hE h4), h5⟩
  -- what the tokens become
  classical
  let g : Tk → Line := fun t =>
    if h : IsC (calls + 1) t ∧ ∃ p, PExpr.paren p ∈ E.parts n ∧ f t = gtext (items p) then
      .ch '(' :: (((h.2.choose).body n).text.map Tk.ch ++ [.ch ')']) else [t]
  have hg : ∀ t e, IsC (calls + 1) t → f t = gtext (items e) → PExpr.paren e ∈ E.parts n →
      g t = .ch '(' :: ((e.body n).text.map Tk.ch ++ [.ch ')']) := by
    intro t e hc hf he
    have h : IsC (calls + 1) t ∧ ∃ p, PExpr.paren p ∈ E.parts n ∧ f t = gtext (items p) := ⟨hc, e, he, hf⟩
    have hgt : g t = .ch '(' :: (((h.2.choose).body n).text.map Tk.ch ++ [.ch ')']) := dif_pos h
    obtain ⟨h4, h5⟩ := h.2.choose_spec
    have h6 := gtext_inj (good_items e (parts_wf E hE he)) (good_items _ (parts_wf E hE h4)) (hf.symm.trans h5)
    have h7 : (PExpr.paren e).text = (PExpr.paren h.2.choose).text := by
      rw [PExpr.text, PExpr.text, text_of_items h6]
    have h8 := List.inj_on_of_nodup_map hrep he h4 h7
    obtain h9 : e = h.2.choose := by injection h8
    rw [hgt, ← h9]
  have hgother : ∀ t, ¬ IsC (calls + 1) t → g t = [t] := fun t ht => dif_neg fun h => ht h.1
  have hch : ∀ x, g (.ch x) = [.ch x] := fun x => hgother _ (by simp [IsC])
  -- the outermost line
  have hm0 : List.Forall₂ (Match (calls + 1) f) l0 (items E) := by
    refine match_lines hP.other l0 _ h2 (fun t ht hct => ?_) hgood ?_
    · have := hP.line0 t ht hct
      cases hlev : levels with
      | nil => rw [hlev] at this; simp at this
      | cons L Ls =>
        rw [hlev, List.headD_cons] at this
        exact hgoodtok t L (by rw [hlev]; simp) this
    · rw [← hexk, hP.value, keep_all]
  obtain ⟨s0, hs1, hs2, hs3⟩ := exists_corr (n := n) (E := E.parts n) E hE l0 hm0 fun p hp => hp
  have hb0 : Below (calls + 1) s0.text := by
    intro a b d ht
    rw [hs2] at ht
    by_cases hc : a = calls + 1
    · omega
    · exfalso
      have hx : f (.tok a b d) = [.tok a b d] := hP.other _ hc
      have : Tk.tok a b d ∈ l0.flatMap f := List.mem_flatMap.mpr ⟨_, ht, by rw [hx]; simp⟩
      rw [← hexk, hP.value, keep_all, renders_items] at this
      exact hnotok a b d this
  obtain ⟨c1, ha1, ha2⟩ := addAll_top hn hs1 (hs3.nodup hP.other hrep) (fun i hi => by
    rw [hs3.isCh, (hs3.starts i).1, (hs3.starts i).2]
    exact htop i hi) ops 0 (calls + 1) rfl (Nat.zero_le _) hb0
  rw [render_zero, hs2] at ha1
  -- the groups
  obtain ⟨Ls', c2, hl1, hl2⟩ := addLevels_total (ops := ops)
    (P := fun G r => (dropDouble r).flatMap g = g G.token) levels c1 (by
    intro L hL G hG c' hc'
    obtain ⟨l, m, h4, h5, h6, h7⟩ := h3 L hL G hG
    obtain ⟨p, hp1, rfl⟩ := inG_items (n := n) E h4
    have hpw := parts_wf E hE hp1
    have hft : f G.token = gtext (items p) := by rw [hP.text L hL G hG, keep_all, h5]
    have hmf : m.flatMap f = renders (items p) := by
      have := hP.group L hL G hG
      rw [hft, hexk, h7, gtext_eq] at this
      simp only [List.flatMap_cons, List.flatMap_append, hchf, List.flatMap_nil, List.append_nil,
        List.singleton_append] at this
      exact (List.append_left_inj _).mp (List.cons.inj this).2.symm
    have hmm : List.Forall₂ (Match (calls + 1) f) m (items p) := by
      refine match_lines hP.other m _ h6 (fun t ht hct => ?_) (good_items p hpw) hmf
      obtain ⟨L', hL', ht'⟩ := hP.ok.mem hL hG (t := t) (by rw [h7]; simp [ht]) hct
      exact hgoodtok t L' hL' ht'
    obtain ⟨s, hs1, hs2, hs3⟩ := exists_corr (n := n) (E := E.parts n) p hpw m hmm fun x hx =>
      (parts_sub E hp1).subset hx
    have hb : Below c' s.text := by
      intro a b d ht
      rw [hs2] at ht
      by_cases hc : a = calls + 1
      · omega
      · exfalso
        have := hP.cur L hL G hG (.tok a b d) (by rw [h7]; simp [ht]) hc
        rw [renders_items] at this
        exact hnotok a b d this
    obtain ⟨c'', hw1, hw2⟩ := addAll_wrap hn hs1 (hs3.nodup hP.other (by
      exact List.Nodup.sublist ((parts_sub E hp1).map _) hrep)) ops 0 c' rfl (Nat.zero_le _) hb
    refine ⟨wrapLine (renders (SE.top ops.length s)), c'', ?_, hw2, ?_⟩
    · rw [render_zero, hs2] at hw1
      rw [h7]
      exact hw1
    · rw [hg G.token p (hP.ok.isC hL hG) hft hp1]
      exact hs3.dropDouble hch hg hs1 (hsafe p hp1))
  rw [parseLineTk, ← renders_items, h1, Option.bind_some, ha1, Option.bind_some, hl1, Option.map_some]
  congr 1
  have hsame := (addLevels_spec (ops := ops) (calls := c1) (Ls := levels) (fun L hL G hG a b d ht => by
    by_cases hc : a = calls + 1
    · omega
    · exfalso
      have := hP.cur L hL G hG (.tok a b d) ht hc
      rw [renders_items] at this
      exact hnotok a b d this) hl1).1
  have hcore : core (renders (SE.top ops.length s0)) = core l0 := by
    rw [core_tops _ s0 hs1, hs2]
    symm
    rw [core, List.filter_eq_self]
    intro t ht
    rw [h2 t ht]; rfl
  obtain ⟨h8, h9⟩ := unparse_spec keepsTok_all (f := g) (c := calls + 1) Ls' 1 (fun L hL G hG => by
      obtain ⟨L', hL', G', hG', h10, h11⟩ := hl2 L hL G hG
      rw [hexk, h11, h10]) (hP.ok.same hsame) (renders (SE.top ops.length s0)) (fun t ht hct => by
        rw [same_headD hsame]
        exact hP.line0 t (isC_core keepsTok_core hcore hct ht) hct)
  have h10 := ex_of_not_isC (q := fun _ => true) hgother h9
  rw [keep_all, h8, hexk, hs3.grouped hch hg] at h10
  exact h10.symm

end GA.Parser
