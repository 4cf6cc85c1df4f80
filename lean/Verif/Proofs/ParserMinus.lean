import Verif.Proofs.Parser
import Mathlib.Data.List.Pairwise

/-!
# Lines that begin with a minus sign

`-x` is rewritten as `0-x` is.
-/

namespace GA.Parser

/-! ### The scan for parentheses -/

/-- Only the last entry of a level can be open. -/
def OpenLast (ps : List Paren) : Prop := ps.Pairwise fun p q => p.stop = none → q.level ≠ p.level

theorem mem_closeLast {lev i : ℕ} {ps : List Paren} (h : OpenLast ps) {p : Paren} (hp : p ∈ closeLast lev i ps) :
    (p ∈ ps ∧ (p.stop = none → p.level ≠ lev)) ∨ ∃ q ∈ ps, p = { q with stop := some i } := by
  induction ps with
  | nil => simp [closeLast] at hp
  | cons a ps ih =>
    rw [OpenLast, List.pairwise_cons] at h
    rw [closeLast] at hp
    split_ifs at hp with h1 h2
    · rcases List.mem_cons.mp hp with rfl | hp
      · left
        refine ⟨List.mem_cons_self, fun hs => ?_⟩
        obtain ⟨q, hq, hl⟩ := List.any_eq_true.mp h1
        rw [← of_decide_eq_true hl]
        exact fun k => h.1 q hq hs k.symm
      · rcases ih h.2 hp with ⟨h3, h4⟩ | ⟨q, hq, h3⟩
        · exact .inl ⟨List.mem_cons_of_mem _ h3, h4⟩
        · exact .inr ⟨q, List.mem_cons_of_mem _ hq, h3⟩
    · have hn : ∀ q ∈ ps, q.level ≠ lev := by simpa using h1
      rcases List.mem_cons.mp hp with rfl | hp
      · exact .inr ⟨a, List.mem_cons_self, rfl⟩
      · exact .inl ⟨List.mem_cons_of_mem _ hp, fun _ => hn p hp⟩
    · have hn : ∀ q ∈ ps, q.level ≠ lev := by simpa using h1
      rcases List.mem_cons.mp hp with rfl | hp
      · exact .inl ⟨List.mem_cons_self, fun _ => h2⟩
      · exact .inl ⟨List.mem_cons_of_mem _ hp, fun _ => hn p hp⟩

theorem closeLast_level {lev i : ℕ} {ps : List Paren} {p : Paren} (hp : p ∈ closeLast lev i ps) :
    ∃ q ∈ ps, p.level = q.level := by
  induction ps with
  | nil => simp [closeLast] at hp
  | cons a ps ih =>
    rw [closeLast] at hp
    split_ifs at hp
    · rcases List.mem_cons.mp hp with rfl | hp
      · exact ⟨_, List.mem_cons_self, rfl⟩
      · obtain ⟨q, hq, h⟩ := ih hp
        exact ⟨q, List.mem_cons_of_mem _ hq, h⟩
    · rcases List.mem_cons.mp hp with rfl | hp
      · exact ⟨a, List.mem_cons_self, rfl⟩
      · exact ⟨p, List.mem_cons_of_mem _ hp, rfl⟩
    · exact ⟨p, hp, rfl⟩

theorem openLast_closeLast {lev i : ℕ} {ps : List Paren} (h : OpenLast ps) : OpenLast (closeLast lev i ps) := by
  induction ps with
  | nil => exact List.Pairwise.nil
  | cons a ps ih =>
    rw [OpenLast, List.pairwise_cons] at h
    rw [closeLast]
    split_ifs
    · refine List.pairwise_cons.mpr ⟨fun q hq hs => ?_, ih h.2⟩
      obtain ⟨q', hq', e⟩ := closeLast_level hq
      rw [e]
      exact h.1 q' hq' hs
    · exact List.pairwise_cons.mpr ⟨fun q _ hs => by simp at hs, h.2⟩
    · exact List.pairwise_cons.mpr h

/-- The state of the scan. -/
structure ScanOk (line : Line) (ich level : ℕ) (ps : List Paren) : Prop where
  openLast : OpenLast ps
  bound : ∀ p ∈ ps, p.stop = none → 1 ≤ p.level ∧ p.level ≤ level
  start : ∀ p ∈ ps, (line.drop p.start).head? = some (.ch '(') ∧ p.start < ich
  stop : ∀ p ∈ ps, ∀ e, p.stop = some e → p.start ≤ e

theorem scan_ok {line rest : Line} : ∀ {ich level : ℕ} {ps qs : List Paren}, line.drop ich = rest →
    ScanOk line ich level ps → scan rest ich level ps = some qs →
    ∀ p ∈ qs, (line.drop p.start).head? = some (.ch '(') ∧ ∃ e, p.stop = some e ∧ p.start ≤ e := by
  induction rest with
  | nil =>
    intro ich level ps qs _ h hs p hp
    rw [scan] at hs
    split_ifs at hs with h0
    obtain rfl := Option.some.inj hs
    refine ⟨(h.start p hp).1, ?_⟩
    cases he : p.stop with
    | none => have := h.bound p hp he; omega
    | some e => exact ⟨e, rfl, h.stop p hp e he⟩
  | cons x rest ih =>
    intro ich level ps qs hd h hs
    have hx : (line.drop ich).head? = some x := by rw [hd]; rfl
    have hd' : line.drop (ich + 1) = rest := by
      rw [← List.tail_drop, hd]; rfl
    rw [scan] at hs
    split_ifs at hs with h1 h2 h3
    · refine ih hd' ⟨?_, ?_, ?_, ?_⟩ hs
      · refine List.pairwise_append.mpr ⟨h.openLast, List.pairwise_singleton _ _, fun a ha b hb hs => ?_⟩
        obtain rfl := List.mem_singleton.mp hb
        have := h.bound a ha hs
        simp only
        omega
      · intro p hp hs
        rcases List.mem_append.mp hp with hp | hp
        · have := h.bound p hp hs; omega
        · obtain rfl := List.mem_singleton.mp hp
          simp
      · intro p hp
        rcases List.mem_append.mp hp with hp | hp
        · exact ⟨(h.start p hp).1, by have := (h.start p hp).2; omega⟩
        · obtain rfl := List.mem_singleton.mp hp
          exact ⟨by rw [hx, h1], by simp⟩
      · intro p hp e he
        rcases List.mem_append.mp hp with hp | hp
        · exact h.stop p hp e he
        · obtain rfl := List.mem_singleton.mp hp
          simp at he
    · refine ih hd' ⟨openLast_closeLast h.openLast, ?_, ?_, ?_⟩ hs
      · intro p hp hs
        rcases mem_closeLast h.openLast hp with ⟨h4, h5⟩ | ⟨q, hq, rfl⟩
        · have := h.bound p h4 hs
          have := h5 hs
          omega
        · simp at hs
      · intro p hp
        rcases mem_closeLast h.openLast hp with ⟨h4, -⟩ | ⟨q, hq, rfl⟩
        · exact ⟨(h.start p h4).1, by have := (h.start p h4).2; omega⟩
        · exact ⟨(h.start q hq).1, by have := (h.start q hq).2; simp only; omega⟩
      · intro p hp e he
        rcases mem_closeLast h.openLast hp with ⟨h4, -⟩ | ⟨q, hq, rfl⟩
        · exact h.stop p h4 e he
        · have := (h.start q hq).2
          simp only [Option.some.injEq] at he
          simp only
          omega
    · refine ih hd' ⟨h.openLast, h.bound, fun p hp => ?_, h.stop⟩ hs
      exact ⟨(h.start p hp).1, by have := (h.start p hp).2; omega⟩

/-- An entry one place further. -/
def Paren.shift (p : Paren) : Paren := ⟨p.level, p.start + 1, p.stop.map (· + 1)⟩

theorem closeLast_shift (lev i : ℕ) (ps : List Paren) :
    closeLast lev (i + 1) (ps.map Paren.shift) = (closeLast lev i ps).map Paren.shift := by
  induction ps with
  | nil => rfl
  | cons a ps ih =>
    have ha : ((ps.map Paren.shift).any fun q => decide (q.level = lev)) =
        ps.any fun q => decide (q.level = lev) := by
      rw [List.any_map]; rfl
    rw [List.map_cons, closeLast, closeLast, ha, ih, show a.shift.level = a.level from rfl]
    split_ifs <;> rfl

theorem scan_shift (l : Line) : ∀ (ich level : ℕ) (ps : List Paren),
    scan l (ich + 1) level (ps.map Paren.shift) = (scan l ich level ps).map (List.map Paren.shift) := by
  induction l with
  | nil => intro ich level ps; rw [scan, scan]; split_ifs <;> rfl
  | cons x l ih =>
    intro ich level ps
    rw [scan, scan]
    by_cases h1 : x = .ch '('
    · rw [if_pos h1, if_pos h1, ← ih]
      congr 1
      rw [List.map_append]; rfl
    · rw [if_neg h1, if_neg h1]
      by_cases h2 : x = .ch ')'
      · rw [if_pos h2, if_pos h2]
        by_cases h3 : level < 1
        · rw [if_pos h3, if_pos h3]; rfl
        · rw [if_neg h3, if_neg h3, ← ih, closeLast_shift]
      · rw [if_neg h2, if_neg h2, ← ih]

theorem ofLevel_shift {ps : List Paren} (h : ∀ p ∈ ps, ∃ e, p.stop = some e) (k : ℕ) :
    ofLevel (ps.map Paren.shift) k = (ofLevel ps k).map fun i => (i.1 + 1, i.2 + 1) := by
  induction ps with
  | nil => rfl
  | cons p ps ih =>
    have ih := ih fun q hq => h q (List.mem_cons_of_mem _ hq)
    obtain ⟨e, he⟩ := h p List.mem_cons_self
    simp only [ofLevel] at ih ⊢
    rw [List.map_cons, List.filter_cons, List.filter_cons, show p.shift.level = p.level from rfl]
    by_cases hk : p.level = k
    · rw [if_pos (decide_eq_true hk), if_pos (decide_eq_true hk), List.map_cons, List.map_cons,
        List.map_cons, ih]
      simp [Paren.shift, he]
    · rw [if_neg (fun h => hk (of_decide_eq_true h)), if_neg (fun h => hk (of_decide_eq_true h)), ih]

theorem mkLevel_shift {ps : List Paren} (h : ∀ p ∈ ps, ∃ e, p.stop = some e) (call : ℕ) (x : Tk) (line : Line)
    (k : ℕ) : mkLevel call (x :: line) (ps.map Paren.shift) k = mkLevel call line ps k := by
  rw [mkLevel, mkLevel, ofLevel_shift h, ofLevel_shift h]
  rw [List.mapIdx_eq_zipIdx_map, List.mapIdx_eq_zipIdx_map, List.zipIdx_map, List.map_map]
  congr 1
  funext ⟨i, ig⟩
  have h1 : ((x :: line).drop (i.1 + 1)).take (i.2 + 1 + 1 - (i.1 + 1)) = (line.drop i.1).take (i.2 + 1 - i.1) := by
    rw [List.drop_succ_cons, Nat.add_sub_add_right]
  have h2 : ((ofLevel ps (k - 1)).map fun i => (i.1 + 1, i.2 + 1)).findIdx
      (containsInterval (i.1 + 1, i.2 + 1)) = (ofLevel ps (k - 1)).findIdx (containsInterval i) := by
    rw [List.findIdx_map]
    congr 1
    funext j
    simp [containsInterval]
  simp only [Function.comp_apply, Prod.map, id, h1, h2]

/-! ### Replacing -/

theorem replace_cons {x : Tk} {pat : Line} (h : ∃ y p, pat = y :: p ∧ y ≠ x) (rep line : Line) :
    replace (x :: line) pat rep = x :: replace line pat rep := by
  obtain ⟨y, p, rfl, hy⟩ := h
  rw [replace, List.length_cons, replaceFuel, if_neg]
  · rfl
  · simp [List.isPrefixOf, hy]

theorem foldl_replace_cons {x : Tk} (gs : List Group) (f : Group → Line) (r : Group → Line)
    (h : ∀ g ∈ gs, ∃ y p, f g = y :: p ∧ y ≠ x) (line : Line) :
    gs.foldl (fun line g => replace line (f g) (r g)) (x :: line) =
      x :: gs.foldl (fun line g => replace line (f g) (r g)) line := by
  induction gs generalizing line with
  | nil => rfl
  | cons g gs ih =>
    rw [List.foldl_cons, List.foldl_cons, replace_cons (h g List.mem_cons_self),
      ih fun g hg => h g (List.mem_cons_of_mem _ hg)]

/-- A symbol in front that is no parenthesis is not looked at. -/
theorem parseParen_cons {x : Tk} (h1 : x ≠ .ch '(') (h2 : x ≠ .ch ')') (call : ℕ) (line : Line) :
    parseParen call (x :: line) = (parseParen call line).map fun r => (x :: r.1, r.2) := by
  rw [parseParen, parseParen]
  have hm : (Tk.ch '(' ∉ x :: line ∨ Tk.ch ')' ∉ x :: line) ↔ (Tk.ch '(' ∉ line ∨ Tk.ch ')' ∉ line) := by
    simp [Ne.symm h1, Ne.symm h2]
  by_cases hp : Tk.ch '(' ∉ line ∨ Tk.ch ')' ∉ line
  · rw [if_pos hp, if_pos (hm.mpr hp)]; rfl
  · rw [if_neg hp, if_neg (fun h => hp (hm.mp h)), scan, if_neg h1, if_neg h2]
    have := scan_shift line 0 0 []
    rw [List.map_nil] at this
    rw [this]
    cases hs : scan line 0 0 [] with
    | none => rfl
    | some ps =>
      have hok := scan_ok (line := line) (rest := line) rfl
        ⟨List.Pairwise.nil, by simp, by simp, by simp⟩ hs
      have hst : ∀ p ∈ ps, ∃ e, p.stop = some e := fun p hp =>
        let ⟨e, he, _⟩ := (hok p hp).2; ⟨e, he⟩
      have hlev : (ps.map Paren.shift).map Paren.level = ps.map Paren.level := by
        rw [List.map_map]; rfl
      simp only [Option.map_some, hlev, mkLevel_shift hst, Option.some.injEq, Prod.mk.injEq, and_true]
      refine foldl_replace_cons _ Group.text (fun g => [g.token]) (fun g hg => ?_) line
      have ht : g.text ∈ (((List.range ((ps.map Paren.level).foldl max 0)).map
          fun k => mkLevel call line ps (k + 1)).headD []).map Group.text := by
        rw [← foldLevels_headD_text]
        exact List.mem_map_of_mem hg
      obtain ⟨G, hG, hGt⟩ := List.mem_map.mp ht
      rw [← hGt]
      have hG' : ∃ k, G ∈ mkLevel call line ps k := by
        cases hr : (List.range ((ps.map Paren.level).foldl max 0)).map fun k => mkLevel call line ps (k + 1) with
        | nil => rw [hr] at hG; simp at hG
        | cons L Ls =>
          rw [hr] at hG
          have : L ∈ (List.range ((ps.map Paren.level).foldl max 0)).map fun k => mkLevel call line ps (k + 1) := by
            rw [hr]; exact List.mem_cons_self
          obtain ⟨k, -, hk⟩ := List.mem_map.mp this
          exact ⟨k + 1, by rw [hk]; exact hG⟩
      obtain ⟨k, hk⟩ := hG'
      rw [mkLevel, List.mem_mapIdx] at hk
      obtain ⟨ig, hig, rfl⟩ := hk
      have hi : (ofLevel ps k)[ig] ∈ (ps.filter fun p => p.level = k).map fun p => (p.start, p.stop.getD 0) :=
        List.getElem_mem hig
      rw [List.mem_map] at hi
      obtain ⟨p, hp, he⟩ := hi
      have hp := (List.mem_filter.mp hp).1
      obtain ⟨q1, e, q2, q3⟩ := hok p hp
      simp only
      rw [← he, q2]
      simp only [Option.getD_some]
      refine ⟨.ch '(', (line.drop (p.start + 1)).take (e - p.start), ?_, Ne.symm h1⟩
      rw [← List.tail_drop]
      cases hd : line.drop p.start with
      | nil => rw [hd] at q1; simp at q1
      | cons y l =>
        rw [hd] at q1
        rw [show e + 1 - p.start = (e - p.start) + 1 by omega, List.take_succ_cons, Option.some.inj q1]
        rfl

/-! ### The line -/

theorem sub_minus (op : Op) (t : Line) : sub op (.ch '-' :: t) = .ch '-' :: sub op t := by
  rw [sub, List.length_cons, reSub, if_neg (by decide)]; rfl

theorem sub_zero_minus (op : Op) (t : Line) :
    sub op (.ch '0' :: .ch '-' :: t) = .ch '0' :: sub op (.ch '-' :: t) := by
  have h1 : (Tk.ch '-' :: t).takeWhile isOperand = [] := List.takeWhile_cons_of_neg (by decide)
  have h2 : (Tk.ch '-' :: t).dropWhile isOperand = .ch '-' :: t := List.dropWhile_cons_of_neg (by decide)
  rw [sub, List.length_cons, reSub, if_pos (by decide), h1, h2]
  have h3 : matchTail op (Tk.ch '-' :: t).length (.ch '-' :: t) = ([], .ch '-' :: t) := by
    rw [List.length_cons, matchTail, if_neg]
    rintro ⟨h, -⟩
    cases op <;> revert h <;> decide
  rw [h3]
  rfl

/-- The token of each group is a token. -/
def Toks (levels : List (List Group)) : Prop := ∀ L ∈ levels, ∀ g ∈ L, ∃ a b d, g.token = .tok a b d

theorem unparse_cons {c : Char} {levels : List (List Group)} (h : Toks levels) (line : Line) :
    unparse (.ch c :: line) levels = .ch c :: unparse line levels := by
  rw [unparse, unparse]
  induction levels generalizing line with
  | nil => rfl
  | cons L Ls ih =>
    rw [List.foldl_cons, List.foldl_cons, foldl_replace_cons L (fun g => [g.token]), ih]
    · exact fun L' hL' => h L' (List.mem_cons_of_mem _ hL')
    · intro g hg
      obtain ⟨a, b, d, e⟩ := h L List.mem_cons_self g hg
      exact ⟨_, [], rfl, by simp [e]⟩

theorem foldInto_toks {down level : List Group} (h : ∀ g ∈ down, ∃ a b d, g.token = Tk.tok a b d) :
    ∀ g ∈ foldInto down level, ∃ a b d, g.token = Tk.tok a b d := by
  intro g hg
  have : g.token ∈ (foldInto down level).map Group.token := List.mem_map_of_mem hg
  rw [foldInto_token] at this
  obtain ⟨g', hg', e⟩ := List.mem_map.mp this
  rw [← e]
  exact h g' hg'

theorem foldLevels_toks : ∀ {levels : List (List Group)}, Toks levels → Toks (foldLevels levels)
  | [], h => h
  | [_], h => h
  | L :: L' :: Ls, h => by
    intro M hM
    rw [foldLevels] at hM
    rcases List.mem_cons.mp hM with rfl | hM
    · exact foldInto_toks (h L List.mem_cons_self)
    · exact foldLevels_toks (fun N hN => h N (List.mem_cons_of_mem _ hN)) M hM

theorem parseParen_toks {call : ℕ} {line l0 : Line} {levels : List (List Group)}
    (h : parseParen call line = some (l0, levels)) : Toks levels := by
  rw [parseParen] at h
  split_ifs at h
  · cases h
    exact fun L hL => by simp at hL
  · obtain ⟨ps, -, h⟩ := Option.map_eq_some_iff.mp h
    cases h
    refine foldLevels_toks fun L hL g hg => ?_
    obtain ⟨k, -, rfl⟩ := List.mem_map.mp hL
    rw [mkLevel, List.mem_mapIdx] at hg
    obtain ⟨ig, hig, rfl⟩ := hg
    exact ⟨_, _, _, rfl⟩

theorem addInner_minus (op : Op) (calls : ℕ) (t : Line) :
    ∃ o : Option (Line × ℕ), addInner op calls (.ch '-' :: t) = o.map (fun r => (.ch '-' :: r.1, r.2)) ∧
      addInner op calls (.ch '0' :: .ch '-' :: t) = o.map fun r => (.ch '0' :: .ch '-' :: r.1, r.2) := by
  rw [addInner, addInner]
  have hm : (Tk.ch '(' ∈ Tk.ch '-' :: t ∨ Tk.ch ')' ∈ Tk.ch '-' :: t) ↔ (Tk.ch '(' ∈ t ∨ Tk.ch ')' ∈ t) := by simp
  have hm' : (Tk.ch '(' ∈ Tk.ch '0' :: Tk.ch '-' :: t ∨ Tk.ch ')' ∈ Tk.ch '0' :: Tk.ch '-' :: t) ↔
      (Tk.ch '(' ∈ t ∨ Tk.ch ')' ∈ t) := by simp
  by_cases h : Tk.ch '(' ∈ t ∨ Tk.ch ')' ∈ t
  · rw [if_pos (hm.mpr h), if_pos (hm'.mpr h), parseParen_cons (by decide) (by decide),
      parseParen_cons (by decide) (by decide), parseParen_cons (by decide) (by decide)]
    cases hp : parseParen (calls + 1) t with
    | none => exact ⟨none, rfl, rfl⟩
    | some r =>
      have ht : Toks (r.2.map fun level => level.map fun g => { g with cur := sub op g.cur }) := by
        intro L hL g hg
        obtain ⟨L', hL', rfl⟩ := List.mem_map.mp hL
        obtain ⟨g', hg', rfl⟩ := List.mem_map.mp hg
        exact parseParen_toks hp L' hL' g' hg'
      refine ⟨some (unparse (sub op r.1) (r.2.map fun level => level.map fun g => { g with cur := sub op g.cur }),
        calls + 1), ?_, ?_⟩
      · simp only [Option.map_some, sub_minus, unparse_cons ht]
      · simp only [Option.map_some, sub_zero_minus, sub_minus, unparse_cons ht]
  · rw [if_neg (fun k => h (hm.mp k)), if_neg (fun k => h (hm'.mp k)), sub_zero_minus, sub_minus]
    exact ⟨some (sub op t, calls), rfl, rfl⟩

theorem addParen_minus (op : Op) (calls : ℕ) (t : Line) :
    ∃ o : Option (Line × ℕ), addParen op calls (.ch '-' :: t) = o.map (fun r => (.ch '-' :: r.1, r.2)) ∧
      addParen op calls (.ch '0' :: .ch '-' :: t) = o.map fun r => (.ch '0' :: .ch '-' :: r.1, r.2) := by
  rw [addParen, addParen, if_neg (by simp), if_neg (by simp), if_neg (by simp), if_neg (by simp)]
  exact addInner_minus op calls t

theorem addAll_minus (ops : List Op) (calls : ℕ) (t : Line) :
    ∃ o : Option (Line × ℕ), addAll ops calls (.ch '-' :: t) = o.map (fun r => (.ch '-' :: r.1, r.2)) ∧
      addAll ops calls (.ch '0' :: .ch '-' :: t) = o.map fun r => (.ch '0' :: .ch '-' :: r.1, r.2) := by
  induction ops generalizing calls t with
  | nil => exact ⟨some (t, calls), rfl, rfl⟩
  | cons op ops ih =>
    obtain ⟨o, h1, h2⟩ := addParen_minus op calls t
    simp only [addAll, List.foldlM_cons] at ih ⊢
    rw [h1, h2]
    cases o with
    | none => exact ⟨none, rfl, rfl⟩
    | some r => exact ih r.2 r.1

theorem addLevel_toks {ops : List Op} {calls : ℕ} {gs : List Group} {r : List Group × ℕ}
    (h : addLevel ops calls gs = some r) : r.1.map Group.token = gs.map Group.token := by
  induction gs generalizing calls r with
  | nil => rw [addLevel] at h; cases h; rfl
  | cons g gs ih =>
    rw [addLevel] at h
    obtain ⟨a, -, h2⟩ := Option.bind_eq_some_iff.mp h
    obtain ⟨b, h3, h4⟩ := Option.map_eq_some_iff.mp h2
    cases h4
    rw [List.map_cons, List.map_cons, ih h3]

theorem addLevels_toks {ops : List Op} {calls : ℕ} {levels : List (List Group)} {r : List (List Group) × ℕ}
    (h : addLevels ops calls levels = some r) (ht : Toks levels) : Toks r.1 := by
  induction levels generalizing calls r with
  | nil => rw [addLevels] at h; cases h; exact ht
  | cons L Ls ih =>
    rw [addLevels] at h
    obtain ⟨a, h1, h2⟩ := Option.bind_eq_some_iff.mp h
    obtain ⟨b, h3, h4⟩ := Option.map_eq_some_iff.mp h2
    cases h4
    intro M hM
    rcases List.mem_cons.mp hM with rfl | hM
    · intro g hg
      have : g.token ∈ a.1.map Group.token := List.mem_map_of_mem hg
      rw [addLevel_toks h1] at this
      obtain ⟨g', hg', e⟩ := List.mem_map.mp this
      rw [← e]
      exact ht L List.mem_cons_self g' hg'
    · exact ih h3 (fun N hN => ht N (List.mem_cons_of_mem _ hN)) M hM

/-- `-t` is rewritten as `0-t`, without the `0`. -/
theorem parseLineTk_minus (ops : List Op) (calls : ℕ) (t : Line) :
    parseLineTk ops calls (.ch '0' :: .ch '-' :: t) =
      (parseLineTk ops calls (.ch '-' :: t)).map fun r => .ch '0' :: r := by
  rw [parseLineTk, parseLineTk, parseParen_cons (by decide) (by decide),
    parseParen_cons (by decide) (by decide)]
  cases hp : parseParen (calls + 1) t with
  | none => rfl
  | some r =>
    simp only [Option.map_some, Option.bind_some]
    obtain ⟨o, h1, h2⟩ := addAll_minus ops (calls + 1) r.1
    rw [h1, h2]
    cases o with
    | none => rfl
    | some l0 =>
      simp only [Option.map_some, Option.bind_some]
      cases hl : addLevels ops l0.2 r.2 with
      | none => rfl
      | some ls =>
        have ht := addLevels_toks hl (parseParen_toks hp)
        simp only [Option.map_some, unparse_cons ht]

theorem parseLine_minus (ops : List Op) (calls : ℕ) (t : List Char) :
    parseLine ops calls ('0' :: '-' :: t) = (parseLine ops calls ('-' :: t)).map fun r => '0' :: r := by
  rw [parseLine, parseLine, List.filter_cons_of_pos (by decide), List.filter_cons_of_pos (by decide),
    List.map_cons, List.map_cons, parseLineTk_minus, Option.map_map, Option.map_map]
  rfl

end GA.Parser
