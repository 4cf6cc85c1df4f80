import Verif.Spec.GPrint
import Verif.Proofs.Session

/-!
# Lemmas about `gprint`
-/

namespace GA.GPrint

/-! ### Formatting -/

/-- Formatting the piece `p` uses up `args` and gives `out`. -/
def Fmts (p : List Char) (args : List (List Char)) (out : List Char) : Prop :=
  ∀ r xs, fmtGo false (p ++ r) (args ++ xs) = (fmtGo false r xs).map (out ++ ·)

theorem Fmts.nil : Fmts [] [] [] := fun r xs => by cases h : fmtGo false r xs <;> simp [h]

theorem Fmts.append {p q out out' : List Char} {a b : List (List Char)} (h : Fmts p a out)
    (h' : Fmts q b out') : Fmts (p ++ q) (a ++ b) (out ++ out') := by
  intro r xs
  rw [List.append_assoc, List.append_assoc, h, h', Option.map_map]
  congr 1
  funext t
  simp

theorem Fmts.result {p out : List Char} {a : List (List Char)} (h : Fmts p a out) :
    pyFormat p a = some out := by
  have := h [] []
  simpa [pyFormat, fmtGo] using this

theorem fmts_char {c : Char} (h : c ≠ '%') : Fmts [c] [] [c] := by
  intro r xs
  rw [List.singleton_append, fmtGo, if_neg h]
  rfl

theorem fmts_plain {s : List Char} (h : '%' ∉ s) : Fmts s [] s := by
  induction s with
  | nil => exact Fmts.nil
  | cons c s ih =>
    rw [List.mem_cons, not_or] at h
    exact (fmts_char (Ne.symm h.1)).append (ih h.2)

theorem escape_cons (c : Char) (s : List Char) :
    escape (c :: s) = (if c = '%' then ['%', '%'] else [c]) ++ escape s := rfl

theorem fmts_escape (s : List Char) : Fmts (escape s) [] s := by
  induction s with
  | nil => exact Fmts.nil
  | cons c s ih =>
    rw [escape_cons]
    refine Fmts.append (a := []) (out := [c]) ?_ ih
    split_ifs with hc
    · subst hc
      intro r xs
      simp [fmtGo]
    · exact fmts_char hc

theorem fmts_obj (x : List Char) : Fmts " %s ".toList [x] ([' '] ++ x ++ [' ']) := by
  intro r xs
  simp [fmtGo]
  rfl

theorem fmts_intercalate {sep : List Char} (hs : '%' ∉ sep) (L : List (List Char)) :
    Fmts (sep.intercalate (L.map escape)) [] (sep.intercalate L) := by
  induction L with
  | nil => exact Fmts.nil
  | cons a L ih =>
    cases L with
    | nil => simpa [List.intercalate] using fmts_escape a
    | cons b L =>
      rw [List.map_cons, List.map_cons, List.intercalate_cons_cons, List.intercalate_cons_cons]
      exact ((fmts_escape a).append (fmts_plain hs)).append (by rw [← List.map_cons]; exact ih)

/-! ### Lines -/

theorem breakLines_ne_nil (s : List Char) : breakLines s ≠ [] := by
  fun_induction breakLines s <;> simp_all

theorem breakLines_cons_ne {c : Char} (h : c ≠ '\\') (s : List Char) :
    breakLines (c :: s) = (c :: (breakLines s).headD []) :: (breakLines s).tail := by
  cases s with
  | nil => rfl
  | cons d s =>
    rw [breakLines, if_neg (fun h' => h h'.1)]
    cases hb : breakLines (d :: s) with
    | nil => exact absurd hb (breakLines_ne_nil _)
    | cons w ws => rfl

theorem strReplace_breakLines (new s : List Char) :
    strReplace ['\\', '\\'] new 0 s = new.intercalate (breakLines s) := by
  fun_induction breakLines s with
  | case1 => rfl
  | case2 c => simp [strReplace, List.isPrefixOf, List.intercalate]
  | case3 c d s h ih =>
    obtain ⟨rfl, rfl⟩ := h
    rw [strReplace, if_pos (by simp [List.isPrefixOf])]
    cases hb : breakLines s with
    | nil => exact absurd hb (breakLines_ne_nil _)
    | cons w ws => rw [List.intercalate_cons_cons, ← hb, ← ih]; simp [strReplace]
  | case4 c d s h hb => exact absurd hb (breakLines_ne_nil _)
  | case5 c d s h w ws hb ih =>
    rw [strReplace, if_neg, ih, hb]
    · cases ws with
      | nil => simp [List.intercalate]
      | cons w' ws => rw [List.intercalate_cons_cons, List.intercalate_cons_cons]; simp
    · rw [Bool.not_eq_true]
      rw [not_and_or] at h
      rcases h with h | h <;> simp [List.isPrefixOf, Ne.symm h]

theorem breakLines_of_not_infix {s : List Char} (h : ¬ ['\\', '\\'] <:+: s) : breakLines s = [s] := by
  fun_induction breakLines s with
  | case1 => rfl
  | case2 c => rfl
  | case3 c d s h' ih =>
    obtain ⟨rfl, rfl⟩ := h'
    exact absurd ⟨[], s, rfl⟩ h
  | case4 c d s h hb => exact absurd hb (breakLines_ne_nil _)
  | case5 c d s h' w ws hb ih =>
    have := ih fun h'' => h (h''.trans (List.suffix_cons _ _).isInfix)
    rw [hb] at this
    rw [List.cons.injEq] at this
    rw [this.1, this.2]

theorem escape_append (s t : List Char) : escape (s ++ t) = escape s ++ escape t := by
  rw [escape, List.flatMap_append]; rfl

theorem escape_eq_nil {s : List Char} (h : escape s = []) : s = [] := by
  cases s with
  | nil => rfl
  | cons c s => rw [escape_cons] at h; split_ifs at h <;> simp at h

theorem breakLines_cons_of {c : Char} {s : List Char} (h : c ≠ '\\' ∨ s.head? ≠ some '\\') :
    breakLines (c :: s) = (c :: (breakLines s).headD []) :: (breakLines s).tail := by
  cases s with
  | nil => rfl
  | cons d s =>
    rw [breakLines, if_neg (by rw [not_and_or]; simpa using h)]
    cases hb : breakLines (d :: s) with
    | nil => exact absurd hb (breakLines_ne_nil _)
    | cons w ws => rfl

theorem breakLines_escape (s : List Char) : breakLines (escape s) = (breakLines s).map escape := by
  have hd : ∀ L : List (List Char), (L.map escape).headD [] = escape (L.headD []) := by
    intro L; cases L <;> rfl
  have step : ∀ (c : Char) (s : List Char), (c ≠ '\\' ∨ s.head? ≠ some '\\') →
      breakLines (escape s) = (breakLines s).map escape →
      breakLines (escape (c :: s)) = (breakLines (c :: s)).map escape := by
    intro c s h ih
    rw [breakLines_cons_of h, escape_cons, List.map_cons, escape_cons]
    split_ifs with hc
    · rw [List.cons_append, List.singleton_append, breakLines_cons_of (Or.inl (by decide)),
        breakLines_cons_of (Or.inl (by decide)), ih, hd]
      simp [List.map_tail]
    · rw [List.singleton_append, breakLines_cons_of, ih, hd]
      · simp [List.map_tail]
      · refine h.imp id fun h => ?_
        cases s with
        | nil => simp [escape]
        | cons d s =>
          rw [escape_cons]
          split_ifs with h'
          · simp
          · simpa using h
  fun_induction breakLines s with
  | case1 => rfl
  | case2 c => exact step c [] (Or.inr (by simp)) rfl
  | case3 c d s h ih =>
    obtain ⟨rfl, rfl⟩ := h
    rw [escape_cons, escape_cons]
    simp only [Char.reduceEq, if_false, List.singleton_append]
    rw [breakLines, if_pos ⟨rfl, rfl⟩, ih, List.map_cons]
    rfl
  | case4 c d s h hb => exact absurd hb (breakLines_ne_nil _)
  | case5 c d s h w ws hb ih =>
    have := step c (d :: s) (by rw [not_and_or] at h; simpa using h) (ih.trans (by rw [hb]))
    rw [this, breakLines, if_neg h, hb]

/-! ### Gluing -/

theorem glue_ne_nil {A B : List (List Char)} (h : A ≠ []) : glue A B ≠ [] := by
  fun_cases glue A B <;> simp_all

theorem intercalate_glue (sep : List Char) {A B : List (List Char)} (hA : A ≠ []) (hB : B ≠ []) :
    sep.intercalate (glue A B) = sep.intercalate A ++ sep.intercalate B := by
  fun_induction glue A B with
  | case1 => exact absurd rfl hA
  | case2 => exact absurd rfl hB
  | case3 a b B =>
    cases B with
    | nil => simp [List.intercalate]
    | cons b' B => rw [List.intercalate_cons_cons, List.intercalate_cons_cons]; simp [List.intercalate]
  | case4 a A B h1 h2 ih =>
    have hA' : A ≠ [] := by
      rintro rfl
      cases B with
      | nil => exact hB rfl
      | cons b B => exact h2 b B rfl rfl
    obtain ⟨a', A', rfl⟩ := List.exists_cons_of_ne_nil hA'
    have h := ih hA' hB
    obtain ⟨c, C, hc⟩ := List.exists_cons_of_ne_nil (glue_ne_nil (B := B) hA')
    rw [hc] at h
    rw [hc, List.intercalate_cons_cons, List.intercalate_cons_cons, h]
    simp

/-! ### The format string -/

/-- The separator of lines. -/
def sepOf (interactive : Bool) : List Char :=
  if interactive then endEq ++ ['@'] ++ beginEq else endEq ++ ['\n'] ++ beginEq

theorem sepOf_percent (interactive : Bool) : '%' ∉ sepOf interactive := by
  cases interactive <;> decide

/-- The lines of an argument that is not the first. -/
def itemLines (flg : Bool) : Item → List (List Char)
  | .text s => breakLines s
  | y => [y.meaning flg]

theorem itemLines_ne_nil (flg : Bool) (y : Item) : itemLines flg y ≠ [] := by
  cases y <;> simp [itemLines, breakLines_ne_nil]

theorem formula_cons (flg : Bool) (x : Item) (xs : List Item) :
    formula flg (x :: xs) = xs.foldl (fun L y => glue L (itemLines flg y)) [x.meaning flg] := by
  rw [formula]
  congr 1

theorem fmts_acc {interactive flg : Bool} {out : List Char} {acc : List Char × List (List Char)}
    (h : Fmts acc.1 acc.2 out) {x : Item} (hx : x.ok) (i : ℕ) :
    Fmts (collectItem interactive flg acc (x.escape, i)).1 (collectItem interactive flg acc (x.escape, i)).2
      (out ++ if i = 0 then x.meaning flg else (sepOf interactive).intercalate (itemLines flg x)) := by
  have one : ∀ t, (sepOf interactive).intercalate [t] = t := fun t => by simp [List.intercalate]
  cases x with
  | text s =>
    rcases Nat.eq_zero_or_pos i with rfl | hi
    · have e : collectItem interactive flg acc (Item.escape (.text s), 0) = (acc.1 ++ escape s, acc.2) := by
        rw [collectItem, Item.escape]
        exact if_neg (by simp)
      rw [e, if_pos rfl]
      have := h.append (fmts_escape s)
      rwa [List.append_nil] at this
    · rw [if_neg hi.ne']
      have key : Fmts ((sepOf interactive).intercalate (breakLines (escape s))) []
          ((sepOf interactive).intercalate (breakLines s)) := by
        rw [breakLines_escape]
        exact fmts_intercalate (sepOf_percent _) _
      have e : collectItem interactive flg acc (Item.escape (.text s), i) =
          (acc.1 ++ (sepOf interactive).intercalate (breakLines (escape s)), acc.2) := by
        rw [collectItem, Item.escape]
        dsimp only
        by_cases h1 : ['\\', '\\'] <:+: escape s
        · rw [if_pos ⟨h1, hi⟩, strReplace_breakLines]
          rfl
        · rw [if_neg fun h' => h1 h'.1, breakLines_of_not_infix h1, one]
      rw [e]
      have := h.append key
      rwa [List.append_nil] at this
  | type s =>
    have hs : Fmts (Item.meaning flg (.type s)) [] (Item.meaning flg (.type s)) := by
      refine fmts_plain ?_
      rw [Item.meaning]
      have hs : '%' ∉ s := hx
      split_ifs
      · simp only [List.mem_append, not_or]
        exact ⟨⟨by decide, hs⟩, by decide⟩
      · exact hs
    have e : (if i = 0 then Item.meaning flg (.type s) else
        (sepOf interactive).intercalate (itemLines flg (.type s))) = Item.meaning flg (.type s) := by
      split_ifs
      · rfl
      · exact one _
    have e' : collectItem interactive flg acc (Item.escape (.type s), i) =
        (acc.1 ++ Item.meaning flg (.type s), acc.2) := by cases flg <;> rfl
    rw [e, e']
    have := h.append hs
    rwa [List.append_nil] at this
  | obj l s =>
    have e : (if i = 0 then Item.meaning flg (.obj l s) else
        (sepOf interactive).intercalate (itemLines flg (.obj l s))) = Item.meaning flg (.obj l s) := by
      split_ifs
      · rfl
      · exact one _
    rw [e]
    cases flg
    · exact h.append (fmts_obj s)
    · exact h.append (fmts_obj l)

/-- What is formatted are the lines of the formula. -/
theorem collect_fmts (interactive flg : Bool) {xs : List Item} (hx : ∀ x ∈ xs, x.ok) :
    Fmts (collect interactive flg (xs.map Item.escape)).1 (collect interactive flg (xs.map Item.escape)).2
      ((sepOf interactive).intercalate (formula flg xs)) := by
  have key : ∀ (xs : List Item) (k : ℕ) (acc : List Char × List (List Char)) (L : List (List Char)),
      L ≠ [] → (∀ x ∈ xs, x.ok) → Fmts acc.1 acc.2 ((sepOf interactive).intercalate L) →
      Fmts (((xs.map Item.escape).zipIdx (k + 1)).foldl (collectItem interactive flg) acc).1
        (((xs.map Item.escape).zipIdx (k + 1)).foldl (collectItem interactive flg) acc).2
        ((sepOf interactive).intercalate (xs.foldl (fun L y => glue L (itemLines flg y)) L)) := by
    intro xs
    induction xs with
    | nil => intro k acc L _ _ h; exact h
    | cons x xs ih =>
      intro k acc L hL hx h
      rw [List.map_cons, List.zipIdx_cons, List.foldl_cons, List.foldl_cons]
      refine ih _ _ _ (glue_ne_nil hL) (fun y hy => hx y (List.mem_cons_of_mem _ hy)) ?_
      have h1 := fmts_acc (interactive := interactive) (flg := flg) h (hx x (List.mem_cons_self ..)) (k + 1)
      rw [if_neg (Nat.succ_ne_zero k)] at h1
      rw [intercalate_glue _ hL (itemLines_ne_nil flg x)]
      exact h1
  cases xs with
  | nil => exact Fmts.nil
  | cons x xs =>
    rw [formula_cons, collect, List.map_cons, List.zipIdx_cons, List.foldl_cons]
    refine key xs 0 _ _ (by simp) (fun y hy => hx y (List.mem_cons_of_mem _ hy)) ?_
    have h1 := fmts_acc (interactive := interactive) (flg := flg) (acc := ([], [])) Fmts.nil
      (hx x (List.mem_cons_self ..)) 0
    rw [if_pos rfl] at h1
    simpa [List.intercalate] using h1

/-- The formatted text. -/
theorem gprint_text (interactive flg : Bool) {xs : List Item} (hx : ∀ x ∈ xs, x.ok) :
    pyFormat (collect interactive flg (xs.map Item.escape)).1
      (collect interactive flg (xs.map Item.escape)).2 =
      some ((sepOf interactive).intercalate (formula flg xs)) := (collect_fmts interactive flg hx).result

theorem formula_ne_nil (flg : Bool) (xs : List Item) : formula flg xs ≠ [] := by
  cases xs with
  | nil => simp [formula]
  | cons x xs =>
    rw [formula_cons]
    have : ∀ (xs : List Item) (L : List (List Char)), L ≠ [] →
        xs.foldl (fun L y => glue L (itemLines flg y)) L ≠ [] := by
      intro xs
      induction xs with
      | nil => intro L h; exact h
      | cons x xs ih => intro L h; exact ih _ (glue_ne_nil h)
    exact this xs _ (by simp)

theorem equation_eq (l : List Char) : equation l = beginEq ++ l ++ endEq := rfl

theorem intercalate_equations (c : Char) {L : List (List Char)} (hL : L ≠ []) :
    beginEq ++ (endEq ++ [c] ++ beginEq).intercalate L ++ endEq = [c].intercalate (L.map equation) := by
  induction L with
  | nil => exact absurd rfl hL
  | cons a L ih =>
    cases L with
    | nil => simp [List.intercalate, equation_eq]
    | cons b L =>
      have := ih (by simp)
      rw [List.map_cons] at this
      rw [List.map_cons, List.map_cons, List.intercalate_cons_cons, List.intercalate_cons_cons,
        ← this, equation_eq]
      simp only [List.append_assoc]

end GA.GPrint
