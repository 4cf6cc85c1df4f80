import Verif.Proofs.Parser

/-!
# `_parse_paren` on balanced lines

A balanced line is the text of a list of items, each a symbol or a group.
-/

namespace GA.Parser

/-- A symbol that is not a parenthesis, or a group in parentheses. -/
inductive It
  | tk (t : Tk)
  | grp (l : List It)

/-- Induction over lists of items. -/
theorem It.induct {P : List It → Prop} (nil : P []) (tk : ∀ t T, P T → P (.tk t :: T))
    (grp : ∀ l T, P l → P T → P (.grp l :: T)) : ∀ T, P T
  | [] => nil
  | .tk t :: T => tk t T (It.induct nil tk grp T)
  | .grp l :: T => grp l T (It.induct nil tk grp l) (It.induct nil tk grp T)

/-- The text of a list of items. -/
def renders : List It → Line
  | [] => []
  | .tk t :: T => t :: renders T
  | .grp l :: T => .ch '(' :: (renders l ++ .ch ')' :: renders T)

/-- The symbols are not parentheses. -/
def Good : List It → Prop
  | [] => True
  | .tk t :: T => isParen t = false ∧ Good T
  | .grp l :: T => Good l ∧ Good T

@[simp] theorem renders_nil : renders [] = [] := by rw [renders]
@[simp] theorem renders_tk (t : Tk) (T : List It) : renders (.tk t :: T) = t :: renders T := by
  rw [renders]
@[simp] theorem renders_grp (l T : List It) :
    renders (.grp l :: T) = .ch '(' :: (renders l ++ .ch ')' :: renders T) := by rw [renders]

theorem good_nil : Good [] := by rw [Good]; trivial
theorem good_tk {t : Tk} {T : List It} : Good (.tk t :: T) ↔ isParen t = false ∧ Good T := by rw [Good]
theorem good_grp {l T : List It} : Good (.grp l :: T) ↔ Good l ∧ Good T := by rw [Good]

theorem renders_append (a b : List It) : renders (a ++ b) = renders a ++ renders b := by
  induction a using It.induct with
  | nil => simp
  | tk t T ih => simp [ih]
  | grp l T _ ih => simp [ih]

theorem good_append {a b : List It} : Good (a ++ b) ↔ Good a ∧ Good b := by
  induction a using It.induct with
  | nil => simp [good_nil]
  | tk t T ih => rw [List.cons_append, good_tk, good_tk, ih, and_assoc]
  | grp l T _ ih => rw [List.cons_append, good_grp, good_grp, ih, and_assoc]

theorem not_open {t : Tk} (h : isParen t = false) : t ≠ .ch '(' := by
  rintro rfl; simp [isParen] at h

theorem not_close {t : Tk} (h : isParen t = false) : t ≠ .ch ')' := by
  rintro rfl; simp [isParen] at h

/-- A balanced line can be read in one way only. -/
theorem renders_inj : ∀ (a b : List It), Good a → Good b → ∀ x y : Line,
    renders a ++ .ch ')' :: x = renders b ++ .ch ')' :: y → a = b ∧ x = y := by
  intro a
  induction a using It.induct with
  | nil =>
    intro b _ hb x y h
    rcases b with _ | ⟨_ | l, b⟩
    · simpa using h
    · rw [good_tk] at hb
      simp at h
      exact absurd h.1.symm (not_close hb.1)
    · simp at h
  | tk t T ih =>
    intro b ha hb x y h
    rw [good_tk] at ha
    rcases b with _ | ⟨s | l, b⟩
    · simp at h
      exact absurd h.1 (not_close ha.1)
    · rw [good_tk] at hb
      simp only [renders_tk, List.cons_append, List.cons.injEq] at h
      obtain ⟨h1, h2⟩ := ih b ha.2 hb.2 x y h.2
      exact ⟨by rw [h.1, h1], h2⟩
    · simp at h
      exact absurd h.1 (not_open ha.1)
  | grp l T ihl ihT =>
    intro b ha hb x y h
    rw [good_grp] at ha
    rcases b with _ | ⟨s | m, b⟩
    · simp at h
    · rw [good_tk] at hb
      simp at h
      exact absurd h.1.symm (not_open hb.1)
    · rw [good_grp] at hb
      simp only [renders_grp, List.cons_append, List.append_assoc, List.cons.injEq, true_and] at h
      obtain ⟨h1, h2⟩ := ihl m ha.1 hb.1 _ _ h
      obtain ⟨h3, h4⟩ := ihT b ha.2 hb.2 _ _ h2
      exact ⟨by rw [h1, h3], h4⟩

/-! ### `str.replace` of a group -/

theorem replaceFuel_mono {pat rep : Line} (hp : pat ≠ []) (k : ℕ) (l : Line) (hk : l.length ≤ k) :
    replaceFuel pat rep k l = replace l pat rep := by
  rw [replace]
  have key : ∀ (k k' : ℕ) (l : Line), l.length ≤ k → l.length ≤ k' →
      replaceFuel pat rep k l = replaceFuel pat rep k' l := by
    intro k
    induction k with
    | zero =>
      intro k' l h1 _
      obtain rfl := List.length_eq_zero_iff.mp (by omega : l.length = 0)
      cases k' <;> rfl
    | succ k ih =>
      intro k' l h1 h2
      cases l with
      | nil => cases k' <;> rfl
      | cons x l =>
        cases k' with
        | zero => simp at h2
        | succ k' =>
          simp only [List.length_cons] at h1 h2
          rw [replaceFuel, replaceFuel]
          have hpl : 1 ≤ pat.length := List.length_pos_iff.mpr hp
          split_ifs
          · rw [ih k' _ (by simp; omega) (by simp; omega)]
          · rw [ih k' _ (by omega) (by omega)]
  exact key k _ l hk le_rfl

theorem replace_nil {pat rep : Line} : replace [] pat rep = [] := rfl

theorem replace_pos {pat rep : Line} (hp : pat ≠ []) {l : Line} :
    replace (pat ++ l) pat rep = rep ++ replace l pat rep := by
  obtain ⟨x, p, rfl⟩ := List.exists_cons_of_ne_nil hp
  rw [replace, List.cons_append, List.length_cons, replaceFuel, if_pos]
  · rw [← List.cons_append, List.drop_left, replaceFuel_mono hp]
    simp
  · exact List.isPrefixOf_iff_prefix.mpr ⟨l, rfl⟩

theorem replace_neg {pat rep : Line} (hp : pat ≠ []) {x : Tk} {l : Line} (h : ¬ pat <+: x :: l) :
    replace (x :: l) pat rep = x :: replace l pat rep := by
  rw [replace, List.length_cons, replaceFuel, if_neg, replaceFuel_mono hp _ _ le_rfl]
  exact fun h' => h (List.isPrefixOf_iff_prefix.mp h')

open Classical in
/-- Every group with the items `pat` is replaced by the token. -/
noncomputable def replaceIt (pat : List It) (t : Tk) : List It → List It
  | [] => []
  | .tk s :: T => .tk s :: replaceIt pat t T
  | .grp l :: T => (if l = pat then .tk t else .grp (replaceIt pat t l)) :: replaceIt pat t T

/-- The text of a group. -/
def gtext (l : List It) : Line := renders [.grp l]

theorem gtext_eq (l : List It) : gtext l = .ch '(' :: (renders l ++ [.ch ')']) := by simp [gtext]

theorem gtext_ne (l : List It) : gtext l ≠ [] := by simp [gtext]

theorem renders_grp' (l T : List It) : renders (.grp l :: T) = gtext l ++ renders T := by
  rw [gtext, ← renders_append]; rfl

theorem gtext_prefix {l m : List It} (hl : Good l) (hm : Good m) {x : Line}
    (h : gtext l <+: .ch '(' :: (renders m ++ .ch ')' :: x)) : l = m := by
  obtain ⟨y, hy⟩ := h
  rw [gtext_eq] at hy
  simp only [List.cons_append, List.append_assoc, List.cons.injEq, true_and, List.nil_append] at hy
  exact (renders_inj l m hl hm _ _ hy).1

theorem gtext_inj {l m : List It} (hl : Good l) (hm : Good m) (h : gtext l = gtext m) : l = m :=
  gtext_prefix hl hm (x := []) (by rw [h, gtext_eq])

theorem replace_renders (pat : List It) (hp : Good pat) (t : Tk) (T : List It) (hT : Good T)
    (rest : Line) : replace (renders T ++ rest) (gtext pat) [t] =
      renders (replaceIt pat t T) ++ replace rest (gtext pat) [t] := by
  induction T using It.induct generalizing rest with
  | nil => simp [replaceIt]
  | tk s T ih =>
    rw [good_tk] at hT
    rw [replaceIt, renders_tk, renders_tk, List.cons_append, replace_neg (gtext_ne _), ih hT.2]
    · rfl
    · rintro ⟨y, hy⟩
      rw [gtext_eq] at hy
      simp only [List.cons_append, List.cons.injEq] at hy
      exact not_open hT.1 hy.1.symm
  | grp l T ihl ihT =>
    rw [good_grp] at hT
    rw [replaceIt]
    by_cases h : l = pat
    · rw [if_pos h, h, renders_grp', List.append_assoc, replace_pos (gtext_ne _), ihT hT.2, renders_tk]
      rfl
    · rw [if_neg h, renders_grp, renders_grp, List.cons_append, replace_neg (gtext_ne _),
        List.append_assoc, ihl hT.1, List.cons_append, List.cons_append, replace_neg (gtext_ne _),
        ihT hT.2]
      · simp
      · rintro ⟨y, hy⟩
        rw [gtext_eq] at hy
        simp at hy
      · rw [List.append_assoc]
        intro h'
        exact h (gtext_prefix hp hT.1 h').symm

theorem good_replaceIt {pat : List It} {t : Tk} (ht : isParen t = false) {T : List It} (h : Good T) :
    Good (replaceIt pat t T) := by
  induction T using It.induct with
  | nil => rw [replaceIt]; exact h
  | tk s T ih =>
    rw [good_tk] at h
    rw [replaceIt, good_tk]
    exact ⟨h.1, ih h.2⟩
  | grp l T ihl ihT =>
    rw [good_grp] at h
    rw [replaceIt]
    split_ifs
    · rw [good_tk]; exact ⟨ht, ihT h.2⟩
    · rw [good_grp]; exact ⟨ihl h.1, ihT h.2⟩

/-- The group `grp p` occurs in the list, at any depth. -/
def inG (p : List It) : List It → Prop
  | [] => False
  | .tk _ :: T => inG p T
  | .grp l :: T => l = p ∨ inG p l ∨ inG p T

theorem replaceIt_of_not_inG {p : List It} {t : Tk} {T : List It} (h : ¬ inG p T) :
    replaceIt p t T = T := by
  induction T using It.induct with
  | nil => rw [replaceIt]
  | tk s T ih => rw [inG] at h; rw [replaceIt, ih h]
  | grp l T ihl ihT =>
    rw [inG, not_or, not_or] at h
    rw [replaceIt, if_neg h.1, ihl h.2.1, ihT h.2.2]

/-- No group of the list occurs strictly inside another one of the list. -/
def Sib (T : List It) : Prop := ∀ a b, It.grp a ∈ T → It.grp b ∈ T → ¬ inG a b

/-- In no list of items a group occurs strictly inside another one of the list. -/
def Clean (T : List It) : Prop := Sib T ∧ ∀ b, inG b T → Sib b

theorem inG_of_mem {p T : List It} (h : It.grp p ∈ T) : inG p T := by
  induction T with
  | nil => simp at h
  | cons x T ih =>
    rcases List.mem_cons.mp h with rfl | h'
    · rw [inG]; exact .inl rfl
    · cases x with
      | tk t => rw [inG]; exact ih h'
      | grp l => rw [inG]; exact .inr (.inr (ih h'))

theorem inG_trans {a b T : List It} (h1 : inG a b) (h2 : inG b T) : inG a T := by
  induction T using It.induct with
  | nil => rw [inG] at h2; exact h2.elim
  | tk s T ih => rw [inG] at h2 ⊢; exact ih h2
  | grp l T ihl ihT =>
    rw [inG] at h2 ⊢
    rcases h2 with rfl | h2 | h2
    · exact .inr (.inl h1)
    · exact .inr (.inl (ihl h2))
    · exact .inr (.inr (ihT h2))

theorem Clean.group {T : List It} (h : Clean T) {b : List It} (hb : inG b T) : Clean b :=
  ⟨h.2 b hb, fun c hc => h.2 c (inG_trans hc hb)⟩

theorem mem_renders_of_mem {t : Tk} {T : List It} (h : It.tk t ∈ T) : t ∈ renders T := by
  induction T with
  | nil => simp at h
  | cons x T ih =>
    rcases List.mem_cons.mp h with rfl | h'
    · simp
    · cases x with
      | tk t => simp [ih h']
      | grp l => simp [ih h']

/-- The list after some of its groups, those of `P`, have been replaced by tokens. -/
def Partly (c : ℕ) (P : List (List It)) : It → It → Prop
  | .tk t, y => y = .tk t
  | .grp l, y => (l ∈ P ∧ ∃ t, (isParen t = false ∧ IsC c t) ∧ y = .tk t) ∨ (l ∉ P ∧ y = .grp l)

theorem partly_step {c : ℕ} {P : List (List It)} {p : List It} {t : Tk} (ht : isParen t = false ∧ IsC c t)
    {T T' : List It} (h : List.Forall₂ (Partly c P) T T') (hp : ∀ b, It.grp b ∈ T → ¬ inG p b) :
    List.Forall₂ (Partly c (p :: P)) T (replaceIt p t T') := by
  induction h with
  | nil => rw [replaceIt]; exact .nil
  | @cons x y T T' hxy hT ih =>
    have ih := ih fun b hb => hp b (by simp [hb])
    cases x with
    | tk s =>
      obtain rfl : y = .tk s := hxy
      rw [replaceIt]
      exact .cons rfl ih
    | grp l =>
      rcases hxy with ⟨h1, s, hs, rfl⟩ | ⟨h1, rfl⟩
      · rw [replaceIt]
        exact .cons (.inl ⟨by simp [h1], s, hs, rfl⟩) ih
      · rw [replaceIt]
        refine .cons ?_ ih
        by_cases h2 : l = p
        · rw [if_pos h2]
          exact .inl ⟨by simp [h2], t, ht, rfl⟩
        · rw [if_neg h2, replaceIt_of_not_inG (hp l (by simp))]
          exact .inr ⟨by simp [h1, h2], rfl⟩

theorem partly_ne {c : ℕ} {P : List (List It)} {T T' : List It} (h : List.Forall₂ (Partly c P) T T')
    {p : List It} (hp : It.grp p ∈ T) (hf : ∀ t ∈ renders p, ¬ IsC c t) : T' ≠ p := by
  obtain ⟨i, hi, e⟩ := List.getElem_of_mem hp
  have hi' : i < T'.length := by rw [← h.length_eq]; exact hi
  have := List.Forall₂.get h hi hi'
  rw [List.get_eq_getElem, e] at this
  rintro rfl
  rcases this with ⟨-, t, ht, e'⟩ | ⟨-, e'⟩
  · refine hf t (mem_renders_of_mem ?_) ht.2
    rw [← e']; exact List.getElem_mem _
  · have h1 : It.grp T' ∈ T' := by
      have := List.get_mem T' ⟨i, hi'⟩
      rwa [e'] at this
    have := List.sizeOf_lt_of_mem h1
    simp at this

/-- All groups of a clean list, in whatever order, are replaced by tokens. -/
theorem fold_replace {c : ℕ} {T : List It} (hT : Good T)
    (hc : Sib T)
    (gs : List (Line × Tk)) (hg : ∀ g ∈ gs, (∃ p, It.grp p ∈ T ∧ g.1 = gtext p) ∧
      (isParen g.2 = false ∧ IsC c g.2))
    (hall : ∀ p, It.grp p ∈ T → ∃ g ∈ gs, g.1 = gtext p) (pre post : Line)
    (hgood : ∀ p, It.grp p ∈ T → Good p ∧ ∀ t ∈ renders p, ¬ IsC c t)
    (hpre : ∀ p, It.grp p ∈ T → ∀ m, Good m → m ≠ p →
      ∀ t, replace (pre ++ renders m ++ post) (gtext p) [t] =
        pre ++ replace (renders m) (gtext p) [t] ++ post) :
    ∃ m, (∀ t ∈ m, isParen t = false) ∧
      gs.foldl (fun cur g => replace cur g.1 [g.2]) (pre ++ renders T ++ post) = pre ++ m ++ post := by
  have key : ∀ (gs : List (Line × Tk)), (∀ g ∈ gs, (∃ p, It.grp p ∈ T ∧ g.1 = gtext p) ∧
      (isParen g.2 = false ∧ IsC c g.2)) → ∀ (P : List (List It)) (T' : List It), List.Forall₂ (Partly c P) T T' →
      Good T' → ∃ P' T'', List.Forall₂ (Partly c P') T T'' ∧ (∀ p ∈ P, p ∈ P') ∧
        (∀ g ∈ gs, ∀ p, It.grp p ∈ T → g.1 = gtext p → p ∈ P') ∧
        gs.foldl (fun cur g => replace cur g.1 [g.2]) (pre ++ renders T' ++ post) =
          pre ++ renders T'' ++ post := by
    intro gs
    induction gs with
    | nil => exact fun _ P T' h _ => ⟨P, T', h, fun p h => h, by simp, rfl⟩
    | cons g gs ih =>
      intro hg P T' h hG
      obtain ⟨⟨p, hp, hgp⟩, ht⟩ := hg g (by simp)
      obtain ⟨P', T'', h1, h2, h3, h4⟩ := ih (fun g' h' => hg g' (by simp [h'])) (p :: P) _
        (partly_step ht h fun b hb => hc p b hp hb) (good_replaceIt ht.1 hG)
      refine ⟨P', T'', h1, fun x hx => h2 x (by simp [hx]), ?_, ?_⟩
      · intro g' hg' x hx e
        rcases List.mem_cons.mp hg' with rfl | hg'
        · rw [hgp] at e
          obtain rfl := gtext_inj (hgood p hp).1 (hgood x hx).1 e
          exact h2 p (by simp)
        · exact h3 g' hg' x hx e
      · rw [List.foldl_cons, ← h4, hgp, hpre p hp T' hG (partly_ne h hp (hgood p hp).2)]
        have := replace_renders p (hgood p hp).1 g.2 T' hG []
        rw [List.append_nil, replace_nil, List.append_nil] at this
        rw [this]
  have hself : List.Forall₂ (Partly c []) T T := by
    refine List.forall₂_same.mpr fun x _ => ?_
    cases x with
    | tk t => rfl
    | grp l => exact .inr ⟨by simp, rfl⟩
  obtain ⟨P', T'', h1, -, h3, h4⟩ := key gs hg [] T hself hT
  have hP : ∀ p, It.grp p ∈ T → p ∈ P' := by
    intro p hp
    obtain ⟨g, hg', e⟩ := hall p hp
    exact h3 g hg' p hp e
  refine ⟨renders T'', ?_, h4⟩
  clear h3 h4 key hself hall hg hc hpre hgood
  induction h1 with
  | nil => simp
  | @cons x y T T'' hxy hT' ih =>
    have ih' : ∀ t ∈ renders T'', isParen t = false := by
      refine ih ?_ fun p hp => hP p (by simp [hp])
      cases x with
      | tk s => rw [good_tk] at hT; exact hT.2
      | grp l => rw [good_grp] at hT; exact hT.2
    cases x with
    | tk s =>
      obtain rfl : y = .tk s := hxy
      rw [good_tk] at hT
      intro t ht
      rw [renders_tk, List.mem_cons] at ht
      rcases ht with rfl | ht
      · exact hT.1
      · exact ih' t ht
    | grp l =>
      rcases hxy with ⟨-, s, hs, rfl⟩ | ⟨h, -⟩
      · intro t ht
        rw [renders_tk, List.mem_cons] at ht
        rcases ht with rfl | ht
        · exact hs.1
        · exact ih' t ht
      · exact absurd (hP l (by simp)) h

/-! ### The scan -/

/-- The length of the text. -/
def size (T : List It) : ℕ := (renders T).length

@[simp] theorem size_nil : size [] = 0 := by simp [size]
@[simp] theorem size_tk (t : Tk) (T : List It) : size (.tk t :: T) = size T + 1 := by simp [size]
@[simp] theorem size_grp (l T : List It) : size (.grp l :: T) = size l + size T + 2 := by
  simp [size]; omega

/-- The entries of `paren_lst` for a balanced line. -/
def parens : List It → ℕ → ℕ → List Paren
  | [], _, _ => []
  | .tk _ :: T, i, lev => parens T (i + 1) lev
  | .grp l :: T, i, lev => ⟨lev + 1, i, some (i + size l + 1)⟩ ::
      (parens l (i + 1) (lev + 1) ++ parens T (i + size l + 2) lev)

theorem level_parens (T : List It) : ∀ i lev, ∀ p ∈ parens T i lev, lev + 1 ≤ p.level := by
  induction T using It.induct with
  | nil => intro i lev p hp; simp [parens] at hp
  | tk s T ih => intro i lev p hp; rw [parens] at hp; exact ih _ _ p hp
  | grp l T ihl ihT =>
    intro i lev p hp
    rw [parens, List.mem_cons, List.mem_append] at hp
    rcases hp with rfl | hp | hp
    · simp
    · have := ihl _ _ p hp; omega
    · exact ihT _ _ p hp

theorem closeLast_append {lev j : ℕ} (ps : List Paren) (p : Paren) (hp : p.level = lev)
    (Q : List Paren) (hQ : ∀ q ∈ Q, q.level ≠ lev) :
    closeLast lev j (ps ++ p :: Q) = ps ++ { p with stop := some j } :: Q := by
  induction ps with
  | nil =>
    rw [List.nil_append, closeLast, if_neg, if_pos hp]
    · rfl
    · simpa using hQ
  | cons x ps ih =>
    rw [List.cons_append, closeLast, if_pos, ih]
    · rfl
    · simp [hp]

theorem scan_renders (T : List It) : ∀ (i lev : ℕ) (ps : List Paren) (rest : Line), Good T →
    scan (renders T ++ rest) i lev ps = scan rest (i + size T) lev (ps ++ parens T i lev) := by
  induction T using It.induct with
  | nil => intro i lev ps rest _; simp [parens]
  | tk s T ih =>
    intro i lev ps rest h
    rw [good_tk] at h
    rw [renders_tk, List.cons_append, scan, if_neg (not_open h.1), if_neg (not_close h.1), ih _ _ _ _ h.2,
      size_tk, parens]
    congr 1
    omega
  | grp l T ihl ihT =>
    intro i lev ps rest h
    rw [good_grp] at h
    rw [renders_grp, List.cons_append, scan, if_pos rfl, List.append_assoc, ihl _ _ _ _ h.1,
      List.cons_append, scan, if_neg (by simp), if_pos rfl, if_neg (by omega), List.append_assoc,
      List.cons_append, List.nil_append, closeLast_append (lev := lev + 1) ps ⟨lev + 1, i, none⟩ rfl _ (fun q hq => by
        have := level_parens l _ _ q hq; omega), ihT _ _ _ _ h.2, parens, size_grp]
    congr 1
    · omega
    · simp only [List.append_assoc, List.cons_append]
      rw [show i + 1 + size l + 1 = i + size l + 2 by omega, show i + 1 + size l = i + size l + 1 by omega,
        Nat.add_sub_cancel]

/-! ### The groups of a level -/

/-- The groups at depth `k`, with the places of their parentheses; `i` is the place of the list. -/
def locs : List It → ℕ → ℕ → List (ℕ × ℕ × List It)
  | [], _, _ => []
  | .tk _ :: T, i, k => locs T (i + 1) k
  | .grp l :: T, i, 0 => (i, i + size l + 1, l) :: locs T (i + size l + 2) 0
  | .grp l :: T, i, k + 1 => locs l (i + 1) k ++ locs T (i + size l + 2) (k + 1)

theorem ofLevel_append (a b : List Paren) (k : ℕ) : ofLevel (a ++ b) k = ofLevel a k ++ ofLevel b k := by
  simp [ofLevel]

theorem ofLevel_low (T : List It) (i lev k : ℕ) (hk : k ≤ lev) : ofLevel (parens T i lev) k = [] := by
  rw [ofLevel, List.map_eq_nil_iff, List.filter_eq_nil_iff]
  intro p hp
  have := level_parens T i lev p hp
  simp
  omega

theorem ofLevel_parens (T : List It) : ∀ i lev k, ofLevel (parens T i lev) (lev + 1 + k) =
    (locs T i k).map fun x => (x.1, x.2.1) := by
  induction T using It.induct with
  | nil => intro i lev k; simp [parens, locs, ofLevel]
  | tk s T ih => intro i lev k; rw [parens, locs, ih]
  | grp l T ihl ihT =>
    intro i lev k
    rw [parens, ← List.singleton_append, ofLevel_append, ofLevel_append]
    cases k with
    | zero =>
      rw [locs, ihT, ofLevel_low _ _ _ _ (by omega)]
      simp [ofLevel]
    | succ k =>
      rw [locs, ihT, show lev + 1 + (k + 1) = (lev + 1) + 1 + k by omega, ihl]
      simp [ofLevel]
      omega

theorem locs_text (T : List It) : ∀ i k, ∀ x ∈ locs T i k, inG x.2.2 T ∧
    ∃ A B, renders T = A ++ gtext x.2.2 ++ B ∧ x.1 = i + A.length ∧
      x.2.1 = x.1 + size x.2.2 + 1 := by
  induction T using It.induct with
  | nil => intro i k x hx; simp [locs] at hx
  | tk s T ih =>
    intro i k x hx
    rw [locs] at hx
    obtain ⟨h0, A, B, h1, h2, h3⟩ := ih _ _ x hx
    refine ⟨by rw [inG]; exact h0, s :: A, B, by simp [h1], by simp; omega, h3⟩
  | grp l T ihl ihT =>
    intro i k x hx
    have hT : ∀ k, x ∈ locs T (i + size l + 2) k → inG x.2.2 (.grp l :: T) ∧
        ∃ A B, renders (.grp l :: T) = A ++ gtext x.2.2 ++ B ∧ x.1 = i + A.length ∧
        x.2.1 = x.1 + size x.2.2 + 1 := by
      intro k hx
      obtain ⟨h0, A, B, h1, h2, h3⟩ := ihT _ _ x hx
      refine ⟨by rw [inG]; exact .inr (.inr h0), gtext l ++ A, B, by rw [renders_grp', h1]; simp, ?_, h3⟩
      rw [h2, List.length_append, gtext_eq]
      simp [size]
      omega
    cases k with
    | zero =>
      rw [locs, List.mem_cons] at hx
      rcases hx with rfl | hx
      · refine ⟨by rw [inG]; exact .inl rfl, [], renders T, by rw [renders_grp']; simp, by simp, rfl⟩
      · exact hT _ hx
    | succ k =>
      rw [locs, List.mem_append] at hx
      rcases hx with hx | hx
      · obtain ⟨h0, A, B, h1, h2, h3⟩ := ihl _ _ x hx
        refine ⟨by rw [inG]; exact .inr (.inl h0), .ch '(' :: A, B ++ .ch ')' :: renders T, ?_, ?_, h3⟩
        · rw [renders_grp, h1]; simp
        · rw [h2]; simp; omega
      · exact hT _ hx

theorem locs_range (T : List It) : ∀ i k, ∀ x ∈ locs T i k, i ≤ x.1 ∧ x.1 < x.2.1 ∧ x.2.1 < i + size T := by
  intro i k x hx
  obtain ⟨-, A, B, h1, h2, h3⟩ := locs_text T i k x hx
  have := congrArg List.length h1
  rw [gtext_eq] at this
  simp at this
  simp only [size] at *
  omega

theorem locs_order (T : List It) : ∀ i k, (locs T i k).Pairwise fun x y => x.2.1 < y.1 := by
  induction T using It.induct with
  | nil => intro i k; simp [locs]
  | tk s T ih => intro i k; rw [locs]; exact ih _ _
  | grp l T ihl ihT =>
    intro i k
    cases k with
    | zero =>
      rw [locs, List.pairwise_cons]
      refine ⟨fun y hy => ?_, ihT _ _⟩
      have := (locs_range _ _ _ y hy).1
      dsimp only
      omega
    | succ k =>
      rw [locs, List.pairwise_append]
      refine ⟨ihl _ _, ihT _ _, fun x hx y hy => ?_⟩
      have h1 := (locs_range _ _ _ x hx).2.2
      have h2 := (locs_range _ _ _ y hy).1
      omega

theorem locs_succ (T : List It) : ∀ i k, locs T i (k + 1) =
    (locs T i k).flatMap fun x => locs x.2.2 (x.1 + 1) 0 := by
  induction T using It.induct with
  | nil => intro i k; simp [locs]
  | tk s T ih => intro i k; rw [locs, locs, ih]
  | grp l T ihl ihT =>
    intro i k
    cases k with
    | zero => rw [locs, locs, ihT, List.flatMap_cons]
    | succ k => rw [locs, locs, ihT, ihl, List.flatMap_append]

theorem mem_locs_zero {l T : List It} : ∀ {i}, It.grp l ∈ T ↔ ∃ x ∈ locs T i 0, x.2.2 = l := by
  induction T with
  | nil => intro i; simp [locs]
  | cons x T ih =>
    intro i
    cases x with
    | tk t => rw [locs, ← ih]; simp
    | grp m =>
      rw [locs, List.mem_cons, ih (i := i + size m + 2)]
      simp [eq_comm]

theorem good_of_inG {l T : List It} (h : Good T) (hl : inG l T) : Good l := by
  induction T using It.induct with
  | nil => rw [inG] at hl; exact hl.elim
  | tk s T ih => rw [inG] at hl; exact ih (good_tk.mp h).2 hl
  | grp m T ihm ihT =>
    rw [inG] at hl
    rw [good_grp] at h
    rcases hl with rfl | hl | hl
    · exact h.1
    · exact ihm h.1 hl
    · exact ihT h.2 hl

theorem mem_renders_of_inG {l T : List It} (hl : inG l T) {t : Tk} (h : t ∈ renders l) :
    t ∈ renders T := by
  induction T using It.induct with
  | nil => rw [inG] at hl; exact hl.elim
  | tk s T ih => rw [inG] at hl; simp [ih hl]
  | grp m T ihm ihT =>
    rw [inG] at hl
    rcases hl with rfl | hl | hl
    · simp [h]
    · simp [ihm hl]
    · simp [ihT hl]

theorem mkLevel_get (c k ig : ℕ) (T : List It) :
    (mkLevel c (renders T) (parens T 0 0) (k + 1))[ig]? = (locs T 0 k)[ig]?.map fun x =>
      ⟨gtext x.2.2, .tok c (k + 1) ig, gtext x.2.2,
        (ofLevel (parens T 0 0) k).findIdx (containsInterval (x.1, x.2.1))⟩ := by
  rw [mkLevel, List.getElem?_mapIdx, show k + 1 = 0 + 1 + k by omega, ofLevel_parens, List.getElem?_map]
  cases h : (locs T 0 k)[ig]? with
  | none => rfl
  | some x =>
    obtain ⟨-, A, B, h1, h2, h3⟩ := locs_text T 0 k x (List.mem_of_getElem? h)
    have : (renders T).drop x.1 = gtext x.2.2 ++ B := by
      rw [h1, h2, Nat.zero_add, List.append_assoc, List.drop_left]
    have ht : ((renders T).drop x.1).take (x.2.1 + 1 - x.1) = gtext x.2.2 := by
      rw [this, List.take_left']
      rw [h3, gtext_eq]
      simp [size]
      omega
    simp only [Option.map_some, ht]
    simp

theorem foldInto_get (level : List Group) : ∀ (down : List Group) (p : ℕ),
    (foldInto down level)[p]? = down[p]?.map fun d => ⟨d.text, d.token,
      (level.filter fun g => g.parent = p).foldl (fun cur g => replace cur g.text [g.token]) d.cur,
      d.parent⟩ := by
  induction level with
  | nil => intro down p; simp [foldInto]
  | cons g gs ih =>
    intro down p
    have := ih (down.modify g.parent fun d => { d with cur := replace d.cur g.text [g.token] }) p
    rw [foldInto] at this
    rw [foldInto, List.foldl_cons, this, List.getElem?_modify]
    by_cases h : g.parent = p
    · rw [List.filter_cons_of_pos (by simpa using h)]
      simp [h, Function.comp_def]
    · rw [List.filter_cons_of_neg (by simpa using h)]
      simp [h]

theorem foldLevels_get : ∀ (Ls : List (List Group)) (k : ℕ),
    (foldLevels Ls)[k]? = Ls[k]?.map fun L => foldInto L (Ls[k + 1]?.getD [])
  | [], k => by simp [foldLevels]
  | [L], k => by
    cases k with
    | zero => simp [foldLevels, foldInto]
    | succ k => simp [foldLevels]
  | L :: L' :: Ls, k => by
    rw [foldLevels]
    cases k with
    | zero => simp
    | succ k => simpa using foldLevels_get (L' :: Ls) k

theorem le_foldl_max (l : List ℕ) (a : ℕ) : a ≤ l.foldl max a ∧ ∀ x ∈ l, x ≤ l.foldl max a := by
  induction l generalizing a with
  | nil => simp
  | cons y l ih =>
    obtain ⟨h1, h2⟩ := ih (max a y)
    rw [List.foldl_cons]
    refine ⟨(le_max_left _ _).trans h1, fun x hx => ?_⟩
    rcases List.mem_cons.mp hx with rfl | hx
    · exact (le_max_right _ _).trans h1
    · exact h2 x hx

theorem locs_maxLevel {T : List It} {k : ℕ} {x : ℕ × ℕ × List It} (h : x ∈ locs T 0 k) :
    k + 1 ≤ ((parens T 0 0).map Paren.level).foldl max 0 := by
  have h1 := ofLevel_parens T 0 0 k
  have h2 : (x.1, x.2.1) ∈ ofLevel (parens T 0 0) (0 + 1 + k) := by
    rw [h1]; exact List.mem_map_of_mem h
  rw [ofLevel, List.mem_map] at h2
  obtain ⟨p, hp, -⟩ := h2
  rw [List.mem_filter] at hp
  have := (le_foldl_max ((parens T 0 0).map Paren.level) 0).2 p.level (List.mem_map_of_mem hp.1)
  have h3 : p.level = 0 + 1 + k := by simpa using hp.2
  omega

/-- The parent of a group is the group that contains it. -/
theorem parent_spec {T : List It} {k p : ℕ} {x y : ℕ × ℕ × List It} (hx : (locs T 0 k)[p]? = some x)
    (hy : y ∈ locs T 0 (k + 1)) :
    (ofLevel (parens T 0 0) (k + 1)).findIdx (containsInterval (y.1, y.2.1)) = p ↔
      y ∈ locs x.2.2 (x.1 + 1) 0 := by
  rw [show k + 1 = 0 + 1 + k by omega, ofLevel_parens]
  have hin : ∀ {x y}, x ∈ locs T 0 k → y ∈ locs x.2.2 (x.1 + 1) 0 →
      containsInterval (y.1, y.2.1) (x.1, x.2.1) = true := by
    intro x y hx hy
    have h1 := locs_range _ _ _ y hy
    obtain ⟨-, A, B, -, -, h2⟩ := locs_text T 0 k x hx
    simp only [containsInterval, Bool.and_eq_true, decide_eq_true_eq]
    omega
  have hord : ∀ (a b : ℕ) (u v : ℕ × ℕ × List It), a < b → (locs T 0 k)[a]? = some u →
      (locs T 0 k)[b]? = some v → u.2.1 < v.1 := by
    intro a b u v hab hu hv
    obtain ⟨ha, rfl⟩ := List.getElem?_eq_some_iff.mp hu
    obtain ⟨hb, rfl⟩ := List.getElem?_eq_some_iff.mp hv
    exact List.pairwise_iff_getElem.mp (locs_order T 0 k) a b ha hb hab
  -- only one group contains `y`
  have huniq : ∀ (a b : ℕ) (u v : ℕ × ℕ × List It), (locs T 0 k)[a]? = some u →
      (locs T 0 k)[b]? = some v → containsInterval (y.1, y.2.1) (u.1, u.2.1) = true →
      containsInterval (y.1, y.2.1) (v.1, v.2.1) = true → a = b := by
    intro a b u v hu hv h1 h2
    have hy1 := locs_range _ _ _ y hy
    simp only [containsInterval, Bool.and_eq_true, decide_eq_true_eq] at h1 h2
    rcases Nat.lt_trichotomy a b with h | h | h
    · have := hord a b u v h hu hv; omega
    · exact h
    · have := hord b a v u h hv hu; omega
  have hxm := List.mem_of_getElem? hx
  rw [locs_succ, List.mem_flatMap] at hy
  obtain ⟨x', hx', hyx'⟩ := hy
  obtain ⟨p', hp', e'⟩ := List.getElem_of_mem hx'
  have hp'' : (locs T 0 k)[p']? = some x' := by rw [List.getElem?_eq_getElem hp', e']
  have hlt := List.getElem?_eq_some_iff.mp hx
  obtain ⟨hpl, hpe⟩ := hlt
  have hfind : ((locs T 0 k).map fun x => (x.1, x.2.1)).findIdx (containsInterval (y.1, y.2.1)) = p' := by
    rw [List.findIdx_eq (by simpa using hp')]
    refine ⟨by simp only [List.getElem_map, e']; exact hin hx' hyx', fun j hj => ?_⟩
    rw [List.getElem_map, Bool.eq_false_iff]
    intro h
    have hjl : j < (locs T 0 k).length := by omega
    have := huniq j p' _ x' (List.getElem?_eq_getElem hjl) hp'' h (hin hx' hyx')
    omega
  rw [hfind]
  constructor
  · rintro rfl
    rw [hp''] at hx
    obtain rfl := Option.some.inj hx
    exact hyx'
  · intro h
    exact huniq p' p x' x hp'' hx (hin hx' hyx') (hin hxm h)

/-- What `_parse_paren` does with a balanced line: at level 0 and in every group only the outermost
parentheses are left. -/
theorem parseParen_tree {c : ℕ} {T : List It} (hT : Good T) (hc : Clean T)
    (hf : ∀ t ∈ renders T, ¬ IsC c t) :
    ∃ l0 levels, parseParen c (renders T) = some (l0, levels) ∧ (∀ t ∈ l0, isParen t = false) ∧
      ∀ L ∈ levels, ∀ G ∈ L, ∃ l m, inG l T ∧ G.text = gtext l ∧ (∀ t ∈ m, isParen t = false) ∧
        G.cur = .ch '(' :: (m ++ [.ch ')']) := by
  rw [parseParen]
  split_ifs with hp
  · refine ⟨renders T, [], rfl, ?_, by simp⟩
    have hno : ∀ l, It.grp l ∉ T := by
      intro l hl
      rcases hp with hp | hp
      · refine hp ?_
        obtain ⟨a, b, rfl⟩ := List.append_of_mem hl
        rw [renders_append, renders_grp]; simp
      · refine hp ?_
        obtain ⟨a, b, rfl⟩ := List.append_of_mem hl
        rw [renders_append, renders_grp]; simp
    clear hp hc hf
    induction T with
    | nil => simp
    | cons x T ih =>
      cases x with
      | tk t =>
        rw [good_tk] at hT
        intro s hs
        rw [renders_tk, List.mem_cons] at hs
        rcases hs with rfl | hs
        · exact hT.1
        · exact ih hT.2 (fun l hl => hno l (by simp [hl])) s hs
      | grp l => exact absurd (by simp) (hno l)
  · have hscan : scan (renders T) 0 0 [] = some (parens T 0 0) := by
      have := scan_renders T 0 0 [] [] hT
      rw [List.append_nil, scan, if_pos rfl] at this
      exact this
    rw [hscan, Option.map_some]
    refine ⟨_, _, rfl, ?_, ?_⟩
    · set M := ((parens T 0 0).map Paren.level).foldl max 0
      set Ls := (List.range M).map fun k => mkLevel c (renders T) (parens T 0 0) (k + 1) with hLs
      have hfold : ∀ (gs : List Group) (l : Line), gs.foldl (fun line g => replace line g.text [g.token]) l =
          (gs.map fun g => (g.text, g.token)).foldl (fun cur g => replace cur g.1 [g.2]) l := by
        intro gs l
        rw [List.foldl_map]
      rw [hfold]
      have hmap : (((foldLevels Ls).headD []).map fun g => (g.text, g.token)) =
          (Ls.headD []).map fun g => (g.text, g.token) := by
        have e1 := foldLevels_headD_text Ls
        have e2 := foldLevels_headD Ls
        have := congrArg₂ List.zip e1 e2
        rwa [List.zip_map', List.zip_map'] at this
      rw [hmap]
      have hhead : ∀ g, g ∈ Ls.headD [] ↔ 0 < M ∧ g ∈ mkLevel c (renders T) (parens T 0 0) 1 := by
        intro g
        rw [hLs]
        cases hM : M with
        | zero => simp
        | succ M' => simp [List.range_succ_eq_map]
      have := fold_replace (c := c) hT hc.1 ((Ls.headD []).map fun g => (g.text, g.token)) ?_ ?_ [] [] ?_ ?_
      · obtain ⟨m, h1, h2⟩ := this
        simp only [List.nil_append, List.append_nil] at h2
        rw [h2]; exact h1
      · intro g hg
        obtain ⟨G, hG, rfl⟩ := List.mem_map.mp hg
        obtain ⟨-, hG⟩ := (hhead G).mp hG
        obtain ⟨i, hi⟩ := List.mem_iff_getElem?.mp hG
        rw [mkLevel_get c 0 i T] at hi
        obtain ⟨x, hx, rfl⟩ := Option.map_eq_some_iff.mp hi
        refine ⟨⟨x.2.2, mem_locs_zero.mpr ⟨x, List.mem_of_getElem? hx, rfl⟩, rfl⟩, by simp [isParen], rfl⟩
      · intro p hp'
        obtain ⟨x, hx, rfl⟩ := (mem_locs_zero (i := 0)).mp hp'
        obtain ⟨i, hi⟩ := List.mem_iff_getElem?.mp hx
        have hM := locs_maxLevel hx
        have := mkLevel_get c 0 i T
        rw [hi, Option.map_some] at this
        have hm := List.mem_of_getElem? this
        exact ⟨_, List.mem_map_of_mem ((hhead _).mpr ⟨by omega, hm⟩), rfl⟩
      · exact fun p hp' => ⟨good_of_inG hT (inG_of_mem hp'),
          fun t ht => hf t (mem_renders_of_inG (inG_of_mem hp') ht)⟩
      · intro p _ m _ _ t
        simp
    · set M := ((parens T 0 0).map Paren.level).foldl max 0 with hM
      set Ls := (List.range M).map fun k => mkLevel c (renders T) (parens T 0 0) (k + 1) with hLs
      intro L hL G hG
      obtain ⟨k, hk⟩ := List.mem_iff_getElem?.mp hL
      rw [foldLevels_get] at hk
      obtain ⟨L0, hL0, rfl⟩ := Option.map_eq_some_iff.mp hk
      obtain ⟨p, hp'⟩ := List.mem_iff_getElem?.mp hG
      rw [foldInto_get] at hp'
      obtain ⟨G0, hG0, rfl⟩ := Option.map_eq_some_iff.mp hp'
      have hLk : ∀ j, Ls[j]? = if j < M then some (mkLevel c (renders T) (parens T 0 0) (j + 1)) else none := by
        intro j
        rw [hLs, List.getElem?_map]
        split_ifs with h
        · simp [h]
        · simp [h]
      rw [hLk] at hL0
      split_ifs at hL0 with hkM
      obtain rfl := Option.some.inj hL0
      rw [mkLevel_get] at hG0
      obtain ⟨x, hx, rfl⟩ := Option.map_eq_some_iff.mp hG0
      have hxm := List.mem_of_getElem? hx
      obtain ⟨hxT, -⟩ := locs_text T 0 k x hxm
      have hup : ∀ g, g ∈ (Ls[k + 1]?.getD []) ↔ g ∈ mkLevel c (renders T) (parens T 0 0) (k + 1 + 1) := by
        intro g
        rw [hLk]
        split_ifs with h
        · simp
        · simp only [Option.getD_none, List.not_mem_nil, false_iff]
          intro hg
          obtain ⟨i, hi⟩ := List.mem_iff_getElem?.mp hg
          rw [mkLevel_get] at hi
          obtain ⟨y, hy, -⟩ := Option.map_eq_some_iff.mp hi
          have := locs_maxLevel (List.mem_of_getElem? hy)
          omega
      have hfold : ∀ (gs : List Group) (l : Line), gs.foldl (fun line g => replace line g.text [g.token]) l =
          (gs.map fun g => (g.text, g.token)).foldl (fun cur g => replace cur g.1 [g.2]) l := by
        intro gs l
        rw [List.foldl_map]
      rw [hfold]
      have hgx := good_of_inG hT hxT
      have := fold_replace (c := c) hgx (hc.2 _ hxT)
        (((Ls[k + 1]?.getD []).filter fun g => g.parent = p).map fun g => (g.text, g.token))
        ?_ ?_ [.ch '('] [.ch ')'] ?_ ?_
      · obtain ⟨m, h1, h2⟩ := this
        refine ⟨x.2.2, m, hxT, rfl, h1, ?_⟩
        rw [gtext_eq]
        simpa using h2
      · intro g hg
        obtain ⟨G, hG, rfl⟩ := List.mem_map.mp hg
        rw [List.mem_filter, hup] at hG
        obtain ⟨hG, hpar⟩ := hG
        obtain ⟨i, hi⟩ := List.mem_iff_getElem?.mp hG
        rw [mkLevel_get] at hi
        obtain ⟨y, hy, rfl⟩ := Option.map_eq_some_iff.mp hi
        have := (parent_spec hx (List.mem_of_getElem? hy)).mp (by simpa using hpar)
        exact ⟨⟨y.2.2, mem_locs_zero.mpr ⟨y, this, rfl⟩, rfl⟩, by simp [isParen], rfl⟩
      · intro l hl
        obtain ⟨y, hy, rfl⟩ := (mem_locs_zero (i := x.1 + 1)).mp hl
        have hy' : y ∈ locs T 0 (k + 1) := by
          rw [locs_succ, List.mem_flatMap]; exact ⟨x, hxm, hy⟩
        obtain ⟨i, hi⟩ := List.mem_iff_getElem?.mp hy'
        have := mkLevel_get c (k + 1) i T
        rw [hi, Option.map_some] at this
        have hm := List.mem_of_getElem? this
        refine ⟨_, List.mem_map_of_mem (List.mem_filter.mpr ⟨(hup _).mpr hm, ?_⟩), rfl⟩
        simpa using (parent_spec hx hy').mpr hy
      · exact fun l hl => ⟨good_of_inG hgx (inG_of_mem hl),
          fun t ht => hf t (mem_renders_of_inG hxT (mem_renders_of_inG (inG_of_mem hl) ht))⟩
      · intro l hl m hm hne t
        have hgl := good_of_inG hgx (inG_of_mem hl)
        have h1 := replace_renders l hgl t m hm [.ch ')']
        have h2 := replace_renders l hgl t m hm []
        rw [List.append_nil, replace_nil, List.append_nil] at h2
        rw [List.singleton_append, List.cons_append, replace_neg (gtext_ne _) (fun h =>
          hne (gtext_prefix hgl hm h).symm), h1, h2, replace_neg (gtext_ne _), replace_nil]
        · rfl
        · rintro ⟨y, hy⟩
          rw [gtext_eq] at hy
          simp at hy

end GA.Parser
