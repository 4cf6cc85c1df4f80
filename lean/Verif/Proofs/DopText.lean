import Verif.Spec.DopText
import Verif.Proofs.Terms
import Verif.Proofs.SdopEq
import Verif.Proofs.Session
import Mathlib.Data.Finsupp.Multiset

/-! Lemmas on the text forms of differential operators. -/

set_option linter.unusedSectionVars false

namespace GA

/-! ### Sums -/

theorem Plain.tail {c : Char} {s : List Char} (h : Plain (c :: s)) : Plain s :=
  fun u v e => h (c :: u) v (by rw [e]; rfl)

theorem Plain.append {s t : List Char} (hs : Plain s) (ht : Plain t) : Plain (s ++ t) := by
  intro u v e
  rcases List.append_eq_append_iff.mp e with ⟨w, h1, h2⟩ | ⟨w, h1, h2⟩
  · exact ht w v h2
  · cases w with
    | nil => exact ht [] v (by simpa using h2.symm)
    | cons x w =>
      simp only [List.cons_append, List.cons.injEq] at h2
      obtain ⟨rfl, rfl⟩ := h2
      obtain ⟨a, b, w', e1, e2⟩ := hs u w h1
      exact ⟨a, b, w' ++ t, by rw [e1]; rfl, e2⟩

theorem plain_of_not_mem {s : List Char} (h : '+' ∉ s) : Plain s := by
  intro u v e
  exact absurd (by rw [e]; simp) h

theorem Plain.cons {c : Char} {s : List Char} (hc : c ≠ '+') (h : Plain s) : Plain (c :: s) :=
  Plain.append (s := [c]) (plain_of_not_mem (by simpa using hc.symm)) h

theorem replacePM_cons {m : List Char} {c : Char} (hc : c ≠ '+') (s : List Char) :
    replacePM m 0 (c :: s) = c :: replacePM m 0 s := by
  rw [replacePM, if_neg]
  simp [List.isPrefixOf, hc.symm]

theorem replacePM_plain {m s : List Char} (hs : Plain s) (r : List Char) :
    replacePM m 0 (s ++ r) = s ++ replacePM m 0 r := by
  induction s with
  | nil => rfl
  | cons c s ih =>
    by_cases hc : c = '+'
    · subst hc
      obtain ⟨a, b, w, rfl, hab⟩ := hs [] s rfl
      rw [List.cons_append, replacePM, if_neg, ih hs.tail]
      · rfl
      · intro h
        apply hab
        simp [List.isPrefixOf] at h
        exact ⟨h.1.symm, h.2.symm⟩
    · rw [List.cons_append, replacePM_cons hc, ih hs.tail]; rfl

theorem replacePM_further {m t : List Char} (ht : Plain t) (r : List Char) :
    replacePM m 0 (' ' :: '+' :: ' ' :: (t ++ ' ' :: r)) = further m t ++ replacePM m 0 (' ' :: r) := by
  rw [replacePM_cons (by decide)]
  cases t with
  | nil =>
    rw [List.nil_append, replacePM, if_neg (by simp [List.isPrefixOf]), replacePM_cons (by decide)]
    rfl
  | cons c t =>
    by_cases hc : c = '-'
    · subst hc
      rw [replacePM, if_pos (by simp [List.isPrefixOf])]
      rw [List.cons_append, replacePM, replacePM, replacePM_plain ht.tail]
      simp [further]
    · rw [replacePM, if_neg (by simp [List.isPrefixOf, Ne.symm hc]), replacePM_cons (by decide),
        replacePM_plain ht]
      have : further m (c :: t) = ' ' :: '+' :: ' ' :: c :: t := by
        unfold further
        split
        · rename_i h; cases h; exact absurd rfl hc
        · rfl
      rw [this]; rfl

theorem replacePM_rest {m : List Char} {ts : List (List Char)} (h : ∀ t ∈ ts, Plain t) :
    replacePM m 0 (' ' :: '+' :: ' ' :: ts.flatMap fun t => t ++ [' ', '+', ' ']) =
      ts.flatMap (further m) ++ [' ', '+', ' '] := by
  induction ts with
  | nil => simp [replacePM, List.isPrefixOf]
  | cons t ts ih =>
    have := replacePM_further (m := m) (h t (by simp))
      ('+' :: ' ' :: ts.flatMap fun t => t ++ [' ', '+', ' '])
    rw [ih fun u hu => h u (by simp [hu])] at this
    simpa [List.flatMap_cons] using this

/-- The loop and the replacement give the sum. -/
theorem join_eq {α : Type*} {m : List Char} {f : α → List Char} {l : List α}
    (h : ∀ a ∈ l, Plain (f a)) :
    dropLast3 (replacePM m 0 (l.foldl (fun acc a => acc ++ f a ++ [' ', '+', ' ']) [])) =
      sumText m (l.map f) := by
  have h1 : ∀ (l : List α) (acc : List Char),
      l.foldl (fun acc a => acc ++ f a ++ [' ', '+', ' ']) acc =
        acc ++ (l.map f).flatMap fun t => t ++ [' ', '+', ' '] := by
    intro l
    induction l with
    | nil => simp
    | cons a l ih => intro acc; rw [List.foldl_cons, ih]; simp
  rw [h1, List.nil_append]
  cases l with
  | nil => rfl
  | cons a l =>
    have h2 : ∀ t ∈ l.map f, Plain t := by
      intro t ht
      obtain ⟨b, hb, rfl⟩ := List.mem_map.mp ht
      exact h b (by simp [hb])
    have h3 := replacePM_rest (m := m) h2
    rw [List.map_cons, List.flatMap_cons, List.append_assoc, replacePM_plain (h a (by simp))]
    rw [show [' ', '+', ' '] ++ (l.map f).flatMap (fun t => t ++ [' ', '+', ' ']) =
      ' ' :: '+' :: ' ' :: (l.map f).flatMap (fun t => t ++ [' ', '+', ' ']) from rfl, h3, sumText,
      ← List.append_assoc]
    simp [dropLast3]

/-- No text of the printer has a plus sign followed by a minus sign. -/
structure Printer.OK {V R B : Type*} (P : Printer V R B) : Prop where
  coef : ∀ c, Plain (P.coef c)
  sym : ∀ x, Plain (P.sym x)
  base : ∀ b, Plain (P.base b)

section
variable {V : Type*} [LinearOrder V] {R : Type*} [CommRing R] [DecidableEq R] {B : Type*}
  {P : Printer V R B}

theorem plain_digits (n : ℕ) : Plain (digits n) := plain_of_not_mem (not_mem_strNat (by decide) n)

theorem Pdop.str_eq (P : Printer V R B) (p : Pdop V) :
    p.str P = if p.order = 0 then ['D', '{', '}'] else derivText P p := by
  have h : ∀ (l : List (V × ℕ)) (acc : List Char),
      l.foldl (fun s x => s ++ ('{' :: P.sym x.1 ++ ['}']) ++
        if 1 < x.2 then '^' :: digits x.2 else []) acc =
      acc ++ l.flatMap fun x => '{' :: P.sym x.1 ++ '}' :: if 1 < x.2 then '^' :: Nat.toDigits 10 x.2 else [] := by
    intro l
    induction l with
    | nil => simp
    | cons a l ih => intro acc; rw [List.foldl_cons, ih]; simp [digits]
  rw [Pdop.str, h]
  rfl

theorem plain_flatMap {α : Type*} {l : List α} {f : α → List Char} (h : ∀ a ∈ l, Plain (f a)) :
    Plain (l.flatMap f) := by
  induction l with
  | nil => exact plain_of_not_mem (by simp)
  | cons a l ih =>
    rw [List.flatMap_cons]
    exact (h a (by simp)).append (ih fun b hb => h b (by simp [hb]))

theorem plain_pdop (hP : P.OK) (p : Pdop V) : Plain (p.str P) := by
  rw [Pdop.str_eq]
  split_ifs
  · exact plain_of_not_mem (by decide)
  · refine Plain.cons (by decide) (plain_flatMap fun x _ => ?_)
    refine Plain.cons (by decide) ((hP.sym x.1).append (Plain.cons (by decide) ?_))
    split_ifs
    · exact Plain.cons (by decide) (plain_digits _)
    · exact plain_of_not_mem (by simp)

theorem plain_strTerm (hP : P.OK) (t : R × Pdop V) : Plain (Sdop.strTerm P t) := by
  have h1 := plain_pdop hP t.2
  have h2 := hP.coef t.1
  rw [Sdop.strTerm]
  split_ifs
  · exact h1
  · exact Plain.cons (by decide) h1
  · exact Plain.append (Plain.append (Plain.cons (by decide) h2) (plain_of_not_mem (by decide))) h1
  · exact Plain.append (Plain.append h2 (plain_of_not_mem (by decide))) h1

theorem plain_latexPd (hP : P.OK) (p : Pdop V) : Plain (p.latex P) := by
  by_cases h0 : p.order = 0
  · rw [Pdop.latex, if_pos h0]
    exact plain_of_not_mem (by simp)
  · rw [Pdop.latex, if_neg h0]
    have key : ∀ (l : List V) (acc : List Char), Plain acc → Plain (l.foldl (fun s x =>
        let i := (Dict.get? p x).getD 0
        s ++ "\\partial ".toList ++ P.sym x ++ if 1 < i then '^' :: '{' :: digits i ++ ['}'] else []) acc) := by
      intro l
      induction l with
      | nil => intro acc h; exact h
      | cons x l ih =>
        intro acc h
        rw [List.foldl_cons]
        refine ih _ (((h.append (plain_of_not_mem (by decide))).append (hP.sym x)).append ?_)
        split_ifs
        · exact Plain.append (Plain.cons (by decide) (Plain.cons (by decide) (plain_digits _)))
            (plain_of_not_mem (by decide))
        · exact plain_of_not_mem (by simp)
    refine Plain.append (key _ _ (Plain.append ?_ (plain_of_not_mem (by decide)))) (plain_of_not_mem (by decide))
    split_ifs
    · exact Plain.append (plain_of_not_mem (by decide)) (Plain.append (Plain.cons (by decide)
        (Plain.cons (by decide) (plain_digits _))) (plain_of_not_mem (by decide)))
    · exact plain_of_not_mem (by decide)

theorem plain_latexTerm (hP : P.OK) (t : R × Pdop V) : Plain (Sdop.latexTerm P t) := by
  have h1 := plain_latexPd hP t.2
  have h2 := hP.coef t.1
  rw [Sdop.latexTerm]
  split_ifs
  · exact plain_of_not_mem (by decide)
  · exact h1
  · exact plain_of_not_mem (by decide)
  · exact Plain.cons (by decide) h1
  · exact Plain.append (Plain.append (Plain.append (plain_of_not_mem (by decide)) h2)
      (plain_of_not_mem (by decide))) h1
  · exact Plain.append (Plain.append h2 (plain_of_not_mem (by decide))) h1

theorem Sdop.sorted_perm (s : Sdop R V) : s.sorted.Perm s := List.perm_insertionSort _ _

theorem Pdop.le_total (p q : Pdop V) : p.le q ∨ q.le p := by
  unfold Pdop.le
  rcases lt_trichotomy p.order q.order with h | h | h
  · exact Or.inl (Or.inl h)
  · rcases _root_.le_total p.symbols q.symbols with h' | h'
    · exact Or.inl (Or.inr ⟨h, h'⟩)
    · exact Or.inr (Or.inr ⟨h.symm, h'⟩)
  · exact Or.inr (Or.inl h)

theorem Pdop.le_trans {p q r : Pdop V} (h : p.le q) (h' : q.le r) : p.le r := by
  unfold Pdop.le at *
  rcases h with h | ⟨h, h1⟩ <;> rcases h' with h' | ⟨h', h2⟩
  · exact Or.inl (h.trans h')
  · exact Or.inl (h.trans_eq h')
  · exact Or.inl (h.trans_lt h')
  · exact Or.inr ⟨h.trans h', _root_.le_trans h1 h2⟩

theorem Sdop.sorted_pairwise (s : Sdop R V) : s.sorted.Pairwise fun t u => t.2.le u.2 := by
  have : Std.Total fun t u : R × Pdop V => t.2.le u.2 := ⟨fun t u => Pdop.le_total t.2 u.2⟩
  have : IsTrans (R × Pdop V) fun t u => t.2.le u.2 := ⟨fun _ _ _ => Pdop.le_trans⟩
  exact List.pairwise_insertionSort _ _

theorem Sdop.str_eq (hP : P.OK) {s : Sdop R V} (hs : s ≠ []) :
    s.str P = sumText ['-', ' '] (s.sorted.map (Sdop.strTerm P)) := by
  rw [Sdop.str, if_neg (by simpa using hs), join_eq fun t _ => plain_strTerm hP t]

theorem Sdop.latex_eq (hP : P.OK) {s : Sdop R V} (hs : s ≠ []) :
    s.latex P = sumText ['-', ' '] (s.sorted.map (Sdop.latexTerm P)) := by
  rw [Sdop.latex, if_neg (by simpa using hs), join_eq fun t _ => plain_latexTerm hP t]

/-! ### The text of a partial derivative determines it -/

theorem span_unique {c : Char} {s t u v : List Char} (hs : c ∉ s) (ht : c ∉ t)
    (h : s ++ c :: u = t ++ c :: v) : s = t ∧ u = v := by
  induction s generalizing t with
  | nil =>
    cases t with
    | nil => exact ⟨rfl, by simpa using h⟩
    | cons b t =>
      simp only [List.nil_append, List.cons_append, List.cons.injEq] at h
      exact absurd (by simp [h.1]) ht
  | cons a s ih =>
    cases t with
    | nil =>
      simp only [List.nil_append, List.cons_append, List.cons.injEq] at h
      exact absurd (by simp [h.1]) hs
    | cons b t =>
      simp only [List.cons_append, List.cons.injEq] at h
      obtain ⟨h1, h2⟩ := ih (fun m => hs (by simp [m])) (fun m => ht (by simp [m])) h.2
      exact ⟨by rw [h.1, h1], h2⟩

theorem digits_unique {m n : ℕ} {u v : List Char} (hu : ∀ c, u.head? = some c → c.isDigit = false)
    (hv : ∀ c, v.head? = some c → c.isDigit = false)
    (h : Nat.toDigits 10 m ++ u = Nat.toDigits 10 n ++ v) : m = n ∧ u = v := by
  have key : ∀ (s t : List Char), (∀ c ∈ s, c.isDigit = true) → (∀ c ∈ t, c.isDigit = true) →
      s ++ u = t ++ v → s = t ∧ u = v := by
    intro s
    induction s with
    | nil =>
      intro t _ ht h
      cases t with
      | nil => exact ⟨rfl, h⟩
      | cons b t =>
        have h : u = b :: (t ++ v) := h
        have := hu b (by rw [h]; rfl)
        rw [ht b (by simp)] at this
        exact absurd this (by simp)
    | cons a s ih =>
      intro t hs ht h
      cases t with
      | nil =>
        have h : a :: (s ++ u) = v := h
        have := hv a (by rw [← h]; rfl)
        rw [hs a (by simp)] at this
        exact absurd this (by simp)
      | cons b t =>
        simp only [List.cons_append, List.cons.injEq] at h
        obtain ⟨h1, h2⟩ := ih t (fun c hc => hs c (by simp [hc])) (fun c hc => ht c (by simp [hc])) h.2
        exact ⟨by rw [h.1, h1], h2⟩
  obtain ⟨h1, h2⟩ := key _ _ (fun c hc => isDigit_strNat hc) (fun c hc => isDigit_strNat hc) h
  exact ⟨strNat_inj h1, h2⟩

theorem derivText_inj (hinj : Function.Injective P.sym) (hb : ∀ x, '}' ∉ P.sym x) {p q : List (V × ℕ)}
    (hp : ∀ x ∈ p, x.2 ≠ 0) (hq : ∀ x ∈ q, x.2 ≠ 0) (h : derivText P p = derivText P q) : p = q := by
  rw [derivText, derivText, List.cons.injEq] at h
  replace h := h.2
  have hhead : ∀ l : List (V × ℕ), ∀ c, (l.flatMap fun x => '{' :: P.sym x.1 ++ '}' ::
      if 1 < x.2 then '^' :: Nat.toDigits 10 x.2 else []).head? = some c → c = '{' := by
    intro l c hc
    cases l with
    | nil => simp at hc
    | cons a l => simpa using hc.symm
  induction p generalizing q with
  | nil =>
    cases q with
    | nil => rfl
    | cons b q => simp at h
  | cons a p ih =>
    cases q with
    | nil => simp at h
    | cons b q =>
      rw [List.flatMap_cons, List.flatMap_cons] at h
      simp only [List.cons_append, List.append_assoc, List.cons.injEq, true_and] at h
      obtain ⟨h1, h2⟩ := span_unique (hb _) (hb _) h
      have h1 := hinj h1
      have ha := hp a (by simp)
      have hb' := hq b (by simp)
      have hd : ∀ l : List (V × ℕ), ∀ c, (l.flatMap fun x => '{' :: P.sym x.1 ++ '}' ::
          if 1 < x.2 then '^' :: Nat.toDigits 10 x.2 else []).head? = some c → c.isDigit = false := by
        intro l c hc
        rw [hhead l c hc]; decide
      have h3 : a.2 = b.2 ∧ (p.flatMap fun x => '{' :: P.sym x.1 ++ '}' ::
          if 1 < x.2 then '^' :: Nat.toDigits 10 x.2 else []) = (q.flatMap fun x => '{' :: P.sym x.1 ++ '}' ::
          if 1 < x.2 then '^' :: Nat.toDigits 10 x.2 else []) := by
        by_cases e1 : 1 < a.2 <;> by_cases e2 : 1 < b.2
        · rw [if_pos e1, if_pos e2] at h2
          simp only [List.cons_append, List.cons.injEq, true_and] at h2
          exact digits_unique (hd p) (hd q) h2
        · rw [if_pos e1, if_neg e2, List.nil_append, List.cons_append] at h2
          have := hhead q '^' ((congrArg List.head? h2.symm).trans rfl)
          exact absurd this (by decide)
        · rw [if_neg e1, if_pos e2, List.nil_append, List.cons_append] at h2
          have := hhead p '^' ((congrArg List.head? h2).trans rfl)
          exact absurd this (by decide)
        · rw [if_neg e1, if_neg e2] at h2
          exact ⟨by omega, h2⟩
      rw [ih (fun x hx => hp x (by simp [hx])) (fun x hx => hq x (by simp [hx])) h3.2,
        Prod.ext h1 h3.1]

/-! ### The LaTeX text depends only on the operator -/

theorem Pdop.order_perm {p q : Pdop V} (h : List.Perm p q) : p.order = q.order := (h.map _).sum_eq

theorem Pdop.latex_perm {p q : Pdop V} (hp : p.WF) (h : List.Perm p q) : p.latex P = q.latex P := by
  have hq : q.WF := (h.map Prod.fst).nodup_iff.mp hp
  have hk : (p.map Prod.fst).insertionSort (· ≤ ·) = (q.map Prod.fst).insertionSort (· ≤ ·) := by
    refine List.Perm.eq_of_pairwise' (r := (· ≤ ·)) (List.pairwise_insertionSort _ _)
      (List.pairwise_insertionSort _ _) ?_
    exact (List.perm_insertionSort _ _).trans ((h.map _).trans (List.perm_insertionSort _ _).symm)
  have hg : ∀ x, Dict.get? p x = Dict.get? q x := by
    intro x
    cases e : Dict.get? p x with
    | none =>
      rw [Dict.get?_none'] at e
      exact (Dict.get?_none'.mpr fun hm => e ((h.map Prod.fst).mem_iff.mpr hm)).symm
    | some k => exact (Dict.get?_of_mem' hq (h.subset (Dict.mem_of_get?' e))).symm
  rw [Pdop.latex, Pdop.latex, Pdop.order_perm h, hk]
  simp only [hg]

theorem Pdop.symbols_coe (p : Pdop V) : (p.symbols : Multiset V) = Finsupp.toMultiset p.exps := by
  rw [Pdop.symbols, Multiset.coe_eq_coe.mpr (List.perm_insertionSort _ _)]
  induction p with
  | nil => simp [Pdop.exps]
  | cons t p ih =>
    rw [List.flatMap_cons, ← Multiset.coe_add, ih, Pdop.exps_cons, map_add]
    congr 1
    rw [Finsupp.toMultiset_single, Multiset.coe_replicate, Multiset.nsmul_singleton]

theorem Pdop.exps_eq_of_le {p q : Pdop V} (h : p.le q) (h' : q.le p) : p.exps = q.exps := by
  have : p.symbols = q.symbols := by
    unfold Pdop.le at *
    rcases h with h | ⟨h, h1⟩ <;> rcases h' with h' | ⟨h', h2⟩
    · omega
    · omega
    · omega
    · exact le_antisymm h1 h2
  have h2 := congrArg (fun l : List V => (l : Multiset V)) this
  simp only [Pdop.symbols_coe] at h2
  ext x
  have := congrArg (Multiset.count x) h2
  rwa [Finsupp.count_toMultiset, Finsupp.count_toMultiset] at this

theorem Pdop.le_of_exps {p q p' q' : Pdop V} (hp : p.exps = p'.exps) (hq : q.exps = q'.exps)
    (h : p.le q) : p'.le q' := by
  have ho : ∀ {p p' : Pdop V}, p.exps = p'.exps → p.order = p'.order := by
    intro p p' h; rw [← Pdop.degree_exps, h, Pdop.degree_exps]
  have hs : ∀ {p p' : Pdop V}, p.exps = p'.exps → p.symbols = p'.symbols := by
    intro p p' h
    refine List.Perm.eq_of_pairwise' (r := (· ≤ ·)) (List.pairwise_insertionSort _ _)
      (List.pairwise_insertionSort _ _) ?_
    refine Multiset.coe_eq_coe.mp ?_
    exact (Pdop.symbols_coe p).trans ((congrArg _ h).trans (Pdop.symbols_coe p').symm)
  unfold Pdop.le at *
  rwa [← ho hp, ← ho hq, ← hs hp, ← hs hq]

theorem distinct_perm {s : Sdop R V} (hs : s.WF) (hd : Distinct s) {u v : R × Pdop V} (hu : u ∈ s)
    (hv : v ∈ s) (huv : u ≠ v) : ¬ List.Perm u.2 v.2 := by
  induction s with
  | nil => simp at hu
  | cons w s ih =>
    rw [Distinct, List.pairwise_cons] at hd
    have hs' : Sdop.WF s := fun t ht => hs t (by simp [ht])
    intro hp
    rcases List.mem_cons.mp hu with rfl | hu' <;> rcases List.mem_cons.mp hv with rfl | hv'
    · exact huv rfl
    · have := hd.1 v hv'
      rw [Pdop.perm_eqv (hs v hv) hp] at this
      exact absurd this (by simp)
    · have := hd.1 u hu'
      rw [Pdop.perm_eqv (hs u hu) hp.symm] at this
      exact absurd this (by simp)
    · exact ih hs' hd.2 hu' hv' hp

/-- Two operators with the same terms up to order have the same LaTeX text. -/
theorem Sdop.latex_congr (hP : P.OK) {s t : Sdop R V} (hs : s.WF) (ht : t.WF)
    (hs0 : ∀ u ∈ s, ∀ e ∈ u.2, e.2 ≠ 0) (ht0 : ∀ u ∈ t, ∀ e ∈ u.2, e.2 ≠ 0) (hd : Distinct s)
    (h : (s.map fun u => (u.1, u.2.exps)).Perm (t.map fun u => (u.1, u.2.exps))) :
    s.latex P = t.latex P := by
  by_cases hne : s = []
  · subst hne
    have := h.symm.eq_nil
    rw [List.map_eq_nil_iff] at this
    rw [this]
  have hne' : t ≠ [] := by
    rintro rfl
    have := h.eq_nil
    rw [List.map_eq_nil_iff] at this
    exact hne this
  rw [Sdop.latex_eq hP hne, Sdop.latex_eq hP hne']
  congr 1
  -- the sorted lists agree up to the order of the dictionaries
  have hk : s.sorted.map (fun u => (u.1, u.2.exps)) = t.sorted.map (fun u => (u.1, u.2.exps)) := by
    let r : R × (V →₀ ℕ) → R × (V →₀ ℕ) → Prop := fun a b =>
      ∃ p q : Pdop V, p.exps = a.2 ∧ q.exps = b.2 ∧ p.le q
    refine List.Perm.eq_of_pairwise (le := r) ?_ ?_ ?_ ?_
    · rintro a b ha hb ⟨p, q, h1, h2, h3⟩ ⟨p', q', h1', h2', h3'⟩
      have hab : a.2 = b.2 := by
        have := Pdop.exps_eq_of_le h3 (Pdop.le_of_exps (h1'.trans h2.symm) (h2'.trans h1.symm) h3')
        rw [← h1, ← h2, this]
      have hb' : b ∈ s.map fun u => (u.1, u.2.exps) :=
        h.mem_iff.mpr ((t.sorted_perm.map _).mem_iff.mp hb)
      have ha' : a ∈ s.map fun u => (u.1, u.2.exps) := (s.sorted_perm.map _).mem_iff.mp ha
      obtain ⟨u, hu, rfl⟩ := List.mem_map.mp ha'
      obtain ⟨v, hv, rfl⟩ := List.mem_map.mp hb'
      by_cases huv : u = v
      · rw [huv]
      · exfalso
        have hp := Pdop.perm_of_exps (hs u hu) (hs v hv) (hs0 u hu) (hs0 v hv) hab
        exact distinct_perm hs hd hu hv huv hp
    · rw [List.pairwise_map]
      exact s.sorted_pairwise.imp fun h => ⟨_, _, rfl, rfl, h⟩
    · rw [List.pairwise_map]
      exact t.sorted_pairwise.imp fun h => ⟨_, _, rfl, rfl, h⟩
    · exact (s.sorted_perm.map _).trans (h.trans (t.sorted_perm.map _).symm)
  have key : ∀ a b : Sdop R V, (∀ u ∈ a, u ∈ s) → (∀ u ∈ b, u ∈ t) →
      a.map (fun u => (u.1, u.2.exps)) = b.map (fun u => (u.1, u.2.exps)) →
      a.map (Sdop.latexTerm P) = b.map (Sdop.latexTerm P) := by
    intro a
    induction a with
    | nil =>
      intro b _ _ h
      cases b with
      | nil => rfl
      | cons v b => simp at h
    | cons u a ih =>
      intro b ha hb h
      cases b with
      | nil => simp at h
      | cons v b =>
        simp only [List.map_cons, List.cons.injEq, Prod.mk.injEq] at h
        rw [List.map_cons, List.map_cons, ih b (fun w hw => ha w (by simp [hw]))
          (fun w hw => hb w (by simp [hw])) h.2]
        congr 1
        have hu := ha u (by simp)
        have hv := hb v (by simp)
        have hp := Pdop.perm_of_exps (hs u hu) (ht v hv) (hs0 u hu) (ht0 v hv) h.1.2
        rw [Sdop.latexTerm, Sdop.latexTerm, h.1.1, Pdop.latex_perm (hs u hu) hp]
  exact key _ _ (fun u hu => s.sorted_perm.mem_iff.mp hu) (fun u hu => t.sorted_perm.mem_iff.mp hu) hk

/-- The coefficient of a partial derivative. -/
noncomputable def coefAt (e : V →₀ ℕ) (c : R) (p : Pdop V) : R :=
  open Classical in if p.exps = e then c else 0

theorem coefAt_meaning (e : V →₀ ℕ) :
    Meaning (V := V) (fun _ : R => True) (fun c : R => decide (c = 0)) (· + ·) (coefAt e) where
  good_add := by simp
  add := by intro a b _ _ p; simp only [coefAt]; split_ifs <;> simp
  zero := by intro a _ h p; simp [coefAt, of_decide_eq_true h]
  eqv := by
    intro p q hp hq h a
    have : p.exps = q.exps := ((Pdop.eqv_perm hp h).map _).sum_eq
    simp only [coefAt, this]

theorem tsum_coefAt {s : Sdop R V} (hs : s.WF) (hs0 : ∀ u ∈ s, ∀ e ∈ u.2, e.2 ≠ 0) (hd : Distinct s)
    {u : R × Pdop V} (hu : u ∈ s) : tsum (coefAt u.2.exps) s = u.1 := by
  induction s with
  | nil => simp at hu
  | cons w s ih =>
    have hd' := hd
    rw [Distinct, List.pairwise_cons] at hd'
    have hz : ∀ (l : Sdop R V) (e : V →₀ ℕ), (∀ v ∈ l, v.2.exps ≠ e) → tsum (coefAt e) l = 0 := by
      intro l e
      induction l with
      | nil => intro _; rfl
      | cons v l ih =>
        intro h
        rw [tsum_cons, ih fun w hw => h w (by simp [hw]), add_zero]
        exact if_neg (h v (by simp))
    have hne : ∀ v ∈ s, v.2.exps ≠ w.2.exps := by
      intro v hv h
      have := hd'.1 v hv
      rw [Pdop.perm_eqv (hs v (by simp [hv])) (Pdop.perm_of_exps (hs w (by simp)) (hs v (by simp [hv]))
        (hs0 w (by simp)) (hs0 v (by simp [hv])) h.symm)] at this
      exact absurd this (by simp)
    rcases List.mem_cons.mp hu with rfl | hu'
    · rw [tsum_cons, hz s _ hne, add_zero]
      exact if_pos rfl
    · rw [tsum_cons, ih (fun v hv => hs v (by simp [hv])) (fun v hv => hs0 v (by simp [hv])) hd'.2 hu']
      rw [coefAt, if_neg (hne u hu').symm, zero_add]

theorem tsum_coefAt_zero {s : Sdop R V} {e : V →₀ ℕ} (h : ∀ u ∈ s, u.2.exps ≠ e) :
    tsum (coefAt e) s = 0 := by
  induction s with
  | nil => rfl
  | cons v s ih =>
    rw [tsum_cons, ih fun w hw => h w (by simp [hw]), add_zero]
    exact if_neg (h v (by simp))

/-- Consolidated operators whose difference has no terms have the same terms. -/
theorem Sdop.perm_of_eq {s t : Sdop R V} (hs : s.WF) (ht : t.WF)
    (hs0 : ∀ u ∈ s, ∀ e ∈ u.2, e.2 ≠ 0) (ht0 : ∀ u ∈ t, ∀ e ∈ u.2, e.2 ≠ 0) (hds : Distinct s)
    (hdt : Distinct t) (hzs : ∀ u ∈ s, u.1 ≠ 0) (hzt : ∀ u ∈ t, u.1 ≠ 0) (h : s.eq t = true) :
    (s.map fun u => (u.1, u.2.exps)).Perm (t.map fun u => (u.1, u.2.exps)) := by
  have hcoef : ∀ e, tsum (coefAt e) s = tsum (coefAt e) t := by
    intro e
    rw [Sdop.eq, decide_eq_true_eq, List.length_eq_zero_iff, Sdop.sub, Sdop.add] at h
    have hn : TWF (fun _ : R => True) (Sdop.neg t) := by
      intro u hu
      obtain ⟨v, hv, rfl⟩ := List.mem_map.mp hu
      exact ⟨trivial, ht v hv⟩
    have := (merge_spec (coefAt_meaning e) (zero := (0 : R)) trivial (by simp [coefAt])
      (l := s) (m := Sdop.neg t) (fun u hu => ⟨trivial, hs u hu⟩) hn).2
    rw [h, tsum_nil] at this
    have hneg : ∀ t : Sdop R V, tsum (coefAt e) (Sdop.neg t) = - tsum (coefAt e) t := by
      intro t
      induction t with
      | nil => simp [Sdop.neg]
      | cons v t ih =>
        rw [Sdop.neg] at ih ⊢
        rw [List.map_cons, tsum_cons, tsum_cons, ih]
        simp only [coefAt]
        split_ifs <;> ring
    rw [hneg] at this
    rw [← sub_eq_zero, sub_eq_add_neg]
    exact this.symm
  have key : ∀ {s t : Sdop R V}, s.WF → (∀ u ∈ s, ∀ e ∈ u.2, e.2 ≠ 0) → t.WF →
      (∀ u ∈ t, ∀ e ∈ u.2, e.2 ≠ 0) → Distinct s → Distinct t → (∀ u ∈ s, u.1 ≠ 0) →
      (∀ e, tsum (coefAt e) s = tsum (coefAt e) t) →
      ∀ u ∈ s, ∃ v ∈ t, (v.1, v.2.exps) = (u.1, u.2.exps) := by
    intro s t hs hs0 ht ht0 hds hdt hz h u hu
    have h1 := tsum_coefAt hs hs0 hds hu
    by_cases hex : ∃ v ∈ t, v.2.exps = u.2.exps
    · obtain ⟨v, hv, he⟩ := hex
      have h2 := tsum_coefAt ht ht0 hdt hv
      rw [he, ← h, h1] at h2
      exact ⟨v, hv, by rw [h2, he]⟩
    · rw [h, tsum_coefAt_zero fun v hv he => hex ⟨v, hv, he⟩] at h1
      exact absurd h1.symm (hz u hu)
  have hnd : ∀ {s : Sdop R V}, s.WF → (∀ u ∈ s, ∀ e ∈ u.2, e.2 ≠ 0) → Distinct s →
      (s.map fun u => (u.1, u.2.exps)).Nodup := by
    intro s hs hs0 hd
    rw [List.Nodup, List.pairwise_map]
    refine List.Pairwise.imp_of_mem (fun {u v} hu hv h he => ?_) hd
    rw [Pdop.perm_eqv (hs v hv) (Pdop.perm_of_exps (hs u hu) (hs v hv) (hs0 u hu) (hs0 v hv)
      (Prod.ext_iff.mp he).2)] at h
    exact absurd h (by simp)
  refine (List.perm_ext_iff_of_nodup (hnd hs hs0 hds) (hnd ht ht0 hdt)).mpr fun a => ⟨fun ha => ?_, fun ha => ?_⟩
  · obtain ⟨u, hu, rfl⟩ := List.mem_map.mp ha
    obtain ⟨v, hv, e⟩ := key hs hs0 ht ht0 hds hdt hzs hcoef u hu
    exact List.mem_map.mpr ⟨v, hv, e⟩
  · obtain ⟨u, hu, rfl⟩ := List.mem_map.mp ha
    obtain ⟨v, hv, e⟩ := key ht ht0 hs hs0 hdt hds hzt (fun e => (hcoef e).symm) u hu
    exact List.mem_map.mpr ⟨v, hv, e⟩

/-! ### Multivector operators -/

theorem plain_further {m t : List Char} (hm : '+' ∉ m) (ht : Plain t) (hne : t ≠ []) :
    Plain (further m t) := by
  unfold further
  split
  · exact Plain.cons (by decide) ((plain_of_not_mem hm).append ht.tail)
  · rename_i h
    cases t with
    | nil => exact absurd rfl hne
    | cons c t =>
      refine Plain.cons (by decide) ?_
      intro u v e
      cases u with
      | nil =>
        simp only [List.nil_append, List.cons.injEq, true_and] at e
        refine ⟨' ', c, t, e.symm, fun hc => h t ?_⟩
        rw [hc.2]
      | cons a u =>
        simp only [List.cons_append, List.cons.injEq] at e
        exact (Plain.cons (by decide) ht : Plain (' ' :: c :: t)) u v e.2

theorem plain_sumText {m : List Char} (hm : '+' ∉ m) {ts : List (List Char)} (h : ∀ t ∈ ts, Plain t)
    (hne : ∀ t ∈ ts, t ≠ []) : Plain (sumText m ts) := by
  cases ts with
  | nil => exact plain_of_not_mem (by simp [sumText])
  | cons t ts =>
    rw [sumText]
    exact (h t (by simp)).append (plain_flatMap fun u hu =>
      plain_further hm (h u (by simp [hu])) (hne u (by simp [hu])))

theorem Pdop.str_ne_nil (p : Pdop V) : p.str P ≠ [] := by
  rw [Pdop.str_eq]; split_ifs <;> simp [derivText]

theorem Sdop.strTerm_ne_nil (t : R × Pdop V) : Sdop.strTerm P t ≠ [] := by
  have := Pdop.str_ne_nil (P := P) t.2
  rw [Sdop.strTerm]
  split_ifs <;> simp [this]

theorem Sdop.latexTerm_ne_nil (t : R × Pdop V) : Sdop.latexTerm P t ≠ [] := by
  rw [Sdop.latexTerm]
  split_ifs <;> simp_all

theorem plain_sdop (hP : P.OK) (s : Sdop R V) : Plain (s.str P) := by
  by_cases hs : s = []
  · subst hs
    exact plain_of_not_mem (s := zeroStr) (by decide)
  · rw [Sdop.str_eq hP hs]
    refine plain_sumText (by decide) ?_ ?_
    · intro t ht; obtain ⟨u, -, rfl⟩ := List.mem_map.mp ht; exact plain_strTerm hP u
    · intro t ht; obtain ⟨u, -, rfl⟩ := List.mem_map.mp ht; exact Sdop.strTerm_ne_nil u

theorem plain_sdopLatex (hP : P.OK) (s : Sdop R V) : Plain (s.latex P) := by
  by_cases hs : s = []
  · subst hs
    exact plain_of_not_mem (s := zeroStr) (by decide)
  · rw [Sdop.latex_eq hP hs]
    refine plain_sumText (by decide) ?_ ?_
    · intro t ht; obtain ⟨u, -, rfl⟩ := List.mem_map.mp ht; exact plain_latexTerm hP u
    · intro t ht; obtain ⟨u, -, rfl⟩ := List.mem_map.mp ht; exact Sdop.latexTerm_ne_nil u

end

section
variable {V : Type*} [LinearOrder V] {n : ℕ} {K : Type*} [Field K] [DecidableEq K] [Invertible (2 : K)]
  {P : Printer V K (Sym n)}

theorem Plain.tail' {s : List Char} (h : Plain s) : Plain s.tail := by
  cases s with
  | nil => exact h
  | cons c s => exact h.tail

theorem plain_dopTerm (hP : P.OK) (cmp : Bool) (t : Sdop K V × Sym n) : Plain (Dop.strTerm P cmp t) := by
  have h1 := plain_sdop hP t.1
  have h2 := hP.base t.2
  have h3 : Plain ['*'] := plain_of_not_mem (by decide)
  rw [Dop.strTerm]
  split_ifs
  · exact h1
  · exact Plain.append (Plain.append (Plain.cons (by decide) h1) (plain_of_not_mem (by decide))) h2
  · exact Plain.append (Plain.append (h2.append (plain_of_not_mem (by decide))) h1)
      (plain_of_not_mem (by decide))
  · exact Plain.append (h1.append h3) h2
  · exact Plain.append (Plain.append (Plain.cons (by decide) h2) h3) h1.tail'
  · exact Plain.append (h1.append h3) h2
  · exact Plain.append (h2.append h3) h1

theorem plain_dopLatexTerm (hP : P.OK) (cmp : Bool) (t : Sdop K V × Sym n) :
    Plain (Dop.latexTerm P cmp t) := by
  have h1 := plain_sdopLatex hP t.1
  have h2 := hP.base t.2
  have h3 : Plain [' '] := plain_of_not_mem (by decide)
  have h4 : Plain "\\left ( ".toList := plain_of_not_mem (by decide)
  have h5 : Plain "\\right ) ".toList := plain_of_not_mem (by decide)
  have h6 : Plain [] := plain_of_not_mem (by simp)
  by_cases hb : t.2 = .blade []
  · rw [Dop.latexTerm, if_pos hb]; exact h1
  rw [Dop.latexTerm, if_neg hb]
  refine Plain.append ?_ ?_
  · split_ifs
    · exact h2
    · exact h6
  · split_ifs
    · exact Plain.cons (by decide) h2
    · exact Plain.append (Plain.append (h4.append h1) h5) h2
    · exact Plain.append (Plain.append (Plain.append (h2.append h3) h4) h1) h5
    · exact h1.append h2
    · exact Plain.append (Plain.append (Plain.cons (by decide) h2) h3) h1.tail'
    · exact Plain.append (h1.append h3) h2
    · exact Plain.append (h2.append h3) h1

end

end GA
