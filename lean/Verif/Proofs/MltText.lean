import Verif.Spec.MltText
import Verif.Proofs.TexLex
import Mathlib.Data.List.Lex
import Mathlib.Algebra.BigOperators.Group.List.Basic

/-!
# The text of multilinear functions
-/

set_option linter.unusedSectionVars false
set_option maxRecDepth 10000

namespace GA
open Tex

variable {A : Type*} {n : ℕ} [CommRing A]

theorem foldl_slots (P : MltPrinter A n) (s : List Char) (l : List (ℕ × Fin n)) :
    l.foldl (fun s aij => s ++ (P.slot aij ++ [' '])) s = s ++ l.flatMap fun x => P.slot x ++ [' '] := by
  induction l generalizing s with
  | nil => simp
  | cons x l ih => rw [List.foldl_cons, ih, List.flatMap_cons, List.append_assoc]

theorem lex_plus (b : List Char) : lex (" + ".toList ++ b) = [['+']] ++ lex b := by
  simp [lex, lexGo]

theorem lex_amp (b : List Char) : lex (" & ".toList ++ b) = [['&']] ++ lex b := by
  simp [lex, lexGo]

theorem lex_newline (b : List Char) : lex ("\\\\ ".toList ++ b) = [['\\', '\\']] ++ lex b := by
  simp [lex, lexGo]

/-! ### Lines -/

theorem lex_mltTerm {P : MltPrinter A n} (hP : P.Tidy) (t : A × List (ℕ × Fin n))
    (hc : P.isAdd t.1 = false → Closed (P.latex t.1)) (j : ℕ) (b : List Char) :
    lex (mltTerm P (decide (j = 0)) t ++ b) = summand j (termTokens P t) ++ lex b := by
  obtain ⟨hs1, hs2⟩ := closed_flatMap (fun x => P.slot x ++ [' ']) t.2 fun x _ => (hP.slot x).blank
  have hs3 : ∀ b, lex ((t.2.flatMap fun x => P.slot x ++ [' ']) ++ b) =
      (t.2.flatMap fun x => lex (P.slot x)) ++ lex b := by
    intro b
    rw [hs1, hs2]
    congr 1
    exact List.flatMap_congr fun x _ => (hP.slot x).lex_blank
  rw [mltTerm, foldl_slots, termTokens, summand]
  cases hadd : P.isAdd t.1 with
  | true =>
    have hl : ∀ b, lex ("\\left ( ".toList ++ P.latex t.1 ++ "\\right ) ".toList ++ b) =
        [['\\', 'l', 'e', 'f', 't'], ['(']] ++ lex (P.latex t.1) ++
          [['\\', 'r', 'i', 'g', 'h', 't'], [')']] ++ lex b := by
      intro b
      rw [List.append_assoc, List.append_assoc, lex_left, hP.latex t.1 _ (by simp), lex_right]
      simp only [List.append_assoc]
    rw [if_pos rfl, if_pos rfl]
    by_cases hj : j = 0
    · rw [if_pos (Or.inl hj), if_pos (decide_eq_true hj), List.append_assoc, hl, hs3]
      simp only [List.append_assoc]
    · rw [if_neg (c := decide (j = 0) = true) (by simp [hj]), if_pos (c := _ ∨ true = true) (Or.inr rfl),
        if_neg (by simp [hj]), List.append_assoc, List.append_assoc, lex_plus, hl, hs3]
      simp only [List.append_assoc, List.cons_append, List.nil_append]
  | false =>
    have hl := hc hadd
    have hsgn := hP.sign t.1 hadd
    have hne := hP.nonempty t.1
    have hhead : (lex (P.latex t.1) ++ t.2.flatMap fun x => lex (P.slot x)).head? =
        (lex (P.latex t.1)).head? := by
      cases h : lex (P.latex t.1) with
      | nil => exact absurd h hne
      | cons x r => rfl
    simp only [Bool.false_eq_true, if_false, or_false, hhead]
    by_cases hj : j = 0
    · rw [if_pos (Or.inl hj), if_pos (decide_eq_true hj), List.append_assoc, hl, hs3, List.append_assoc]
    · rw [if_neg (by simp [hj])]
      by_cases hm : (P.str t.1).head? = some '-'
      · rw [if_neg (by simp [hm]), if_pos (Or.inr (hsgn.mp hm)), List.append_assoc, hl, hs3,
          List.append_assoc]
      · rw [if_pos hm, if_neg (by rw [← hsgn]; simp [hj, hm]), List.append_assoc, List.append_assoc,
          lex_plus, hl, hs3]
        simp only [List.append_assoc, List.cons_append, List.nil_append]

theorem mod_zero_iff (lcnt j : ℕ) : (j % lcnt + 1) % lcnt = 0 ↔ lcnt ∣ j + 1 := by
  rw [Nat.dvd_iff_mod_eq_zero, Nat.mod_add_mod]

theorem mod_succ {lcnt : ℕ} (hl : 0 < lcnt) {j : ℕ} (h : ¬ lcnt ∣ j + 1) :
    j % lcnt + 1 + 1 = (j + 1) % lcnt + 1 := by
  have h1 : j % lcnt + 1 ≠ lcnt := fun e => h (by
    have := Nat.div_add_mod j lcnt
    exact ⟨j / lcnt + 1, by rw [Nat.mul_add]; omega⟩)
  have h2 := Nat.mod_lt j hl
  rw [← Nat.mod_add_mod, Nat.mod_eq_of_lt (by omega : j % lcnt + 1 < lcnt)]

theorem lex_line {P : MltPrinter A n} (hP : P.Tidy) (t : A × List (ℕ × Fin n))
    (hc : P.isAdd t.1 = false → Closed (P.latex t.1)) (lcnt j : ℕ) (b : List Char) :
    lex ((if j % lcnt + 1 = 1 then " & ".toList ++ mltTerm P (decide (j = 0)) t
        else mltTerm P (decide (j = 0)) t) ++ b) =
      (if lcnt ∣ j then [['&']] else []) ++ summand j (termTokens P t) ++ lex b := by
  by_cases h : lcnt ∣ j
  · rw [if_pos h, if_pos (by rw [Nat.dvd_iff_mod_eq_zero.mp h]), List.append_assoc, lex_amp,
      lex_mltTerm hP t hc, List.append_assoc]
  · rw [if_neg h, if_neg (by rw [Nat.dvd_iff_mod_eq_zero] at h; omega), lex_mltTerm hP t hc,
      List.nil_append]

theorem mltLoop_spec {P : MltPrinter A n} (hP : P.Tidy) {lcnt : ℕ} (hl : 0 < lcnt)
    (L : List (A × List (ℕ × Fin n)))
    (hc : ∀ t ∈ L, P.isAdd t.1 = false → Closed (P.latex t.1)) (j : ℕ) (hne : L ≠ []) :
    ∃ u, mltLoop P lcnt (decide (j = 0)) (j % lcnt + 1) L =
        u ++ (if lcnt = 1 ∨ lcnt = j + L.length then "\\\\ ".toList else []) ∧
      ∀ b, lex (u ++ b) = tokensFrom P lcnt (j + L.length) j L ++ lex b := by
  induction L generalizing j with
  | nil => exact absurd rfl hne
  | cons t ts ih =>
    have hline := lex_line hP t (hc t List.mem_cons_self) lcnt j
    rw [mltLoop]
    simp only [mod_zero_iff]
    generalize (if j % lcnt + 1 = 1 then " & ".toList ++ mltTerm P (decide (j = 0)) t
        else mltTerm P (decide (j = 0)) t) = line at hline ⊢
    cases ts with
    | nil =>
      simp only [mltLoop, List.append_nil, tokensFrom, List.length_cons, List.length_nil, zero_add]
      by_cases htrim : lcnt = 1 ∨ lcnt = j + 1
      · have hd : lcnt ∣ j + 1 := by rcases htrim with h | h <;> simp [h]
        refine ⟨_, by rw [if_pos hd, if_pos htrim], fun b => ?_⟩
        rw [hline, if_neg (c := _ ∧ ¬ _) (by simp [htrim]), List.append_nil]
      · by_cases hd : lcnt ∣ j + 1
        · refine ⟨_, by rw [if_pos hd, if_neg htrim, List.append_nil], fun b => ?_⟩
          rw [List.append_assoc, hline, lex_newline, if_pos (c := _ ∧ ¬ _) ⟨hd, fun h => htrim h.2⟩]
          simp only [List.append_assoc]
        · refine ⟨_, by rw [if_neg hd, if_neg htrim, List.append_nil], fun b => ?_⟩
          rw [hline, if_neg (c := _ ∧ ¬ _) (fun h => hd h.1), List.append_nil]
    | cons t' ts =>
      obtain ⟨u, h1, h2⟩ := ih (fun x hx => hc x (List.mem_cons_of_mem _ hx)) (j + 1) (by simp)
      have hlen : j + (t :: t' :: ts).length = j + 1 + (t' :: ts).length := by
        simp only [List.length_cons]; omega
      rw [show decide (j + 1 = 0) = false from by simp] at h1
      rw [hlen, tokensFrom]
      have hn : ¬ (j + 1 = j + 1 + (t' :: ts).length ∧
          (lcnt = 1 ∨ lcnt = j + 1 + (t' :: ts).length)) := by
        simp only [List.length_cons]; omega
      by_cases hd : lcnt ∣ j + 1
      · rw [Nat.dvd_iff_mod_eq_zero.mp hd, zero_add] at h1
        rw [if_pos hd, if_pos (c := _ ∧ ¬ _) ⟨hd, hn⟩, h1]
        refine ⟨_, (List.append_assoc _ _ _).symm, fun b => ?_⟩
        rw [List.append_assoc, List.append_assoc, hline, lex_newline, h2]
        simp only [List.append_assoc]
      · rw [← mod_succ hl hd] at h1
        rw [if_neg hd, if_neg (c := _ ∧ ¬ _) (fun h => hd h.1), h1]
        refine ⟨_, (List.append_assoc _ _ _).symm, fun b => ?_⟩
        rw [List.append_assoc, hline, h2]
        simp only [List.append_assoc, List.nil_append]

theorem dropLast3_append (s : List Char) (a b c : Char) : dropLast3 (s ++ [a, b, c]) = s := by
  rw [dropLast3, show s ++ [a, b, c] = s ++ [a, b] ++ [c] by simp, List.dropLast_concat,
    show s ++ [a, b] = s ++ [a] ++ [b] by simp, List.dropLast_concat, List.dropLast_concat]

theorem lex_begin (b : List Char) :
    lex ("\\begin{aligned} ".toList ++ b) = lex "\\begin{aligned}".toList ++ lex b := by
  simp [lex, lexGo]

theorem lex_end : lex " \\end{aligned} ".toList = lex "\\end{aligned}".toList := by
  simp [lex, lexGo]

theorem mltLines_spec {P : MltPrinter A n} (hP : P.Tidy) {lcnt : ℕ} (hl : 0 < lcnt)
    (L : List (A × List (ℕ × Fin n)))
    (hc : ∀ t ∈ L, P.isAdd t.1 = false → Closed (P.latex t.1)) (hne : L ≠ []) :
    ∃ s, mltLines P lcnt L = some s ∧ lex s = lex "\\begin{aligned}".toList ++
      tokensFrom P lcnt L.length 0 L ++ lex "\\end{aligned}".toList := by
  obtain ⟨u, h1, h2⟩ := mltLoop_spec hP hl L hc 0 hne
  rw [show decide (0 = 0) = true from rfl, Nat.zero_mod, zero_add, zero_add] at h1
  rw [zero_add] at h2
  refine ⟨_, by rw [mltLines, if_neg (by omega)], ?_⟩
  have h3 : (if lcnt = L.length ∨ lcnt = 1 then
      dropLast3 ("\\begin{aligned} ".toList ++ mltLoop P lcnt true 1 L)
      else "\\begin{aligned} ".toList ++ mltLoop P lcnt true 1 L) = "\\begin{aligned} ".toList ++ u := by
    rw [h1]
    by_cases h : lcnt = 1 ∨ lcnt = L.length
    · rw [if_pos h.symm, if_pos h, ← List.append_assoc]
      exact dropLast3_append _ _ _ _
    · rw [if_neg (fun h' => h h'.symm), if_neg h, List.append_nil]
  rw [h3, List.append_assoc, lex_begin, h2, lex_end, List.append_assoc]

/-! ### Terms -/

theorem slotProd_append (a : ℕ → Fin n → A) (l m : List (ℕ × Fin n)) :
    slotProd a (l ++ m) = slotProd a l * slotProd a m := by
  rw [slotProd, List.map_append, List.prod_append, slotProd, slotProd]

theorem splitTerm_go (a : ℕ → Fin n → A) (slots : ℕ) (fs : List (SExpr A n))
    (p : A × List (ℕ × Fin n)) :
    let q := fs.foldl (fun p factor =>
      match factor.asSlot slots with
      | some s => (p.1, p.2 ++ [s])
      | none => (p.1 * factor.value a, p.2)) p
    q.1 * slotProd a q.2 = p.1 * slotProd a p.2 * SExpr.valueProd a fs := by
  induction fs generalizing p with
  | nil => simp [SExpr.valueProd]
  | cons f fs ih =>
    rw [List.foldl_cons, SExpr.valueProd]
    refine (ih _).trans ?_
    cases h : f.asSlot slots with
    | none => simp only; ring
    | some s =>
      have : f.value a = a s.1 s.2 := by
        cases f with
        | slot i k =>
          simp only [SExpr.asSlot] at h
          split_ifs at h
          obtain rfl := Option.some.inj h
          rw [SExpr.value]
        | _ => simp [SExpr.asSlot] at h
      simp only [slotProd_append, this]
      simp only [slotProd, List.map_cons, List.map_nil, List.prod_singleton]
      ring

theorem splitTerm_value (a : ℕ → Fin n → A) (slots : ℕ) (fs : List (SExpr A n)) :
    (splitTerm a slots (.mul fs)).1 * slotProd a (splitTerm a slots (.mul fs)).2 =
      (SExpr.mul fs).value a := by
  have := splitTerm_go a slots fs (1, [])
  simp only [slotProd, List.map_nil, List.prod_nil, mul_one, one_mul] at this
  rw [SExpr.value]
  exact this

theorem slotPos_inj {l m : List (ℕ × Fin n)} (h : slotPos l = slotPos m) : l = m := by
  refine List.map_injective_iff.mpr ?_ h
  rintro ⟨i, k⟩ ⟨j, k'⟩ e
  have e : i * n + k.1 = j * n + k'.1 := e
  have hk := k.2
  have hk' := k'.2
  have h1 : i = j := by
    have h2 : (i * n + k.1) / n = i := by
      rw [Nat.add_comm, Nat.add_mul_div_right _ _ (by omega), Nat.div_eq_of_lt hk, zero_add]
    have h3 : (j * n + k'.1) / n = j := by
      rw [Nat.add_comm, Nat.add_mul_div_right _ _ (by omega), Nat.div_eq_of_lt hk', zero_add]
    rw [← h2, ← h3, e]
  subst h1
  exact Prod.ext rfl (Fin.ext (by simpa using e))

theorem mltGroup_value (a : ℕ → Fin n → A) (c : A) (s : List (ℕ × Fin n))
    (ts : List (A × List (ℕ × Fin n))) :
    ((mltGroup c s ts).map fun t => t.1 * slotProd a t.2).sum =
      c * slotProd a s + (ts.map fun t => t.1 * slotProd a t.2).sum := by
  induction ts generalizing c s with
  | nil => simp [mltGroup]
  | cons t ts ih =>
    rw [mltGroup, List.map_cons, List.sum_cons]
    split_ifs with h
    · rw [ih, ← slotPos_inj h]; ring
    · rw [List.map_cons, List.sum_cons, ih]

theorem mltGroup_mem (c : A) (s : List (ℕ × Fin n)) (ts : List (A × List (ℕ × Fin n)))
    (x : List (ℕ × Fin n)) :
    x ∈ (mltGroup c s ts).map Prod.snd ↔ x = s ∨ x ∈ ts.map Prod.snd := by
  induction ts generalizing c s with
  | nil => simp [mltGroup]
  | cons t ts ih =>
    rw [mltGroup, List.map_cons, List.mem_cons]
    split_ifs with h
    · rw [ih, ← slotPos_inj h]; tauto
    · rw [List.map_cons, List.mem_cons, ih]

theorem mltGroup_sorted (c : A) (s : List (ℕ × Fin n)) (ts : List (A × List (ℕ × Fin n)))
    (h : ((c, s) :: ts).Pairwise fun x y => slotPos x.2 ≤ slotPos y.2) :
    (mltGroup c s ts).Pairwise fun x y => slotPos x.2 < slotPos y.2 := by
  induction ts generalizing c s with
  | nil => simp [mltGroup]
  | cons t ts ih =>
    rw [List.pairwise_cons] at h
    rw [mltGroup]
    split_ifs with hs
    · refine ih _ _ (List.pairwise_cons.mpr ⟨fun y hy => h.1 y (List.mem_cons_of_mem _ hy), ?_⟩)
      exact (List.pairwise_cons.mp h.2).2
    · refine List.pairwise_cons.mpr ⟨fun y hy => ?_, ih _ _ h.2⟩
      have h1 : slotPos s < slotPos t.2 := lt_of_le_of_ne (h.1 t List.mem_cons_self) hs
      rcases (mltGroup_mem t.1 t.2 ts y.2).mp (List.mem_map_of_mem hy) with e | e
      · rw [e]; exact h1
      · obtain ⟨z, hz, e⟩ := List.mem_map.mp e
        exact lt_of_lt_of_le h1 (e ▸ (List.pairwise_cons.mp h.2).1 z hz)

theorem expandExpr_spec (a : ℕ → Fin n → A) (slots : ℕ) {ts : List (SExpr A n)} (hne : ts ≠ []) :
    ∃ L, expandExpr a slots (.add ts) = some L ∧
      (∀ b : ℕ → Fin n → A, (L.map fun t => t.1 * slotProd b t.2).sum =
        (ts.map fun t => (splitTerm a slots t).1 * slotProd b (splitTerm a slots t).2).sum) ∧
      (L.Pairwise fun x y => slotPos x.2 < slotPos y.2) ∧
      ∀ x, x ∈ L.map Prod.snd ↔ ∃ t ∈ ts, x = (splitTerm a slots t).2 := by
  have hperm := List.perm_insertionSort
    (fun x y : A × List (ℕ × Fin n) => slotPos x.2 ≤ slotPos y.2) (ts.map (splitTerm a slots))
  have hsort : ((ts.map (splitTerm a slots)).insertionSort
      fun x y => slotPos x.2 ≤ slotPos y.2).Pairwise fun x y => slotPos x.2 ≤ slotPos y.2 := by
    have : Std.Total fun x y : A × List (ℕ × Fin n) => slotPos x.2 ≤ slotPos y.2 :=
      ⟨fun x y => le_total (slotPos x.2) (slotPos y.2)⟩
    have : IsTrans (A × List (ℕ × Fin n)) fun x y => slotPos x.2 ≤ slotPos y.2 :=
      ⟨fun x y z h1 h2 => le_trans h1 h2⟩
    exact List.pairwise_insertionSort _ _
  rw [expandExpr, SExpr.args]
  cases hS : (ts.map (splitTerm a slots)).insertionSort (fun x y => slotPos x.2 ≤ slotPos y.2) with
  | nil =>
    rw [hS] at hperm
    have := hperm.nil_eq
    exact absurd (List.map_eq_nil_iff.mp this.symm) hne
  | cons t l =>
    rw [hS] at hperm hsort
    refine ⟨_, rfl, fun b => ?_, mltGroup_sorted _ _ _ hsort, fun x => ?_⟩
    · have hp := (hperm.map fun t : A × List (ℕ × Fin n) => t.1 * slotProd b t.2).sum_eq
      rw [List.map_cons, List.sum_cons, List.map_map] at hp
      rw [mltGroup_value]
      exact hp
    · rw [mltGroup_mem, ← List.mem_cons, ← List.map_cons (f := Prod.snd), (hperm.map _).mem_iff,
        List.map_map, List.mem_map]
      exact ⟨fun ⟨t, h1, h2⟩ => ⟨t, h1, h2.symm⟩, fun ⟨t, h1, h2⟩ => ⟨t, h1, h2.symm⟩⟩

theorem valueSum_eq (a : ℕ → Fin n → A) (ts : List (SExpr A n)) :
    SExpr.valueSum a ts = (ts.map fun t => t.value a).sum := by
  induction ts with
  | nil => rw [SExpr.valueSum]; rfl
  | cons t ts ih => rw [SExpr.valueSum, ih, List.map_cons, List.sum_cons]

/-! ### Multilinear expressions -/

theorem IsTerm.split {order : List ℕ} {t : SExpr A n} (h : IsTerm order t) {slots : ℕ}
    (ho : ∀ i ∈ order, i < slots) :
    ∃ (c : A) (I : ℕ → Fin n), ∀ a, splitTerm a slots t = (c, order.map fun i => (i, I i)) := by
  obtain ⟨fs, I, rfl, h1, h2⟩ := h
  have key : ∀ (fs : List (SExpr A n)) (p : A × List (ℕ × Fin n)),
      (∀ s ∈ fs.filterMap SExpr.slot?, s.1 < slots) →
      (∀ f ∈ fs, (∃ i k, f = .slot i k) ∨ (∃ c, f = .atom c) ∨ ∃ c l, f = .app c l) →
      ∃ c, ∀ a, fs.foldl (fun p factor =>
        match factor.asSlot slots with
        | some s => (p.1, p.2 ++ [s])
        | none => (p.1 * factor.value a, p.2)) p = (c, p.2 ++ fs.filterMap SExpr.slot?) := by
    intro fs
    induction fs with
    | nil => exact fun p _ _ => ⟨p.1, fun a => by simp⟩
    | cons f fs ih =>
      intro p hs hf
      rcases hf f List.mem_cons_self with ⟨i, k, rfl⟩ | ⟨c, rfl⟩ | ⟨c, l, rfl⟩
      · have hi : i < slots := hs (i, k) (by simp [SExpr.slot?])
        obtain ⟨c, hc⟩ := ih (p.1, p.2 ++ [(i, k)])
          (fun s h => hs s (by simp only [List.filterMap_cons, SExpr.slot?, List.mem_cons]; exact Or.inr h))
          fun f h => hf f (List.mem_cons_of_mem _ h)
        refine ⟨c, fun a => ?_⟩
        rw [List.foldl_cons, show (SExpr.slot i k : SExpr A n).asSlot slots = some (i, k) from if_pos hi]
        refine (hc a).trans ?_
        simp [SExpr.slot?]
      all_goals
        obtain ⟨c', hc⟩ := ih (p.1 * c, p.2)
          (fun s h => hs s (by simp only [List.filterMap_cons, SExpr.slot?]; exact h))
          fun f h => hf f (List.mem_cons_of_mem _ h)
        refine ⟨c', fun a => ?_⟩
        rw [List.foldl_cons, SExpr.value]
        exact hc a
  obtain ⟨c, hc⟩ := key fs (1, []) (by
    rw [h1]
    intro s hs
    obtain ⟨i, hi, rfl⟩ := List.mem_map.mp hs
    exact ho i hi) h2
  refine ⟨c, I, fun a => ?_⟩
  rw [← h1]
  exact hc a

theorem IsTerm.value {order : List ℕ} {t : SExpr A n} (h : IsTerm order t) (slots : ℕ)
    (a : ℕ → Fin n → A) :
    (splitTerm a slots t).1 * slotProd a (splitTerm a slots t).2 = t.value a := by
  obtain ⟨fs, I, rfl, -⟩ := h
  exact splitTerm_value a slots fs

theorem slotProd_basis (order : List ℕ) (I J : ℕ → Fin n) :
    slotProd (A := A) (basisArgs I) (order.map fun i => (i, J i)) =
      if (order.map fun i => (i, J i)) = order.map fun i => (i, I i) then 1 else 0 := by
  induction order with
  | nil => simp [slotProd]
  | cons i order ih =>
    rw [slotProd] at ih ⊢
    rw [List.map_cons, List.map_cons, List.prod_cons, ih]
    simp only [basisArgs, List.map_cons, List.cons.injEq, Prod.mk.injEq, true_and]
    by_cases h1 : J i = I i <;> simp [h1]

end GA
