import Verif.Model.Functions
import Verif.Proofs.Blade
import Verif.Proofs.Examples

/-!
# C52: compare

The docstring of `compare(A, B)` (mv.py:1550-1553) says: *determine if `B = c*A` where `c` is a scalar;
if true return `c`, otherwise return 0*.  The code returns the `c` with `A = c*B`.
-/

set_option linter.unusedSectionVars false
set_option maxRecDepth 10000

namespace GA
variable {n : ℕ} {K : Type*} [Field K] [DecidableEq K] [Invertible (2 : K)]
  {g : Matrix (Fin n) (Fin n) K}

theorem compareLoop_sound {c : K} {l : List ((K × Sym n) × (K × Sym n))} {d : K}
    (h : compareLoop c l = d) (hd : d ≠ 0) : c = d ∧ ∀ p ∈ l, p.1.2 = p.2.2 ∧ p.1.1 = c * p.2.1 := by
  induction l with
  | nil => exact ⟨h, by simp⟩
  | cons p l ih =>
    obtain ⟨a, b⟩ := p
    rw [compareLoop] at h
    split_ifs at h with h1 h2
    · exact absurd h.symm hd
    · obtain ⟨h3, h4⟩ := ih h
      refine ⟨h3, fun p hp => ?_⟩
      rcases List.mem_cons.mp hp with rfl | hp
      · rw [not_not] at h2
        exact ⟨h1.2, by rw [← h2, div_mul_cancel₀ _ h1.1]⟩
      · exact h4 p hp
    · exact absurd h.symm hd

theorem den_zip {c : K} : ∀ {a b : List (K × Sym n)}, a.length = b.length →
    (∀ p ∈ a.zip b, p.1.2 = p.2.2 ∧ p.1.1 = c * p.2.1) → den g a = c • den g b
  | [], [], _, _ => by simp [den]
  | x :: a, y :: b, hl, h => by
    have h1 := h (x, y) (by simp)
    have h2 := den_zip (by simpa using hl) fun p hp => h p (by simp [hp])
    rw [den] at h2 ⊢
    rw [List.map_cons, List.sum_cons, h2, den, den, List.map_cons, List.sum_cons, smul_add, smul_smul,
      h1.2, h1.1]
  | [], _ :: _, hl, _ => by simp at hl
  | _ :: _, [], hl, _ => by simp at hl

theorem compare_sound {A B : Mv K n} (hc : compare A B ≠ 0) :
    A.val g = compare A B • B.val g := by
  have key : ∀ a b : List (K × Sym n), ∀ d : K, d ≠ 0 →
      (if a.length ≠ b.length then (0 : K)
        else if a.map Prod.snd ≠ b.map Prod.snd then 0
        else match a, b with
          | a0 :: as, b0 :: bs =>
            if b0.1 ≠ 0 ∧ a0.2 = b0.2 then compareLoop (a0.1 / b0.1) (as.zip bs) else 0
          | _, _ => 0) = d → den g a = d • den g b := by
    intro a b d hd h
    split_ifs at h with h1 h2
    · exact absurd h.symm hd
    · exact absurd h.symm hd
    · split at h
      · rename_i a0 as b0 bs
        split_ifs at h with h3
        · obtain ⟨h4, h5⟩ := compareLoop_sound h hd
          refine den_zip (not_not.mp h1) fun p hp => ?_
          rw [List.zip_cons_cons, List.mem_cons] at hp
          rcases hp with rfl | hp
          · exact ⟨h3.2, by rw [← h4, div_mul_cancel₀ _ h3.1]⟩
          · rw [← h4]; exact h5 p hp
        · exact absurd h.symm hd
      · exact absurd h.symm hd
  have := key (linearExpand A.obj) (linearExpand B.obj) _ hc rfl
  rwa [den_linearExpand, den_linearExpand] at this

/-- C52: when `compare(A, B)` returns a non-zero `c`, then `A = c*B`; so it returns 0 when `A` is not a
multiple of `B`. -/
theorem C52_value_partial (hs : g.IsSymm) {A B : Mv K n} (hA : A.WF g) (hB : B.WF g)
    (hc : compare A B ≠ 0) : A.eq g (B.smul (compare A B)) = true := by
  rw [eq_spec hs hA (smul_spec _ hB).1, (smul_spec _ hB).2]
  exact compare_sound hc

theorem addTerm_append_new {E : Expr K n} {c : K} {s : Sym n} (h : s ∉ E.map Prod.snd) :
    addTerm E c s = E ++ [(c, s)] := by
  induction E with
  | nil => rfl
  | cons t E ih =>
    rw [List.map_cons, List.mem_cons, not_or] at h
    rw [addTerm, if_neg (Ne.symm h.1), ih h.2, List.cons_append]

theorem gatherE_self {E : Expr K n} (h : (E.map Prod.snd).Nodup) : gatherE E = E := by
  have key : ∀ (l acc : Expr K n), ((acc ++ l).map Prod.snd).Nodup →
      l.foldl (fun acc t => addTerm acc t.1 t.2) acc = acc ++ l := by
    intro l
    induction l with
    | nil => intro acc _; simp
    | cons t l ih =>
      intro acc hn
      rw [List.foldl_cons, addTerm_append_new, ih, List.append_assoc]
      · rfl
      · simpa using hn
      · intro hm
        rw [List.map_append, List.map_cons, List.nodup_append] at hn
        exact hn.2.2 _ hm _ List.mem_cons_self rfl
  exact key E [] h

theorem linearExpand_wf {A : Mv K n} (hA : A.WF g) (h0 : A.obj ≠ []) : linearExpand A.obj = A.obj := by
  have h1 : expand A.obj = A.obj := by
    rw [expand, gatherE_self hA.1, List.filter_eq_self]
    intro t ht
    simpa using Or.inl (hA.2.1 t ht)
  rw [linearExpand, h1]
  cases h : A.obj with
  | nil => exact absurd h h0
  | cons t E => dsimp only; rw [← h, gatherE_self hA.1]

theorem coeff_of_mem_nodup {E : Expr K n} (h : (E.map Prod.snd).Nodup) {c : K} {l : List (Fin n)}
    (ht : (c, Sym.blade l) ∈ E) : coeff E l = c := by
  induction E with
  | nil => simp at ht
  | cons t E ih =>
    rw [List.map_cons, List.nodup_cons] at h
    rw [coeff, List.map_cons, List.sum_cons]
    rcases List.mem_cons.mp ht with e | ht
    · subst e
      rw [if_pos rfl]
      have : (E.map fun t => if t.2 = .blade l then t.1 else 0).sum = 0 := by
        refine List.sum_eq_zero fun x hx => ?_
        obtain ⟨t, ht, rfl⟩ := List.mem_map.mp hx
        rw [if_neg]
        intro h2
        exact h.1 (List.mem_map.mpr ⟨t, ht, h2⟩)
      rw [this, add_zero]
    · rw [if_neg, zero_add]
      · exact ih h.2 ht
      · intro h2
        exact h.1 (h2 ▸ List.mem_map.mpr ⟨_, ht, rfl⟩)

theorem compareLoop_complete {c : K} {l : List ((K × Sym n) × (K × Sym n))}
    (h : ∀ p ∈ l, p.2.1 ≠ 0 ∧ p.1.2 = p.2.2 ∧ p.1.1 = c * p.2.1) : compareLoop c l = c := by
  induction l with
  | nil => rfl
  | cons p l ih =>
    obtain ⟨a, b⟩ := p
    obtain ⟨h1, h2, h3⟩ := h (a, b) List.mem_cons_self
    dsimp only at h1 h2 h3
    rw [compareLoop, if_pos ⟨h1, h2⟩, if_neg, ih fun p hp => h p (List.mem_cons_of_mem _ hp)]
    rw [not_not, h3, mul_div_cancel_right₀ _ h1]

/-- C52: when `A = c*B` with `c ≠ 0`, `B ≠ 0`, then `compare(A, B)` is `c`.  (The terms of `A` and `B`
are listed in the same order; SymPy keeps the arguments of a sum in a canonical order.) -/
theorem C52_complete_partial {A B : Mv K n} (hA : A.WF g) (hAb : A.isBladeRep = true)
    (hB : B.WF g) (hBb : B.isBladeRep = true) (hB0 : B.isZero = false)
    (hord : A.obj.map Prod.snd = B.obj.map Prod.snd) {c : K}
    (h : A.val g = c • B.val g) : compare A B = c := by
  have b0 : B.obj ≠ [] := by simpa [Mv.isZero] using hB0
  have a0 : A.obj ≠ [] := by
    intro e; rw [e] at hord; exact b0 (List.map_eq_nil_iff.mp hord.symm)
  have hvA := hA.valid (Or.inl hAb)
  have hvB := hB.valid (Or.inl hBb)
  have hco : ∀ l : List (Fin n), l.Pairwise (· < ·) → coeff A.obj l = c * coeff B.obj l := by
    intro l hl
    have h1 : ∀ s : Finset (Fin n), coeff A.obj (s.sort (· ≤ ·)) = c * coeff B.obj (s.sort (· ≤ ·)) := by
      intro s
      rw [← toExt_den g hvA, ← toExt_den g hvB]
      have h' : den g A.obj = c • den g B.obj := h
      rw [h', map_smul, map_smul, Finsupp.smul_apply, smul_eq_mul]
    have h2 : l.toFinset.sort (· ≤ ·) = l := by
      refine List.Perm.eq_of_pairwise' (r := (· ≤ ·)) ?_ ?_ ?_
      · exact Finset.pairwise_sort _ _
      · exact hl.imp le_of_lt
      · refine (Finset.sort_perm_toList _ _).trans ?_
        exact (List.toFinset_toList (hl.imp ne_of_lt))
    have := h1 l.toFinset
    rwa [h2] at this
  have hlen : A.obj.length = B.obj.length := by
    have := congrArg List.length hord
    simpa using this
  have hz : ∀ p ∈ A.obj.zip B.obj, p.2.1 ≠ 0 ∧ p.1.2 = p.2.2 ∧ p.1.1 = c * p.2.1 := by
    intro p hp
    have hs : p.1.2 = p.2.2 := by
      have : ∀ (a b : Expr K n), a.map Prod.snd = b.map Prod.snd → ∀ p ∈ a.zip b, p.1.2 = p.2.2 := by
        intro a
        induction a with
        | nil => intro b _ p hp; simp at hp
        | cons x a ih =>
          intro b hb p hp
          cases b with
          | nil => simp at hp
          | cons y b =>
            rw [List.map_cons, List.map_cons, List.cons.injEq] at hb
            rw [List.zip_cons_cons, List.mem_cons] at hp
            rcases hp with rfl | hp
            · exact hb.1
            · exact ih b hb.2 p hp
      exact this _ _ hord p hp
    have m1 := List.of_mem_zip (show (p.1, p.2) ∈ A.obj.zip B.obj from hp)
    obtain ⟨l, hl, hlt⟩ := hvA p.1 m1.1
    refine ⟨hB.2.1 _ m1.2, hs, ?_⟩
    have e1 : coeff A.obj l = p.1.1 := coeff_of_mem_nodup hA.1 (by rw [← hl]; exact m1.1)
    have e2 : coeff B.obj l = p.2.1 := coeff_of_mem_nodup hB.1 (by rw [← hl, hs]; exact m1.2)
    rw [← e1, ← e2]
    exact hco l hlt
  rw [compare, linearExpand_wf hA a0, linearExpand_wf hB b0, if_neg (by simpa using hlen),
    if_neg (by simpa using hord)]
  cases ha : A.obj with
  | nil => exact absurd ha a0
  | cons x a =>
    cases hb : B.obj with
    | nil => exact absurd hb b0
    | cons y b =>
      rw [ha, hb, List.zip_cons_cons] at hz
      obtain ⟨h1, h2, h3⟩ := hz (x, y) List.mem_cons_self
      dsimp only at h1 h2 h3 ⊢
      rw [if_pos ⟨h1, h2⟩, h3, mul_div_cancel_right₀ _ h1]
      exact compareLoop_complete fun p hp => hz p (List.mem_cons_of_mem _ hp)

/-- C52 fails as documented: `compare(2*e_0, e_0)` returns 2, but `e_0 ≠ 2*(2*e_0)`. -/
theorem C52_documented_counterexample :
    let A : Mv ℚ 3 := Mv.ofExpr [(2, .blade [0])]
    let B : Mv ℚ 3 := Mv.ofExpr [(1, .blade [0])]
    compare A B = 2 ∧ A.eq Ex.gO (B.smul (compare A B)) = true ∧
      B.eq Ex.gO (A.smul (compare A B)) = false := by
  decide +kernel

/-- The hypotheses are met. -/
example : compare (Ex.A.smul 3) Ex.A = 3 ∧ (Ex.A.smul 3).WF Ex.gN ∧ Ex.A.WF Ex.gN ∧
    compare Ex.A Ex.B = 0 ∧ (Ex.A.smul 3).obj.map Prod.snd = Ex.A.obj.map Prod.snd :=
  ⟨by decide +kernel, (smul_spec 3 (Ex.A_wf _)).1, Ex.A_wf _, by decide +kernel, by decide +kernel⟩

end GA
