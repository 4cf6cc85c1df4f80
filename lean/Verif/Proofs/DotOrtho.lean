import Verif.Proofs.Grades
import Mathlib.Tactic.NoncommRing

/-! The bubble sort with contraction of `_of_basis_blades_ortho`. -/

set_option linter.unusedSectionVars false

namespace GA
variable {n : ℕ} {R : Type*} [CommRing R]

/-- Entries of the same factor are in increasing order. -/
def TagInv (T : List (Bool × Fin n)) : Prop := T.Pairwise fun a b => a.1 = b.1 → a.2 < b.2

/-- Number of entries coming from one factor. -/
def cnt (b : Bool) (T : List (Bool × Fin n)) : ℕ := (T.filter fun a => a.1 = b).length

theorem cnt_append (b : Bool) (S T : List (Bool × Fin n)) : cnt b (S ++ T) = cnt b S + cnt b T := by
  simp [cnt]

theorem cnt_cons (b : Bool) (a : Bool × Fin n) (T : List (Bool × Fin n)) :
    cnt b (a :: T) = (if a.1 = b then 1 else 0) + cnt b T := by
  simp only [cnt, List.filter_cons]
  by_cases h : a.1 = b <;> simp [h]; omega

theorem cnt_reverse (b : Bool) (T : List (Bool × Fin n)) : cnt b T.reverse = cnt b T := by
  simp [cnt]

theorem cnt_length (T : List (Bool × Fin n)) : cnt true T + cnt false T = T.length := by
  induction T with
  | nil => rfl
  | cons a T ih =>
    rw [cnt_cons, cnt_cons, List.length_cons]
    rcases a with ⟨a | a, x⟩ <;> simp <;> omega

section pass
variable {A : Type*} [Ring A] [Algebra R A] (g : Matrix (Fin n) (Fin n) R) (f : Fin n → A)
  (hf : ∀ i j, i ≠ j → f i * f j = -(f j * f i))
  (hsq : ∀ i, f i * f i = algebraMap R A (g i i))

set_option maxHeartbeats 1600000 in
include hf hsq in
theorem dotPass_spec (grade : ℕ) :
    ∀ (p q : List (Fin n)) (ordered : Bool) (len : ℕ) (sgn : ℤ) (result : R)
      (P Q : List (Bool × Fin n)), P.map Prod.snd = p → Q.map Prod.snd = q →
      TagInv (P.reverse ++ Q) → len = p.length + q.length →
      (ordered = true → p.Pairwise (· > ·)) →
      match dotPass g grade p q ordered len sgn result with
      | none => ∃ (c : R) (l : List (Fin n)), l.length < grade ∧
          ((sgn : R) * result) • ((p.reverse ++ q).map f).prod = c • (l.map f).prod
      | some s =>
        ((sgn : R) * result) • ((p.reverse ++ q).map f).prod =
          ((s.sgn : R) * s.result) • (s.index.map f).prod ∧ s.len = s.index.length ∧
        (s.ordered = true → s.index.Pairwise (· < ·)) ∧
        (grade ≤ len → grade ≤ s.len) ∧
        ∃ T : List (Bool × Fin n), T.map Prod.snd = s.index ∧ TagInv T ∧
          ∃ k, cnt true T + k = cnt true (P.reverse ++ Q) ∧
            cnt false T + k = cnt false (P.reverse ++ Q) := by
  intro p q ordered len sgn result
  fun_induction dotPass g grade p q ordered len sgn result with
  | case1 p ordered len sgn result =>
    rintro P Q rfl hQ hT hlen hord
    have hQ' : Q = [] := by simpa using hQ
    subst hQ'
    refine ⟨by simp, by simpa using hlen, fun h => ?_, fun h => h, P.reverse, by simp, ?_, 0, by simp, by simp⟩
    · exact List.pairwise_reverse.mpr (hord h)
    · simpa using hT
  | case2 y q ordered len sgn result ih =>
    rintro P Q hP hQ hT hlen hord
    have hP' : P = [] := by simpa using hP
    subst hP'
    match Q, hQ with
    | b :: Q, hQ =>
      rw [List.map_cons, List.cons.injEq] at hQ
      obtain ⟨rfl, rfl⟩ := hQ
      have := ih [b] Q (by simp) rfl (by simpa using hT) (by simp at hlen ⊢; omega) (by simp)
      simpa using this
  | case3 p y q ordered len sgn result hlt =>
    rintro P Q hP hQ hT hlen hord
    refine ⟨(sgn : R) * result * g y y, p.reverse ++ q, ?_, ?_⟩
    · simp only [List.length_cons] at hlen
      rw [List.length_append, List.length_reverse]
      omega
    · simp only [List.reverse_cons, List.append_assoc, List.cons_append, List.nil_append,
        List.map_append, List.map_cons, List.prod_append, List.prod_cons]
      rw [← mul_assoc (f y), hsq, mul_smul _ (g y y), Algebra.smul_def (g y y), ← mul_assoc,
        ← mul_assoc, ← Algebra.commutes]
  | case4 p y ordered len sgn result hlt =>
    rintro P Q hP hQ hT hlen hord
    match P, Q, hP, hQ with
    | a :: P, b :: Q, hP, hQ =>
    rw [List.map_cons, List.cons.injEq] at hP hQ
    obtain ⟨hP1, rfl⟩ := hP
    obtain ⟨hQ1, hQ2⟩ := hQ
    have hQ' : Q = [] := by simpa using hQ2
    subst hQ'
    have htag : a.1 ≠ b.1 := by
      intro h
      simp only [List.reverse_cons, List.append_assoc, List.cons_append, List.nil_append] at hT
      have h1 := (List.pairwise_append.mp hT).2.1
      have := (List.pairwise_cons.mp h1).1 b (by simp) h
      rw [hP1, hQ1] at this
      exact absurd this (lt_irrefl _)
    simp only [List.length_cons, List.length_nil] at hlen
    refine ⟨?_, ?_, ?_, ?_, P.reverse, by simp, ?_, 1, ?_, ?_⟩
    · simp only [List.reverse_cons, List.append_assoc, List.cons_append, List.nil_append,
        List.map_append, List.map_cons, List.prod_append, List.prod_cons, List.map_nil,
        List.prod_nil, mul_one]
      rw [hsq, ← mul_assoc, mul_smul _ (g y y), Algebra.smul_def (g y y), Algebra.commutes]
    · simp only [List.length_reverse]; omega
    · intro h
      exact List.pairwise_reverse.mpr (List.pairwise_cons.mp (hord h)).2
    · intro h; dsimp only; omega
    · simp only [List.reverse_cons, List.append_assoc] at hT
      exact (List.pairwise_append.mp hT).1
    · simp only [List.reverse_cons, cnt_append, cnt_cons]
      rcases a with ⟨a, x⟩; rcases b with ⟨b, x'⟩
      cases a <;> cases b <;> simp [cnt] at htag ⊢
    · simp only [List.reverse_cons, cnt_append, cnt_cons]
      rcases a with ⟨a, x⟩; rcases b with ⟨b, x'⟩
      cases a <;> cases b <;> simp [cnt] at htag ⊢
  | case5 p y ordered len sgn result hlt z q' ih =>
    rintro P Q hP hQ hT hlen hord
    match P, Q, hP, hQ with
    | _ :: _, [_], _, hQ => simp at hQ
    | a :: P, b :: c :: Q, hP, hQ =>
    simp only [List.map_cons, List.cons.injEq] at hP hQ
    obtain ⟨hP1, rfl⟩ := hP
    obtain ⟨hQ1, rfl, rfl⟩ := hQ
    simp only [List.reverse_cons, List.append_assoc, List.cons_append, List.nil_append] at hT
    obtain ⟨hT1, hT2, hT3⟩ := List.pairwise_append.mp hT
    have hT4 := List.pairwise_cons.mp hT2
    have hT5 := List.pairwise_cons.mp hT4.2
    have htag : a.1 ≠ b.1 := by
      intro h
      have := hT4.1 b (by simp) h
      rw [hP1, hQ1] at this
      exact absurd this (lt_irrefl _)
    have hor : ∀ t : Bool, t = a.1 ∨ t = b.1 := by
      intro t
      cases t <;> cases ha : a.1 <;> cases hb : b.1 <;> simp_all
    -- entries before the pair are smaller, entries after it larger
    have hsmall : ∀ x ∈ P, x.2 < y := by
      intro x hx
      rcases hor x.1 with h | h
      · rw [← hP1]; exact hT3 x (by simpa using hx) a (by simp) h
      · rw [← hQ1]; exact hT3 x (by simpa using hx) b (by simp) h
    have hbig : y < c.2 := by
      rcases hor c.1 with h | h
      · rw [← hP1]; exact hT4.1 c (by simp) h.symm
      · rw [← hQ1]; exact hT5.1 c (by simp) h.symm
    simp only [List.length_cons] at hlen
    have hT' : TagInv ((c :: P).reverse ++ Q) := by
      simp only [List.reverse_cons, List.append_assoc, List.cons_append, List.nil_append]
      refine hT.sublist (List.Sublist.append_left ?_ _)
      exact List.Sublist.cons _ (List.Sublist.cons _ (List.Sublist.refl _))
    have := ih (c :: P) Q (by simp) rfl hT' (by simp only [List.length_cons]; omega) ?_
    · have hprod : (((y :: P.map Prod.snd).reverse ++ y :: c.2 :: Q.map Prod.snd).map f).prod =
          g y y • (((c.2 :: P.map Prod.snd).reverse ++ Q.map Prod.snd).map f).prod := by
        simp only [List.reverse_cons, List.append_assoc, List.cons_append, List.nil_append,
          List.map_append, List.map_cons, List.prod_append, List.prod_cons]
        rw [← mul_assoc (f y), hsq, Algebra.smul_def (g y y), ← mul_assoc, ← Algebra.commutes,
          mul_assoc]
      rw [hprod, ← mul_smul, mul_assoc ((sgn : R))]
      cases hr : dotPass g grade (c.2 :: P.map Prod.snd) (Q.map Prod.snd) ordered (len - 2) sgn
          (result * g y y) with
      | none => rw [hr] at this; exact this
      | some s =>
        rw [hr] at this
        obtain ⟨h1, h2, h3, h4, T, h5, h6, k, h7, h8⟩ := this
        refine ⟨h1, h2, h3, fun h => h4 (by omega), T, h5, h6, k + 1, ?_, ?_⟩
        · simp only [List.reverse_cons, cnt_append, cnt_cons] at h7 ⊢
          rcases a with ⟨a, x⟩; rcases b with ⟨b, x'⟩
          cases a <;> cases b <;> simp [cnt] at htag h7 ⊢ <;> omega
        · simp only [List.reverse_cons, cnt_append, cnt_cons] at h8 ⊢
          rcases a with ⟨a, x⟩; rcases b with ⟨b, x'⟩
          cases a <;> cases b <;> simp [cnt] at htag h8 ⊢ <;> omega
    · intro h
      refine List.pairwise_cons.mpr ⟨?_, (List.pairwise_cons.mp (hord h)).2⟩
      intro x hx
      obtain ⟨u, hu, rfl⟩ := List.mem_map.mp hx
      exact (hsmall u hu).trans hbig
  | case6 x p y q ordered len sgn result hne hgt ih =>
    rintro P Q hP hQ hT hlen hord
    match P, Q, hP, hQ with
    | a :: P, b :: Q, hP, hQ =>
    rw [List.map_cons, List.cons.injEq] at hP hQ
    obtain ⟨rfl, rfl⟩ := hP
    obtain ⟨rfl, rfl⟩ := hQ
    simp only [List.reverse_cons, List.append_assoc, List.cons_append, List.nil_append] at hT
    obtain ⟨hT1, hT2, hT3⟩ := List.pairwise_append.mp hT
    have hT4 := List.pairwise_cons.mp hT2
    have hT5 := List.pairwise_cons.mp hT4.2
    have htag : a.1 ≠ b.1 := by
      intro h
      have := hT4.1 b (by simp) h
      exact absurd this (not_lt.mpr (le_of_lt hgt))
    have hT' : TagInv ((a :: b :: P).reverse ++ Q) := by
      simp only [List.reverse_cons, List.append_assoc, List.cons_append, List.nil_append]
      refine List.pairwise_append.mpr ⟨hT1, ?_, ?_⟩
      · refine List.pairwise_cons.mpr ⟨?_, List.pairwise_cons.mpr ⟨?_, hT5.2⟩⟩
        · intro u hu
          rcases List.mem_cons.mp hu with rfl | hu
          · intro h; exact absurd h.symm htag
          · exact hT5.1 u hu
        · intro u hu; exact hT4.1 u (by simp [hu])
      · intro u hu v hv
        refine hT3 u hu v ?_
        simp only [List.mem_cons] at hv ⊢
        tauto
    have := ih (a :: b :: P) Q (by simp) rfl hT' (by simp at hlen ⊢; omega) (by simp)
    have hprod : ((((a.2 :: P.map Prod.snd).reverse ++ b.2 :: Q.map Prod.snd).map f).prod) =
        -((((a.2 :: b.2 :: P.map Prod.snd).reverse ++ Q.map Prod.snd).map f).prod) := by
      simp only [List.reverse_cons, List.append_assoc, List.cons_append, List.nil_append,
        List.map_append, List.map_cons, List.prod_append, List.prod_cons]
      have h := hf a.2 b.2 hne
      rw [← mul_assoc (f a.2), h]
      noncomm_ring
    have hsc : ((sgn : R) * result) •
        ((((a.2 :: P.map Prod.snd).reverse ++ b.2 :: Q.map Prod.snd).map f).prod) =
        (((-sgn : ℤ) : R) * result) •
        ((((a.2 :: b.2 :: P.map Prod.snd).reverse ++ Q.map Prod.snd).map f).prod) := by
      rw [hprod, smul_neg, ← neg_smul]; push_cast; rw [neg_mul]
    rw [hsc]
    have hc : ∀ t, cnt t ((a :: b :: P).reverse ++ Q) = cnt t ((a :: P).reverse ++ b :: Q) := by
      intro t
      have h0 : cnt t ([] : List (Bool × Fin n)) = 0 := rfl
      simp only [List.reverse_cons, cnt_append, cnt_cons, h0]
      omega
    rw [hc, hc] at this
    exact this
  | case7 x p y q ordered len sgn result hne hgt ih =>
    rintro P Q hP hQ hT hlen hord
    match P, Q, hP, hQ with
    | a :: P, b :: Q, hP, hQ =>
    rw [List.map_cons, List.cons.injEq] at hP hQ
    obtain ⟨rfl, rfl⟩ := hP
    obtain ⟨rfl, rfl⟩ := hQ
    have := ih (b :: a :: P) Q (by simp) rfl (by simpa using hT) (by simp at hlen ⊢; omega) ?_
    · simpa using this
    · intro h
      refine List.pairwise_cons.mpr ⟨?_, hord h⟩
      have hlt : a.2 < b.2 := lt_of_le_of_ne (not_lt.mp hgt) hne
      intro u hu
      rcases List.mem_cons.mp hu with rfl | hu
      · exact hlt
      · exact ((List.pairwise_cons.mp (hord h)).1 u hu).trans hlt

/-- Result of the outer loop, for a target grade that needs one factor to be used up. -/
theorem tagInv_single {T : List (Bool × Fin n)} (b : Bool) (h : TagInv T) (hb : cnt b T = 0) :
    (T.map Prod.snd).Pairwise (· < ·) := by
  rw [List.pairwise_map]
  have hall : ∀ a ∈ T, a.1 = !b := by
    intro a ha
    rw [cnt, List.length_eq_zero_iff, List.filter_eq_nil_iff] at hb
    have := hb a ha
    cases hb' : a.1 <;> cases b <;> simp_all
  refine List.Pairwise.imp_of_mem ?_ h
  intro a b ha hb' hab
  exact hab (by rw [hall a ha, hall b hb'])

include hf hsq in
theorem dotLoop_spec (grade : ℕ) (len : ℕ) (sgn : ℤ) (result : R) (index : List (Fin n))
    (T : List (Bool × Fin n)) (hT : T.map Prod.snd = index) (hinv : TagInv T)
    (hlen : len = index.length) (hle : grade ≤ len)
    (hgrade : grade = 0 ∨ grade + cnt true T = cnt false T ∨ grade + cnt false T = cnt true T) :
    match dotLoop g grade len sgn result index with
    | none => ∃ (c : R) (l : List (Fin n)), l.length < grade ∧
        ((sgn : R) * result) • (index.map f).prod = c • (l.map f).prod
    | some s =>
      ((sgn : R) * result) • (index.map f).prod =
        ((s.sgn : R) * s.result) • (s.index.map f).prod ∧ s.len = s.index.length ∧
      s.index.Pairwise (· < ·) ∧ grade ≤ s.len := by
  fun_induction dotLoop g grade len sgn result index generalizing T with
  | case1 len sgn result index hgt hnone =>
    have := dotPass_spec g f hf hsq grade [] index true len sgn result [] T rfl hT
      (by simpa using hinv) (by simpa using hlen) (by simp)
    rw [hnone] at this
    simpa using this
  | case2 len sgn result index hgt s hsome hord =>
    have := dotPass_spec g f hf hsq grade [] index true len sgn result [] T rfl hT
      (by simpa using hinv) (by simpa using hlen) (by simp)
    rw [hsome] at this
    obtain ⟨h1, h2, h3, h4, -⟩ := this
    exact ⟨by simpa using h1, h2, h3 hord, h4 hle⟩
  | case3 len sgn result index hgt s hsome hord ih =>
    have := dotPass_spec g f hf hsq grade [] index true len sgn result [] T rfl hT
      (by simpa using hinv) (by simpa using hlen) (by simp)
    rw [hsome] at this
    obtain ⟨h1, h2, h3, h4, T', h5, h6, k, h7, h8⟩ := this
    simp only [List.reverse_nil, List.nil_append] at h1 h7 h8
    have := ih T' h5 h6 h2 (h4 hle) (by omega)
    rw [h1]
    exact this
  | case4 len sgn result index hgt =>
    refine ⟨rfl, hlen, ?_, hle⟩
    have h1 : len = grade := by omega
    have h2 := cnt_length T
    have h3 : T.length = len := by rw [hlen, ← hT, List.length_map]
    rcases hgrade with h | h | h
    · have : index = [] := by rw [← List.length_eq_zero_iff]; omega
      rw [this]; exact List.Pairwise.nil
    · rw [← hT]; exact tagInv_single true hinv (by omega)
    · rw [← hT]; exact tagInv_single false hinv (by omega)

end pass

/-- A grade function of one of the inner products. -/
def GoodGrade (rg : ℕ → ℕ → Option ℕ) : Prop :=
  ∀ r s t, rg r s = some t → t = 0 ∨ t + r = s ∨ t + s = r

theorem goodGrade_hestenes : GoodGrade hestenesGrade := by
  intro r s t h
  rw [hestenesGrade] at h
  split_ifs at h with h0
  injection h with h
  omega

theorem goodGrade_scalar : GoodGrade scalarGrade := by
  intro r s t h
  injection h with h
  exact Or.inl h.symm

theorem goodGrade_left : GoodGrade leftGrade := by
  intro r s t h
  simp only [leftGrade] at h
  split_ifs at h with h0
  injection h with h
  omega

theorem goodGrade_right : GoodGrade rightGrade := by
  intro r s t h
  simp only [rightGrade] at h
  split_ifs at h with h0
  injection h with h
  omega

section den
variable [DecidableEq R] [Invertible (2 : R)] (g : Matrix (Fin n) (Fin n) R)

/-- Value of the product of two basis blades for a grade function: the part of the selected grade
of their geometric product. -/
noncomputable def gradedVal (rg : ℕ → ℕ → Option ℕ) (s t : Sym n) : Spec.Cl g :=
  match rg (symLen s) (symLen t) with
  | none => 0
  | some r => Spec.grade g r (symDen g s * symDen g t)

theorem dotBladesOrtho_spec (hg : ∀ i j, i ≠ j → g i j = 0) {rg : ℕ → ℕ → Option ℕ}
    (hrg : GoodGrade rg) {s t : Sym n} (hs : IsBl s) (ht : IsBl t) :
    AllSyms IsBl (dotBladesOrtho g rg s t) ∧ den g (dotBladesOrtho g rg s t) = gradedVal g rg s t := by
  obtain ⟨I, hI', rfl, hI⟩ := isBl_get hs
  obtain ⟨J, hJ', rfl, hJ⟩ := isBl_get ht
  rw [dotBladesOrtho, hI', hJ']
  simp only [dotOrtho, gradedVal, symLen]
  cases hr : rg I.length J.length with
  | none => simp
  | some r =>
    simp only [symDen]
    have hb : ∀ l : List (Fin n), l.Pairwise (· < ·) → Spec.blade g l = Spec.base g l :=
      fun l hl => Spec.blade_eq_base_of_ortho g hg l (nodup_of_lt hl)
    let T : List (Bool × Fin n) := I.map (fun i => (true, i)) ++ J.map (fun i => (false, i))
    have hT : T.map Prod.snd = I ++ J := by simp [T, Function.comp_def]
    have hinv : TagInv T := by
      refine List.pairwise_append.mpr ⟨?_, ?_, ?_⟩
      · rw [List.pairwise_map]; refine List.Pairwise.imp ?_ hI; intro a b h _; exact h
      · rw [List.pairwise_map]; refine List.Pairwise.imp ?_ hJ; intro a b h _; exact h
      · intro a ha b hb' hab
        obtain ⟨i, -, rfl⟩ := List.mem_map.mp ha
        obtain ⟨j, -, rfl⟩ := List.mem_map.mp hb'
        simp at hab
    have hc1 : cnt true T = I.length := by
      simp only [T, cnt_append]
      simp [cnt, List.filter_map, Function.comp_def]
    have hc2 : cnt false T = J.length := by
      simp only [T, cnt_append]
      simp [cnt, List.filter_map, Function.comp_def]
    have hgood := hrg _ _ _ hr
    have hloop := dotLoop_spec g (Spec.e g) (fun i j h => Spec.e_anticomm_of_ortho g hg h)
      (fun i => Spec.e_sq g i) r (I ++ J).length 1 1 (I ++ J) T hT hinv rfl
      (by rw [List.length_append]; omega) (by rw [hc1, hc2]; omega)
    rw [hb I hI, hb J hJ, ← Spec.base_append]
    have hbase : ∀ l : List (Fin n), (l.map (Spec.e g)).prod = Spec.base g l := fun _ => rfl
    simp only [hbase, Int.cast_one, one_mul, one_smul] at hloop
    cases hl : dotLoop g r (I ++ J).length 1 1 (I ++ J) with
    | none =>
      rw [hl] at hloop
      obtain ⟨c, l, h1, h2⟩ := hloop
      rw [h2, map_smul, Spec.grade_base_of_lt g h1, smul_zero]
      simp
    | some st =>
      rw [hl] at hloop
      obtain ⟨h1, h2, h3, h4⟩ := hloop
      rw [h1, map_smul, ← hb _ h3, Spec.grade_blade]
      simp only
      by_cases hgt : st.len > r
      · rw [if_pos hgt, if_neg (by omega)]
        simp
      · rw [if_neg hgt, if_pos (by omega)]
        simp only
        have hres : (if st.index = [] then [((st.sgn : R) * st.result, Sym.blade [])]
            else [((st.sgn : R) * st.result, lookupBlade st.index)]) =
            [((st.sgn : R) * st.result, Sym.blade st.index)] := by
          split_ifs with h0
          · rw [h0]
          · rw [lookupBlade_of h3]
        rw [hres]
        refine ⟨by simpa using ⟨_, rfl, h3⟩, ?_⟩
        simp [den, symDen]

theorem dotBladesNonOrtho_spec (hs : g.IsSymm) {rg : ℕ → ℕ → Option ℕ} {s t : Sym n}
    (h1 : IsBl s) (h2 : IsBl t) :
    AllSyms IsBl (dotBladesNonOrtho g rg s t) ∧
      den g (dotBladesNonOrtho g rg s t) = gradedVal g rg s t := by
  obtain ⟨hbx, -⟩ := bladeExpansionDict_spec g hs
  rw [dotBladesNonOrtho, grade_of_isBl h1, grade_of_isBl h2, gradedVal]
  simp only
  cases hr : rg (symLen s) (symLen t) with
  | none => simp
  | some r =>
    obtain ⟨I, rfl, hI⟩ := h1
    obtain ⟨J, rfl, hJ⟩ := h2
    obtain ⟨E, hE, hE1, hE2, -⟩ := hbx I hI
    obtain ⟨F, hF, hF1, hF2, -⟩ := hbx J hJ
    simp only [hE, hF]
    have hE1' : AllSyms IsAny E := hE1.mono fun _ h => Or.inr h.1
    have hF1' : AllSyms IsAny F := hF1.mono fun _ h => Or.inr h.1
    have hv : AllSyms IsBl (updateAndSubstitute (gpBladesNonOrtho g) E F) :=
      allSyms_uas hE1' hF1' isAny_one isAny_one fun s t hs' ht =>
        (gpBladesNonOrtho_spec g hs hs' ht).1
    have hd : den g (updateAndSubstitute (gpBladesNonOrtho g) E F) = den g E * den g F :=
      lin_uas (symDen g) (symDen g) (symDen g) (LinearMap.mul R (Spec.Cl g)) hE1' hF1'
        isAny_one isAny_one fun s t hs' ht => (gpBladesNonOrtho_spec g hs hs' ht).2
    obtain ⟨hv2, hd2⟩ := toBlade_spec g hs (hv.mono fun _ h => Or.inl h)
    obtain ⟨d, hd3, hd4⟩ := gradeDecomposition_spec g (A := ncSubs (expand
      (updateAndSubstitute (gpBladesNonOrtho g) E F)) (baseExpansionDict g)) hv2
    obtain ⟨a1, -, a3⟩ := hd4 r
    rw [hd3]
    refine ⟨a1, ?_⟩
    rw [a3, hd2, hd, hE2, hF2]
    rfl

theorem dotBlades_spec (hs : g.IsSymm) {rg : ℕ → ℕ → Option ℕ} (hrg : GoodGrade rg) {s t : Sym n}
    (h1 : IsBl s) (h2 : IsBl t) :
    AllSyms IsBl (dotBlades g rg s t) ∧ den g (dotBlades g rg s t) = gradedVal g rg s t := by
  rw [dotBlades]
  split_ifs with h
  · exact dotBladesOrtho_spec g (isOrtho_symm hs h) hrg h1 h2
  · exact dotBladesNonOrtho_spec g hs h1 h2

end den

end GA
