import Verif.Model.RSymbols
import Verif.Proofs.Conn

/-! # Substitution of the reciprocal symbols -/

set_option linter.unusedSectionVars false
set_option maxRecDepth 10000

namespace GA
variable {n : ℕ} {K : Type*} [Field K] [DecidableEq K]

theorem subs1_append (x : List Char) (E e e' : NameExpr K n) :
    subs1 x E (e ++ e') = subs1 x E e ++ subs1 x E e' := by simp [subs1]

theorem subs1_nil (x : List Char) (E : NameExpr K n) : subs1 x E [] = [] := rfl

theorem subsSeq_append (ps : List (List Char × NameExpr K n)) (e e' : NameExpr K n) :
    subsSeq ps (e ++ e') = subsSeq ps e ++ subsSeq ps e' := by
  induction ps generalizing e e' with
  | nil => rfl
  | cons p ps ih => simp only [subsSeq, List.foldl_cons, subs1_append] at ih ⊢; rw [ih]

theorem subsSeq_nil (ps : List (List Char × NameExpr K n)) : subsSeq ps [] = [] := by
  induction ps with
  | nil => rfl
  | cons p ps ih => simp only [subsSeq, List.foldl_cons, subs1_nil] at ih ⊢; rw [ih]

theorem subsSeq_map {α : Type*} (ps : List (List Char × NameExpr K n)) (l : List α) (f : α → K × NSym n) :
    subsSeq ps (l.map f) = l.flatMap fun a => subsSeq ps [f a] := by
  induction l with
  | nil => exact subsSeq_nil ps
  | cons a l ih =>
    rw [List.map_cons, List.flatMap_cons, ← ih, ← subsSeq_append]
    rfl

/-- A substitution does nothing to an expression without its symbols. -/
theorem subsSeq_of_not_mem {ps : List (List Char × NameExpr K n)} {e : NameExpr K n}
    (h : ∀ p ∈ ps, ∀ t ∈ e, t.2 ≠ .inl p.1) : subsSeq ps e = e := by
  induction ps with
  | nil => rfl
  | cons p ps ih =>
    have h1 : subs1 p.1 p.2 e = e := by
      have h2 := h p (by simp)
      clear ih h
      induction e with
      | nil => rfl
      | cons t e ihe =>
        rw [show t :: e = [t] ++ e from rfl, subs1_append,
          ihe fun u hu => h2 u (List.mem_cons_of_mem _ hu)]
        congr 1
        simp [subs1, h2 t (by simp)]
    rw [subsSeq, List.foldl_cons, h1]
    exact ih fun q hq => h q (List.mem_cons_of_mem _ hq)

theorem smulN_snd {c : K} {E : NameExpr K n} {t : K × NSym n} (h : t ∈ smulN c E) :
    ∃ u ∈ E, u.2 = t.2 := by
  rw [smulN, List.mem_map] at h
  obtain ⟨u, hu, rfl⟩ := h
  exact ⟨u, hu, rfl⟩

theorem subs1_self (c : K) (x : List Char) (E : NameExpr K n) :
    subs1 x E [(c, .inl x)] = smulN c E := by simp [subs1]

theorem subs1_other {x y : List Char} (h : y ≠ x) (c : K) (E : NameExpr K n) :
    subs1 x E [(c, .inl y)] = [(c, .inl y)] := by simp [subs1, h]

/-- The substitution of `r k` by `E k` for the indices in `order`, one after another, when the
expressions `E` contain no symbol `r j` except possibly the one they replace. -/
theorem subsSeq_single {r : Fin n → List Char} (hr : Function.Injective r) {E : Fin n → NameExpr K n}
    {order : List (Fin n)} (ho : order.Nodup) {k : Fin n} (hk : k ∈ order)
    (hE : ∀ j, ∀ t ∈ E k, t.2 = .inl (r j) → j = k) (c : K) :
    subsSeq (order.map fun j => (r j, E j)) [(c, .inl (r k))] = smulN c (E k) := by
  induction order with
  | nil => simp at hk
  | cons j order ih =>
    rw [List.nodup_cons] at ho
    rw [List.map_cons, subsSeq, List.foldl_cons, ← subsSeq]
    by_cases hjk : j = k
    · subst hjk
      rw [subs1_self]
      refine subsSeq_of_not_mem fun p hp t ht => ?_
      rw [List.mem_map] at hp
      obtain ⟨i, hi, rfl⟩ := hp
      obtain ⟨u, hu, e⟩ := smulN_snd ht
      intro h
      have := hE i u hu (e.trans h)
      subst this
      exact ho.1 hi
    · rw [List.mem_cons] at hk
      rw [subs1_other (fun h => hjk (hr h.symm))]
      exact ih ho.2 (hk.resolve_left fun h => hjk h.symm)

theorem nameE_smulE (b : Fin n → List Char) (c : K) (E : Expr K n) :
    nameE b (smulE c E) = smulN c (nameE b E) := by simp [nameE, smulE, smulN]

theorem nameE_append (b : Fin n → List Char) (E E' : Expr K n) :
    nameE b (E ++ E') = nameE b E ++ nameE b E' := by simp [nameE]

theorem nameE_flatMap {α : Type*} (b : Fin n → List Char) (l : List α) (f : α → Expr K n) :
    nameE b (l.flatMap f) = l.flatMap fun a => nameE b (f a) := by
  simp [nameE, List.map_flatMap]

theorem readSym_nameSym {b : Fin n → List Char} (hb : Function.Injective b) (s : Sym n) :
    readSym b (nameSym b s) = s := by
  unfold nameSym
  split
  · rename_i i
    rw [readSym]
    have : (List.finRange n).find? (fun k => decide (b k = b i)) = some i := by
      rw [List.find?_eq_some_iff_append]
      obtain ⟨l, l', e⟩ := List.append_of_mem (List.mem_finRange i)
      refine ⟨by simp, l, l', e, fun a ha => ?_⟩
      have hnd := List.nodup_finRange n
      rw [e, List.nodup_append] at hnd
      have hne : a ≠ i := fun h => hnd.2.2 a ha i (by simp) h
      simpa using fun h => hne (hb h)
    rw [this]
  · rfl

theorem readE_nameE {b : Fin n → List Char} (hb : Function.Injective b) (E : Expr K n) :
    readE b (nameE b E) = E := by
  simp only [readE, nameE, List.map_map]
  conv_rhs => rw [← List.map_id E]
  refine List.map_congr_left fun t _ => ?_
  simp [readSym_nameSym hb]

theorem nameE_snd {b : Fin n → List Char} {E : Expr K n} {t : K × NSym n} (ht : t ∈ nameE b E)
    {w : List Char} (h : t.2 = .inl w) : ∃ i, w = b i ∧ ∃ c, (c, Sym.blade [i]) ∈ E := by
  rw [nameE, List.mem_map] at ht
  obtain ⟨u, hu, rfl⟩ := ht
  unfold nameSym at h
  dsimp only at h
  split at h
  · rename_i i hi
    exact ⟨i, (Sum.inl.inj h).symm, u.1, by rw [← hi]; exact hu⟩
  · exact absurd h (by simp)

theorem smulN_append (c : K) (e e' : NameExpr K n) : smulN c (e ++ e') = smulN c e ++ smulN c e' := by
  simp [smulN]

theorem smulN_flatMap {α : Type*} (c : K) (l : List α) (f : α → NameExpr K n) :
    smulN c (l.flatMap f) = l.flatMap fun a => smulN c (f a) := by
  simp [smulN, List.map_flatMap]

theorem smulN_smulN (c d : K) (e : NameExpr K n) : smulN c (smulN d e) = smulN (c * d) e := by
  simp [smulN, Function.comp_def, mul_assoc]

theorem subs1_smulN (c : K) (x : List Char) (E e : NameExpr K n) :
    subs1 x E (smulN c e) = smulN c (subs1 x E e) := by
  induction e with
  | nil => rfl
  | cons t e ih =>
    rw [show t :: e = [t] ++ e from rfl, smulN_append, subs1_append, subs1_append, smulN_append, ih]
    congr 1
    by_cases h : t.2 = .inl x
    · simp [subs1, smulN, h, Function.comp_def, mul_assoc]
    · simp [subs1, smulN, h]

theorem subsSeq_smulN (c : K) (ps : List (List Char × NameExpr K n)) (e : NameExpr K n) :
    subsSeq ps (smulN c e) = smulN c (subsSeq ps e) := by
  induction ps generalizing e with
  | nil => rfl
  | cons p ps ih => simp only [subsSeq, List.foldl_cons, subs1_smulN] at ih ⊢; rw [ih]

variable [Invertible (2 : K)]

theorem deNames_eq (D : Fin n → K → K) (g : Matrix (Fin n) (Fin n) K) (N : Option (Fin n → K))
    {b r : Fin n → List Char} (hr : Function.Injective r) {order : List (Fin n)}
    (ho : order.Perm (List.finRange n)) {rb : List (Expr K n)}
    (h1 : ∀ k j : Fin n, ∀ t ∈ nameE b (rb.getD k errorE), t.2 = .inl (r j) → j = k)
    (h2 : N.isSome → ∀ j c, subsSeq (order.map fun k => (r k, nameE b (rb.getD k errorE)))
      [(c, .inl (b j))] = [(c, .inl (b j))]) (i j : Fin n) :
    deNames D g N b r order rb i j = nameE b (deEntry D g N rb i j) := by
  have hnd : order.Nodup := ho.nodup_iff.mpr (List.nodup_finRange n)
  have hmem : ∀ k, k ∈ order := fun k => ho.mem_iff.mpr (List.mem_finRange k)
  have key : ∀ k c, subsSeq (order.map fun k => (r k, nameE b (rb.getD k errorE))) [(c, .inl (r k))] =
      smulN c (nameE b (rb.getD k errorE)) := fun k c =>
    subsSeq_single (E := fun k => nameE b (rb.getD k errorE)) hr hnd (hmem k) (h1 k) c
  have hmain : ∀ e2 E : NameExpr K n, e2 = E → ∀ c : K, (if isOrtho g then e2 else smulN c e2) =
      if isOrtho g then E else smulN c E := by
    rintro _ _ rfl c; rfl
  have hname : ∀ (E : Expr K n) (c : K), nameE b (if isOrtho g then E else smulE c E) =
      if isOrtho g then nameE b E else smulN c (nameE b E) := by
    intro E c
    split_ifs
    · rfl
    · exact nameE_smulE b c E
  rw [deNames.eq_def, deEntry.eq_def, hname]
  refine hmain _ _ ?_ _
  cases N with
  | none =>
    dsimp only
    rw [subsSeq_map, nameE_flatMap]
    simp only [key, nameE_smulE]
  | some N =>
    dsimp only
    have hrn : subsSeq ((List.finRange n).map fun k => (r k, [((N k)⁻¹, (.inl (r k) : NSym n))]))
        ((List.finRange n).map fun k => (gamma1 D g i j k, .inl (r k))) =
        (List.finRange n).map fun k => (gamma1 D g i j k / N k, .inl (r k)) := by
      rw [subsSeq_map]
      have : ∀ k, subsSeq ((List.finRange n).map fun k => (r k, [((N k)⁻¹, (.inl (r k) : NSym n))]))
          [(gamma1 D g i j k, .inl (r k))] = [(gamma1 D g i j k / N k, .inl (r k))] := by
        intro k
        rw [subsSeq_single (E := fun k => [((N k)⁻¹, (.inl (r k) : NSym n))]) hr
          (List.nodup_finRange n) (List.mem_finRange k)]
        · simp [smulN, div_eq_mul_inv]
        · intro m t ht h
          rw [List.mem_singleton] at ht
          rw [ht] at h
          exact (hr (Sum.inl.inj h)).symm
      simp only [this]
      exact List.map_eq_flatMap.symm
    rw [hrn, subsSeq_smulN, subsSeq_append, subsSeq_map, h2 rfl, nameE_smulE, subE, addE, nameE_append,
      nameE_flatMap]
    simp only [key, nameE_smulE]
    rfl

/-- `Ga.de` does not depend on the names if no reciprocal symbol is a basis vector. -/
theorem deNamed_eq (D : Fin n → K → K) (g : Matrix (Fin n) (Fin n) K) (N : Option (Fin n → K))
    {b r : Fin n → List Char} (hb : Function.Injective b) (hr : Function.Injective r)
    (hbr : ∀ i j, r i ≠ b j) {order : List (Fin n)} (ho : order.Perm (List.finRange n)) :
    deNamed D g N b r order = de D g N := by
  rw [deNamed, de]
  congr 2
  congr 1
  funext rb
  congr 2
  funext i j
  rw [deNames_eq D g N hr ho, readE_nameE hb]
  · intro k m t ht h
    obtain ⟨i, e, -⟩ := nameE_snd ht h
    exact absurd e (hbr m i)
  · intro _ j c
    refine subsSeq_of_not_mem fun p hp t ht => ?_
    rw [List.mem_map] at hp
    obtain ⟨k, -, rfl⟩ := hp
    rw [List.mem_singleton] at ht
    rw [ht]
    exact fun h => hbr k j (Sum.inl.inj h).symm

theorem isOrtho_currentMetric {g : Matrix (Fin n) (Fin n) K} (h : isOrtho g = true)
    (N : Option (Fin n → K)) : isOrtho (currentMetric N g) = true := by
  rw [isOrtho_iff] at h ⊢
  intro i j hij
  cases N with
  | none => exact h i j hij
  | some N => simp [currentMetric, normMetric, h i j hij]

/-- The same for an orthogonal basis, if a reciprocal symbol may be the basis vector with the same
number, provided that the metric was not normalised to one with negative squares. -/
theorem deNamed_eq_ortho (D : Fin n → K → K) {g : Matrix (Fin n) (Fin n) K} (N : Option (Fin n → K))
    (hog : isOrtho g = true) (hN : N.isSome → ∀ i, currentMetric N g i i = 1)
    {b r : Fin n → List Char} (hb : Function.Injective b) (hr : Function.Injective r)
    (hbr : ∀ i j, r i = b j → i = j) {order : List (Fin n)} (ho : order.Perm (List.finRange n)) :
    deNamed D g N b r order = de D g N := by
  rw [deNamed, de]
  congr 2
  cases hrb : rBasis (currentMetric N g) with
  | none => rfl
  | some rb =>
    rw [Option.bind_some, Option.bind_some]
    congr 2
    have hent : ∀ k : Fin n, rb.getD k errorE = [((currentMetric N g k k)⁻¹, .blade [k])] := by
      rw [rBasis, if_pos (isOrtho_currentMetric hog N)] at hrb
      obtain ⟨-, h2⟩ := mapM_option_getD (d := errorE) hrb
      intro k
      have := h2 k (by simp)
      simp only [List.getElem_finRange, Fin.cast_mk, Fin.eta] at this
      split_ifs at this
      exact (Option.some.inj this).symm
    have h1 : ∀ k j : Fin n, ∀ t ∈ nameE b (rb.getD k errorE), t.2 = .inl (r j) → j = k := by
      intro k j t ht h
      rw [hent k] at ht
      simp only [nameE, List.map_cons, List.map_nil, nameSym, List.mem_singleton] at ht
      rw [ht] at h
      exact hbr j k (Sum.inl.inj h).symm
    funext i j
    rw [deNames_eq D g N hr ho h1, readE_nameE hb]
    intro hsome j c
    by_cases hj : ∃ k, r k = b j
    · obtain ⟨k, hk⟩ := hj
      obtain rfl := hbr k j hk
      rw [← hk, subsSeq_single (E := fun k => nameE b (rb.getD k errorE)) hr
        (ho.nodup_iff.mpr (List.nodup_finRange n)) (ho.mem_iff.mpr (List.mem_finRange k)) (fun j => h1 k j),
        hent, hN hsome k]
      simp [smulN, nameE, nameSym, hk]
    · refine subsSeq_of_not_mem fun p hp t ht => ?_
      rw [List.mem_map] at hp
      obtain ⟨k, -, rfl⟩ := hp
      rw [List.mem_singleton] at ht
      rw [ht]
      exact fun h => hj ⟨k, (Sum.inl.inj h).symm⟩

/-! ## Values of expressions with names -/

/-- The value of an expression when the symbols have the values `ψ`. -/
def valN {M : Type*} [AddCommMonoid M] [Module K M] (ψ : NSym n → M) (e : NameExpr K n) : M :=
  (e.map fun t => t.1 • ψ t.2).sum

section valN
variable {M : Type*} [AddCommMonoid M] [Module K M] (ψ : NSym n → M)

theorem valN_cons (t : K × NSym n) (e : NameExpr K n) : valN ψ (t :: e) = t.1 • ψ t.2 + valN ψ e := by
  simp [valN]

theorem valN_append (e e' : NameExpr K n) : valN ψ (e ++ e') = valN ψ e + valN ψ e' := by
  simp [valN]

theorem valN_smulN (c : K) (e : NameExpr K n) : valN ψ (smulN c e) = c • valN ψ e := by
  induction e with
  | nil => simp [valN, smulN]
  | cons t e ih =>
    rw [valN_cons, smul_add, ← ih]
    simp [valN, smulN, mul_smul]

theorem valN_subs1 (x : List Char) (E e : NameExpr K n) :
    valN ψ (subs1 x E e) = valN (Function.update ψ (.inl x) (valN ψ E)) e := by
  induction e with
  | nil => rfl
  | cons t e ih =>
    rw [show t :: e = [t] ++ e from rfl, subs1_append, valN_append, valN_append, ih]
    congr 1
    by_cases h : t.2 = .inl x
    · simp only [subs1, List.flatMap_cons, List.flatMap_nil, List.append_nil, if_pos h, valN_smulN]
      simp [valN, h]
    · simp [subs1, h, valN]

theorem valN_nameE (b : Fin n → List Char) (E : Expr K n) :
    valN ψ (nameE b E) = lin (fun s => ψ (nameSym b s)) E := by
  simp [valN, lin, nameE, Function.comp_def]

theorem valN_map {α : Type*} (l : List α) (f : α → K × NSym n) :
    valN ψ (l.map f) = (l.map fun a => (f a).1 • ψ (f a).2).sum := by
  simp [valN, Function.comp_def]

end valN

theorem den_readE (g : Matrix (Fin n) (Fin n) K) (b : Fin n → List Char) (e : NameExpr K n) :
    den g (readE b e) = valN (fun s => symDen g (readSym b s)) e := by
  simp [den, readE, valN, Function.comp_def]

theorem readSym_inl {b : Fin n → List Char} (hb : Function.Injective b) (i : Fin n) :
    readSym b (.inl (b i)) = .blade [i] := readSym_nameSym hb (.blade [i])

/-- All symbols of the expression belong to the algebra. -/
def GoodN (b : Fin n → List Char) (e : NameExpr K n) : Prop :=
  ∀ t ∈ e, ∃ l : List (Fin n), readSym b t.2 = .blade l ∧ l.Pairwise (· < ·)

theorem GoodN.valid {b : Fin n → List Char} {e : NameExpr K n} (h : GoodN b e) : Valid (readE b e) := by
  intro t ht
  rw [readE, List.mem_map] at ht
  obtain ⟨u, hu, rfl⟩ := ht
  exact h u hu

theorem GoodN.smulN {b : Fin n → List Char} {e : NameExpr K n} (h : GoodN b e) (c : K) :
    GoodN b (smulN c e) := by
  intro t ht
  obtain ⟨u, hu, e⟩ := smulN_snd ht
  rw [← e]
  exact h u hu

theorem GoodN.subs1 {b : Fin n → List Char} {E e : NameExpr K n} (hE : GoodN b E) (h : GoodN b e)
    (x : List Char) : GoodN b (subs1 x E e) := by
  intro t ht
  rw [GA.subs1, List.mem_flatMap] at ht
  obtain ⟨u, hu, ht⟩ := ht
  split_ifs at ht
  · exact hE.smulN u.1 t ht
  · rw [List.mem_singleton] at ht
    rw [ht]
    exact h u hu

theorem goodN_nameE {b : Fin n → List Char} (hb : Function.Injective b) {E : Expr K n} (hE : Valid E) :
    GoodN b (nameE b E) := by
  intro t ht
  rw [nameE, List.mem_map] at ht
  obtain ⟨u, hu, rfl⟩ := ht
  rw [readSym_nameSym hb]
  exact hE u hu

/-- A linear function of an expression depends only on what the expression stands for. -/
theorem lin_eq_of_den {g : Matrix (Fin n) (Fin n) K} {M : Type*} [AddCommGroup M] [Module K M]
    (φ : Sym n → M) {E E' : Expr K n} (hE : Valid E) (hE' : Valid E') (h : den g E = den g E') :
    lin φ E = lin φ E' := by
  have h1 : expand (subE E E') = [] := by
    rw [expand_eq_nil (g := g) (valid_subE hE hE'), den_subE, h, sub_self]
  have h2 : lin φ (subE E E') = 0 := by rw [← lin_expand, h1, lin_nil]
  rw [lin_subE, sub_eq_zero] at h2
  exact h2

theorem lin_of_vec {g : Matrix (Fin n) (Fin n) K} {M : Type*} [AddCommGroup M] [Module K M]
    (φ : Sym n → M) {E : Expr K n} (hE : Valid E) {u : Fin n → K} (h : den g E = Spec.vec g u) :
    lin φ E = ∑ i, u i • φ (.blade [i]) := by
  have hb : ∀ i : Fin n, Valid (smulE (u i) (bladeE [i]) : Expr K n) := fun i =>
    valid_smulE _ (valid_bladeE (by simp))
  obtain ⟨h1, h2⟩ := flatMap_sum_spec (g := g) (fun i => smulE (u i) (bladeE [i])) hb
  rw [lin_eq_of_den (g := g) φ hE h1]
  · have : ∀ l : List (Fin n), lin φ (l.flatMap fun i => smulE (u i) (bladeE [i])) =
        (l.map fun i => u i • φ (.blade [i])).sum := by
      intro l
      induction l with
      | nil => rfl
      | cons i l ih =>
        rw [List.flatMap_cons, lin_append, ih, lin_smulE]
        simp [bladeE]
    rw [this, ← List.ofFn_eq_map, List.sum_ofFn]
  · rw [h, h2]
    simp only [den_smulE, den_bladeE, Spec.blade_singleton, Spec.e, Spec.vec, ← map_smul, ← map_sum]
    congr 1
    funext k
    simp [Finset.sum_apply, Pi.single_apply]

end GA
