import Verif.Props.C82
import Verif.Proofs.RSymbols
import Verif.Proofs.RatFun
import Verif.Props.C21

/-!
# C83: the names of the basis vectors do not matter

`deNamed` models the attribute `Ga.de` (the derivatives of the basis vectors) with the names of the
symbols taken into account, `basisSymbols` the names.
-/

set_option linter.unusedSectionVars false
set_option maxRecDepth 10000

namespace GA
variable {n : ℕ} {K : Type*} [Field K] [DecidableEq K] [Invertible (2 : K)]
  {g : Matrix (Fin n) (Fin n) K}

/-- How the reciprocal symbols are named: either all names have one prefix, or the first underscore is
doubled. -/
theorem basisSymbols_cases {s : List Char} {coords : Option (List (List Char))}
    {b r : List (List Char)} (h : basisSymbols s coords = some (b, r)) :
    (∃ (base : List Char) (l : List (List Char)), b = l.map (fun i => base ++ '_' :: i) ∧ r = l.map fun i => base ++ '_' :: '_' :: i) ∨
      r = b.map replaceFirstUnderscore := by
  rw [basisSymbols] at h
  split_ifs at h with hc
  · rw [symbolsList, symbolsList] at h
    by_cases hs : '*' ∈ s
    · rw [if_pos hs, if_pos hs] at h
      split at h
      · rename_i base index _
        simp only [if_true, Bool.false_eq_true, if_false] at h
        by_cases hbar : '|' ∈ s
        · simp only [if_pos hbar, Option.bind_some, Option.map_some, Option.some.injEq,
            Prod.mk.injEq] at h
          exact Or.inl ⟨base, splitOn '|' index, by simp [← h.1], by simp [← h.2]⟩
        · simp only [if_neg hbar] at h
          cases hp : parseNat index with
          | none => simp [hp] at h
          | some m =>
            simp only [hp, Option.bind_some, Option.map_some, Option.some.injEq, Prod.mk.injEq] at h
            exact Or.inl ⟨base, (List.range m).map strNat, by simp [← h.1, Function.comp_def],
              by simp [← h.2, Function.comp_def]⟩
      · simp at h
    · rw [if_neg hs, if_neg hs] at h
      simp only [if_true, Bool.false_eq_true, if_false, Option.bind_some, Option.map_some,
        Option.some.injEq, Prod.mk.injEq] at h
      exact Or.inr (by rw [← h.2, ← h.1])
  · cases coords with
    | none => simp at h
    | some cs =>
      simp only [Option.map_some, Option.some.injEq, Prod.mk.injEq, symbolsListIdx] at h
      exact Or.inl ⟨s, cs, by simp [← h.1], by simp [← h.2]⟩

theorem replaceFirstUnderscore_inj {w w' : List Char}
    (h : replaceFirstUnderscore w = replaceFirstUnderscore w') : w = w' := by
  have h1 := superscripted_replace w
  have h2 := superscripted_replace w'
  rw [h] at h1
  rcases h1 with ⟨u, v, hu, e, e'⟩ | ⟨h, e⟩ <;> rcases h2 with ⟨u2, v2, hu2, e2, e2'⟩ | ⟨h2, e2⟩
  · obtain ⟨rfl, e3⟩ := append_underscore_inj hu hu2 (e'.symm.trans e2')
    rw [e, e2, (List.cons.inj e3).2]
  · rw [e2] at e'
    exact absurd (e'.symm ▸ by simp) h2
  · rw [e] at e2'
    exact absurd (e2'.symm ▸ by simp) h
  · rw [← e, e2]

/-- The facts about the names that the substitutions need. -/
theorem names_spec {s : List Char} {coords : Option (List (List Char))}
    {b r : Fin n → List Char} (h : basisSymbols s coords = some (List.ofFn b, List.ofFn r))
    (hb : Function.Injective b) (hd : ∀ i, ¬ ['_', '_'] <:+: b i) :
    Function.Injective r ∧ (∀ i j, r i = b j → i = j) ∧ ∀ i, '_' ∈ b i → ∀ j, r i ≠ b j := by
  have hget : ∀ (f : Fin n → List Char) (l : List (List Char)) (F : List Char → List Char),
      List.ofFn f = l.map F → ∀ i : Fin n, ∃ hi : i < l.length, f i = F l[(i : ℕ)] := by
    intro f l F h i
    have hl : l.length = n := by simpa using (congrArg List.length h).symm
    refine ⟨by omega, ?_⟩
    have := congrArg (fun L => L[(i : ℕ)]?) h
    simp only [List.getElem?_ofFn, List.getElem?_map] at this
    rw [List.getElem?_eq_getElem (by omega)] at this
    simpa using this
  have key : Function.Injective r ∧ ∀ i, ('_' ∈ b i → ['_', '_'] <:+: r i) ∧ ('_' ∉ b i → r i = b i) := by
    rcases basisSymbols_cases h with ⟨base, l, e1, e2⟩ | e
    · have g1 := hget b l _ e1
      have g2 := hget r l _ e2
      refine ⟨fun i j hij => ?_, fun i => ⟨fun _ => ?_, fun hn => ?_⟩⟩
      · obtain ⟨hi, ei⟩ := g2 i
        obtain ⟨hj, ej⟩ := g2 j
        obtain ⟨hi, bi⟩ := g1 i
        obtain ⟨hj, bj⟩ := g1 j
        rw [ei, ej] at hij
        have : l[(i : ℕ)] = l[(j : ℕ)] := by simpa using hij
        exact hb (by rw [bi, bj, this])
      · obtain ⟨hi, ei⟩ := g2 i
        rw [ei]
        exact ⟨base, l[(i : ℕ)], by simp⟩
      · obtain ⟨hi, ei⟩ := g1 i
        rw [ei] at hn
        simp at hn
    · have e1 : ∀ i, r i = replaceFirstUnderscore (b i) := by
        intro i
        obtain ⟨hi, ei⟩ := hget r _ _ e i
        rw [ei]
        simp
      refine ⟨fun i j hij => ?_, fun i => ⟨fun hm => ?_, fun hn => ?_⟩⟩
      · rw [e1, e1] at hij
        exact hb (replaceFirstUnderscore_inj hij)
      · rcases superscripted_replace (b i) with ⟨u, v, -, -, e'⟩ | ⟨hn, -⟩
        · rw [e1, e']
          exact ⟨u, v, by simp⟩
        · exact absurd hm hn
      · rcases superscripted_replace (b i) with ⟨u, v, -, e', -⟩ | ⟨-, e'⟩
        · rw [e'] at hn
          simp at hn
        · rw [e1, e']
  have hne : ∀ i, '_' ∈ b i → ∀ j, r i ≠ b j := by
    intro i hi j e
    exact hd j (e ▸ (key.2 i).1 hi)
  refine ⟨key.1, fun i j e => ?_, hne⟩
  by_cases hi : '_' ∈ b i
  · exact absurd e (hne i hi j)
  · rw [(key.2 i).2 hi] at e
    exact hb e

/-- C83: if every basis vector has a name with an underscore, and none has two underscores in a row,
then the derivatives of the basis vectors do not depend on the names, nor on the order in which SymPy
makes the substitutions: they are those of `de`, the connection that the other theorems are about. -/
theorem C83_names_partial {s : List Char} {coords : Option (List (List Char))}
    {b r : Fin n → List Char} (h : basisSymbols s coords = some (List.ofFn b, List.ofFn r))
    (hb : Function.Injective b) (hd : ∀ i, '_' ∈ b i ∧ ¬ ['_', '_'] <:+: b i)
    {order : List (Fin n)} (ho : order.Perm (List.finRange n))
    (D : Fin n → K → K) (g : Matrix (Fin n) (Fin n) K) (N : Option (Fin n → K)) :
    deNamed D g N b r order = de D g N :=
  have hs := names_spec h hb fun i => (hd i).2
  deNamed_eq D g N hb hs.1 (fun i j => hs.2.2 i (hd i).1 j) ho

/-- C83: for an orthogonal basis names without underscore are also good, if the basis vectors are not
normalised or all have positive squares. -/
theorem C83_orthogonal_partial {s : List Char} {coords : Option (List (List Char))}
    {b r : Fin n → List Char} (h : basisSymbols s coords = some (List.ofFn b, List.ofFn r))
    (hb : Function.Injective b) (hd : ∀ i, ¬ ['_', '_'] <:+: b i)
    {order : List (Fin n)} (ho : order.Perm (List.finRange n))
    (D : Fin n → K → K) (hg : isOrtho g = true) (N : Option (Fin n → K))
    (hN : N.isSome → ∀ i, currentMetric N g i i = 1) :
    deNamed D g N b r order = de D g N :=
  have hs := names_spec h hb hd
  deNamed_eq_ortho D N hg hN hb hs.1 hs.2.1 ho

/-- C83: under these conditions the derivatives of the basis vectors are a connection that is
compatible with the metric and, for basis vectors that are not normalised, free of torsion. -/
theorem C83_connection_partial (hs : g.IsSymm) {s : List Char} {coords : Option (List (List Char))}
    {b r : Fin n → List Char} (h : basisSymbols s coords = some (List.ofFn b, List.ofFn r))
    (hb : Function.Injective b) {N : Option (Fin n → K)}
    (hd : (∀ i, ¬ ['_', '_'] <:+: b i) ∧ ((∀ i, '_' ∈ b i) ∨
      isOrtho g = true ∧ (N.isSome → ∀ i, currentMetric N g i i = 1)))
    {order : List (Fin n)} (ho : order.Perm (List.finRange n))
    (D : Fin n → Derivation ℤ K K) {de' : Fin n → Fin n → Expr K n}
    (hde : deNamed (fun i => D i) g N b r order = some de') :
    ∃ Γ : Fin n → Matrix (Fin n) (Fin n) K, IsConnection (currentMetric N g) (some de') Γ ∧
      (∀ i, Spec.Compatible (currentMetric N g) (D i) (Γ i)) ∧
      (N = none → ∀ i j l, ∑ k, Γ i k j * g k l = ∑ k, Γ j k i * g k l) := by
  have e : de (fun i => D i) g N = some de' := by
    rcases hd with ⟨hd, hu | ⟨ho', hN⟩⟩
    · rw [← C83_names_partial h hb (fun i => ⟨hu i, hd i⟩) ho, hde]
    · rw [← C83_orthogonal_partial h hb hd ho _ ho' N hN, hde]
  obtain ⟨Γ, h1, h2, h3, -⟩ := de_spec hs D e
  refine ⟨Γ, h1, h2, fun hn i j l => ?_⟩
  rw [h3 hn, h3 hn]
  simp only [gamma1, dg, hs.apply i j]
  ring

/-! ### Names without underscore -/

/-- The names `a` and `b`. -/
def plainNames : Fin 2 → List Char := ![['a'], ['b']]

theorem plainNames_inj : Function.Injective plainNames := by decide

/-- The basis string `'a b'`: the reciprocal symbols are the basis vectors. -/
theorem plainNames_symbols : basisSymbols "a b".toList none =
    some (List.ofFn plainNames, List.ofFn plainNames) := by decide +kernel

namespace Ex

/-- The function `x y`. -/
noncomputable def xy : Fun 2 := coord 0 * coord 1

/-- The metric `[[0, x y], [x y, 0]]`. -/
noncomputable def nullMetric : Matrix (Fin 2) (Fin 2) (Fun 2) :=
  Matrix.of fun i j => if i = j then 0 else xy

theorem xy_ne : xy ≠ 0 := mul_ne_zero (coord_ne_zero 0) (coord_ne_zero 1)

theorem d_xy (i : Fin 2) : partialD i xy ≠ 0 := by
  rw [xy, Derivation.leibniz, partialD_coord, partialD_coord]
  fin_cases i <;> simp [coord_ne_zero]

theorem nullMetric_symm : nullMetric.IsSymm := by
  ext i j
  simp [nullMetric, eq_comm]

theorem nullMetric_ortho : isOrtho nullMetric = false := by
  by_contra h
  rw [Bool.not_eq_false, isOrtho_iff] at h
  exact xy_ne (h 0 1 (by decide))

theorem nullMetric_det : nullMetric.det = -xy ^ 2 := by
  rw [Matrix.det_fin_two]
  simp [nullMetric, sq]

theorem nullMetric_eSq : eSq nullMetric = xy ^ 2 := by
  rw [eSq_eq nullMetric_symm, nullMetric_det]
  norm_num

theorem nullMetric_recip (k : Fin 2) {u : Fin 2 → Fun 2}
    (h : ∀ i, Spec.ip nullMetric (Pi.single i 1) u = if i = k then recipFactor nullMetric else 0) :
    u = xy • Pi.single (1 - k) 1 := by
  have h' : ∀ i, xy * u (1 - i) = if i = k then xy ^ 2 else 0 := by
    intro i
    rw [← nullMetric_eSq, ← show recipFactor nullMetric = eSq nullMetric by
      rw [recipFactor, if_neg (by simp [nullMetric_ortho])], ← h i, Spec.ip_single nullMetric_symm]
    fin_cases i <;> simp [nullMetric, Fin.sum_univ_two]
  have hx := xy_ne
  funext i
  have := h' (1 - i)
  rw [show (1 : Fin 2) - (1 - i) = i by fin_cases i <;> rfl] at this
  have e : (1 - i = k) ↔ (i = 1 - k) :=
    (by decide : ∀ i k : Fin 2, (1 - i = k) ↔ (i = 1 - k)) i k
  by_cases hi : i = 1 - k
  · rw [if_pos (e.mpr hi)] at this
    rw [hi] at this ⊢
    simp only [Pi.smul_apply, Pi.single_eq_same, smul_eq_mul, mul_one]
    exact mul_left_cancel₀ hx (this.trans (sq _))
  · rw [if_neg (fun h => hi (e.mp h))] at this
    simp only [Pi.smul_apply, Pi.single_eq_of_ne hi, smul_zero]
    exact (mul_eq_zero.mp this).resolve_left hx

end Ex

open Ex in
/-- C83 fails for names without underscore when the basis is not orthogonal.  For `Ga('a b', g=[[0,
x*y], [x*y, 0]], coords=(x, y))` the derivatives of the basis vectors are not compatible with the
metric, whatever the order in which SymPy makes the two substitutions: after the first one the
basis vectors in the result are taken for reciprocal symbols and replaced again. -/
theorem C83_plain_names_counterexample (order : List (Fin 2))
    (ho : order.Perm (List.finRange 2)) :
    ∃ de' Γ, deNamed (fun i => partialD i) nullMetric none plainNames plainNames order = some de' ∧
      IsConnection nullMetric (some de') Γ ∧
      ¬ ∀ i, Spec.Compatible nullMetric (partialD i) (Γ i) := by
  obtain ⟨p, rfl⟩ : ∃ p : Fin 2, order = [p, 1 - p] := by
    have hl := ho.length_eq
    have hn := ho.nodup_iff.mpr (List.nodup_finRange 2)
    match order, hl with
    | [a, b], _ =>
      refine ⟨a, ?_⟩
      have : a ≠ b := by simpa using hn
      revert this
      clear ho hn hl
      revert a b
      decide
  set g := nullMetric with hg
  have hx := xy_ne
  obtain ⟨rb, hrb⟩ : ∃ rb, rBasis g = some rb := ⟨rBasisNonOrtho g, by
    rw [rBasis, if_neg (by simp [hg, nullMetric_ortho])]⟩
  obtain ⟨-, hr⟩ := rBasis_spec nullMetric_symm hrb
  choose hv u hu hip using hr
  have hu' : ∀ k : Fin 2, den g (rb.getD k errorE) = Spec.vec g (xy • Pi.single (1 - k) 1) := by
    intro k
    rw [hu, nullMetric_recip k (hip k)]
  have hpq : (1 : Fin 2) - (1 - p) = p := by fin_cases p <;> rfl
  have hne : 1 - p ≠ p := by revert p; decide
  set γ := gamma1 (fun i => ⇑(partialD (n := 2) i)) g with hγ
  -- the values of the symbols
  set b := plainNames with hb
  have hbi : Function.Injective b := plainNames_inj
  set ψ0 : NSym 2 → Spec.Cl g := fun s => symDen g (readSym b s) with hψ0
  have h0 : ∀ i, ψ0 (.inl (b i)) = Spec.e g i := by
    intro i
    rw [hψ0]
    dsimp only
    rw [readSym_inl hbi, symDen, Spec.blade_singleton]
  have hval : ∀ (ψ : NSym 2 → Spec.Cl g) (k : Fin 2), valN ψ (nameE b (rb.getD k errorE)) =
      xy • ψ (.inl (b (1 - k))) := by
    intro ψ k
    rw [valN_nameE, lin_of_vec (g := g) _ (hv k) (hu' k), Finset.sum_eq_single (1 - k)]
    · simp [nameSym]
    · intro i _ hi
      simp [hi]
    · simp
  set e0 : Fin 2 → Fin 2 → NameExpr (Fun 2) 2 := fun i j =>
    (List.finRange 2).map fun k => (γ i j k, .inl (b k)) with he0
  have hgood0 : ∀ i j, GoodN b (e0 i j) := by
    intro i j t ht
    rw [he0, List.mem_map] at ht
    obtain ⟨k, -, rfl⟩ := ht
    exact ⟨[k], readSym_inl hbi k, by simp⟩
  set e2 : Fin 2 → Fin 2 → NameExpr (Fun 2) 2 := fun i j =>
    subsSeq ([p, 1 - p].map fun k => (b k, nameE b (rb.getD k errorE))) (e0 i j) with he2
  have hgood2 : ∀ i j, GoodN b (e2 i j) := by
    intro i j
    exact GoodN.subs1 (goodN_nameE hbi (hv _)) (GoodN.subs1 (goodN_nameE hbi (hv _)) (hgood0 i j) _) _
  have hden : ∀ i j, valN ψ0 (e2 i j) = (γ i j p * xy ^ 2 + γ i j (1 - p) * xy) • Spec.e g p := by
    intro i j
    have hs : valN ψ0 (e2 i j) = valN (Function.update (Function.update ψ0 (.inl (b (1 - p)))
        (xy • Spec.e g p)) (.inl (b p)) (xy • xy • Spec.e g p)) (e0 i j) := by
      rw [he2]
      simp only [List.map_cons, List.map_nil, subsSeq, List.foldl_cons, List.foldl_nil]
      rw [valN_subs1, valN_subs1, hval, hval, hpq, h0, Function.update_self]
    have hne' : (Sum.inl (b (1 - p)) : NSym 2) ≠ .inl (b p) := fun h => hne (hbi (Sum.inl.inj h))
    rw [hs, he0, valN_map]
    have hsum : ∀ F : Fin 2 → Spec.Cl g, ((List.finRange 2).map F).sum = F p + F (1 - p) := by
      intro F
      rw [← List.ofFn_eq_map, List.sum_ofFn, Fin.sum_univ_two]
      fin_cases p
      · rfl
      · exact add_comm _ _
    rw [hsum]
    dsimp only
    rw [Function.update_self, Function.update_of_ne hne', Function.update_self]
    simp only [smul_smul, ← add_smul]
    congr 1
    ring
  refine ⟨fun i j => readE b (smulN (eSq g)⁻¹ (e2 i j)), fun i => Matrix.of fun k j =>
    if k = p then γ i j p + γ i j (1 - p) / xy else 0, ?_, ?_, ?_⟩
  · rw [deNamed, if_neg (by simp), if_neg (by simp), currentMetric, hrb, Option.bind_some, if_neg]
    · congr 1
      funext i j
      rw [deNames.eq_def, if_neg (by simp [hg, nullMetric_ortho])]
      rfl
    · rw [hg, nullMetric_eSq]
      exact fun h => pow_ne_zero 2 hx h.2
  · intro i j
    refine ⟨((hgood2 i j).smulN _).valid, ?_⟩
    rw [den_readE, valN_smulN, hden, hg, nullMetric_eSq, smul_smul, Spec.e]
    rw [show (fun k => (Matrix.of fun k j => if k = p then γ i j p + γ i j (1 - p) / xy else 0) k j) =
      (γ i j p + γ i j (1 - p) / xy) • (Pi.single p 1 : Fin 2 → Fun 2) by
        funext k; by_cases hk : k = p <;> simp [hk]]
    rw [Spec.vec_smul]
    congr 1
    field_simp
  · intro h
    have h1 := h (1 - p) (1 - p) (1 - p)
    have hgqq : g (1 - p) (1 - p) = 0 := by simp [hg, nullMetric]
    have hgpq : g p (1 - p) = xy := by simp [hg, nullMetric, hne.symm]
    have hgqp : g (1 - p) p = xy := by simp [hg, nullMetric, hne]
    have hgpp : g p p = 0 := by simp [hg, nullMetric]
    have hγ1 : γ (1 - p) (1 - p) p = partialD (1 - p) xy := by
      rw [hγ]
      simp only [gamma1, dg, hgqp, hgqq, map_zero, sub_zero]
      have t2 : (2 : Fun 2) * ⅟2 = 1 := mul_invOf_self 2
      linear_combination (partialD (1 - p) xy) * t2
    have hγ2 : γ (1 - p) (1 - p) (1 - p) = 0 := by
      rw [hγ]
      simp [gamma1, dg, hgqq]
    rw [hgqq, map_zero] at h1
    simp only [Matrix.of_apply, ite_mul, zero_mul, mul_ite, mul_zero, Finset.sum_ite_eq',
      Finset.mem_univ, if_true, hγ1, hγ2, zero_div, add_zero, hgpq, hgqp] at h1
    have : (2 : Fun 2) * (partialD (1 - p) xy * xy) = 0 := by rw [two_mul]; linear_combination -h1
    have := mul_eq_zero.mp this
    rcases this with h | h
    · exact two_ne_zero h
    · exact (mul_ne_zero (d_xy _) hx) h

/-! ### Normalised basis vectors with negative squares -/

/-- The connection computed for an orthogonal basis with names without underscore and normalised
basis vectors. -/
theorem deNamed_plain_norm (hg : isOrtho g = true) (D : Fin n → Derivation ℤ K K)
    {N : Fin n → K} (hN : ∀ i, N i ≠ 0) (hgi : ∀ i, g i i ≠ 0) {b : Fin n → List Char}
    (hb : Function.Injective b) {order : List (Fin n)} (ho : order.Perm (List.finRange n)) :
    ∃ de', deNamed (fun i => D i) g (some N) b b order = some de' ∧
      IsConnection (normMetric N g) (some de') fun i => Matrix.of fun k j =>
        (normMetric N g k k)⁻¹ * ((N j)⁻¹ * (gamma1 (fun i => D i) g i j k / N k -
          if k = j then D i (N j) else 0)) := by
  set gc := normMetric N g with hgc
  have hoc : isOrtho gc = true := isOrtho_currentMetric hg (some N)
  obtain ⟨rb, hrb⟩ : ∃ rb, rBasis gc = some rb := by
    rw [rBasis, if_pos hoc]
    refine Option.isSome_iff_exists.mp (mapM_some _ _ fun i _ => ?_)
    rw [if_neg (by simp [hgc, normMetric, hgi i, hN i])]
    rfl
  have hent : ∀ k : Fin n, rb.getD k errorE = [((gc k k)⁻¹, .blade [k])] := by
    have hrb' := hrb
    rw [rBasis, if_pos hoc] at hrb'
    obtain ⟨-, h2⟩ := mapM_option_getD (d := errorE) hrb'
    intro k
    have := h2 k (by simp)
    simp only [List.getElem_finRange, Fin.cast_mk, Fin.eta] at this
    split_ifs at this
    exact (Option.some.inj this).symm
  have hone : ∀ (k : Fin n) (c : K), subsSeq (order.map fun k => (b k, nameE b (rb.getD k errorE)))
      [(c, .inl (b k))] = [(c * (gc k k)⁻¹, .inl (b k))] := by
    intro k c
    rw [subsSeq_single (E := fun k => nameE b (rb.getD k errorE)) hb
      (ho.nodup_iff.mpr (List.nodup_finRange n)) (ho.mem_iff.mpr (List.mem_finRange k)), hent]
    · simp [smulN, nameE, nameSym]
    · intro j t ht h
      rw [hent k] at ht
      simp only [nameE, List.map_cons, List.map_nil, nameSym, List.mem_singleton] at ht
      rw [ht] at h
      exact (hb (Sum.inl.inj h)).symm
  have hrn : ∀ i j, subsSeq ((List.finRange n).map fun k => (b k, [((N k)⁻¹, (.inl (b k) : NSym n))]))
      ((List.finRange n).map fun k => (gamma1 (fun i => D i) g i j k, .inl (b k))) =
      (List.finRange n).map fun k => (gamma1 (fun i => D i) g i j k / N k, .inl (b k)) := by
    intro i j
    rw [subsSeq_map]
    have : ∀ k, subsSeq ((List.finRange n).map fun k => (b k, [((N k)⁻¹, (.inl (b k) : NSym n))]))
        [(gamma1 (fun i => D i) g i j k, .inl (b k))] =
        [(gamma1 (fun i => D i) g i j k / N k, .inl (b k))] := by
      intro k
      rw [subsSeq_single (E := fun k => [((N k)⁻¹, (.inl (b k) : NSym n))]) hb
        (List.nodup_finRange n) (List.mem_finRange k)]
      · simp [smulN, div_eq_mul_inv]
      · intro m t ht h
        rw [List.mem_singleton] at ht
        rw [ht] at h
        exact (hb (Sum.inl.inj h)).symm
    simp only [this]
    exact List.map_eq_flatMap.symm
  have hde : ∀ i j, deNames (fun i => ⇑(D i)) g (some N) b b order rb i j = smulN (N j)⁻¹
      (((List.finRange n).map fun k =>
        (gamma1 (fun i => D i) g i j k / N k * (gc k k)⁻¹, .inl (b k))) ++
        [(-(D i (N j)) * (gc j j)⁻¹, .inl (b j))]) := by
    intro i j
    rw [deNames.eq_def, if_pos hg]
    dsimp only
    rw [hrn, subsSeq_smulN, subsSeq_append, subsSeq_map, hone]
    simp only [hone]
    rw [← List.map_eq_flatMap]
  refine ⟨fun i j => readE b (deNames (fun i => ⇑(D i)) g (some N) b b order rb i j), ?_, ?_⟩
  · rw [deNamed, if_neg (by simp [hg]), if_neg (by simpa using hN),
      show currentMetric (some N) g = gc from rfl, hrb, Option.bind_some, if_neg (by simp [hg])]
  · intro i j
    dsimp only
    rw [hde]
    refine ⟨GoodN.valid (GoodN.smulN ?_ _), ?_⟩
    · intro t ht
      rw [List.mem_append, List.mem_map, List.mem_singleton] at ht
      rcases ht with ⟨k, -, rfl⟩ | rfl
      · exact ⟨[k], readSym_inl hb k, by simp⟩
      · exact ⟨[j], readSym_inl hb j, by simp⟩
    · have hψ : ∀ k, symDen gc (readSym b (.inl (b k))) = Spec.vec gc (Pi.single k 1) := by
        intro k
        rw [readSym_inl hb, symDen, Spec.blade_singleton, Spec.e]
      rw [den_readE, valN_smulN, valN_append, valN_map, ← List.ofFn_eq_map, List.sum_ofFn]
      simp only [valN, List.map_cons, List.map_nil, List.sum_cons, List.sum_nil, add_zero, hψ]
      simp only [Spec.vec, ← map_smul, ← map_sum, ← map_add]
      congr 1
      funext k
      simp only [Pi.smul_apply, Pi.add_apply, Finset.sum_apply, smul_eq_mul, Pi.single_apply,
        mul_ite, mul_one, mul_zero, Finset.sum_ite_eq, Finset.mem_univ, if_true, Matrix.of_apply]
      by_cases hk : k = j
      · subst hk; simp; ring
      · simp [hk]; ring

open Ex in
/-- C83 fails for names without underscore and `norm=True` when a basis vector has a negative square:
for `Ga('a b', g=[1, -x**2], coords=(x, y), norm=True)` the normalised second vector has the constant
square `-1`, and its derivative by `x` is nevertheless not orthogonal to it. -/
theorem C83_norm_counterexample (order : List (Fin 2)) (ho : order.Perm (List.finRange 2)) :
    ∃ de' Γ, deNamed (fun i => partialD i) (Matrix.diagonal ![1, -coord 0 ^ 2])
        (some ![1, coord 0]) plainNames plainNames order = some de' ∧
      IsConnection (normMetric ![1, coord 0] (Matrix.diagonal ![1, -coord 0 ^ 2])) (some de') Γ ∧
      ¬ ∀ i, Spec.Compatible (normMetric ![1, coord 0] (Matrix.diagonal ![1, -coord 0 ^ 2]))
        (partialD i) (Γ i) := by
  set g : Matrix (Fin 2) (Fin 2) (Fun 2) := Matrix.diagonal ![1, -coord 0 ^ 2] with hg
  have hx : (coord 0 : Fun 2) ≠ 0 := coord_ne_zero 0
  have hgo : isOrtho g = true := by
    rw [isOrtho_iff]
    intro i j hij
    exact Matrix.diagonal_apply_ne _ (ne_of_lt hij)
  obtain ⟨de', h1, h2⟩ := deNamed_plain_norm (g := g) hgo partialD
    (N := ![1, coord 0]) (by intro i; fin_cases i <;> simp [hx])
    (by intro i; fin_cases i <;> simp [hg, hx]) plainNames_inj ho
  refine ⟨de', _, h1, h2, fun h => ?_⟩
  have h3 := h 0 1 1
  have hn : ∀ k, normMetric ![1, coord 0] g k 1 = if k = 1 then -1 else 0 := by
    intro k
    fin_cases k
    · simp [normMetric, hg]
    · simp [normMetric, hg]; field_simp
  have hn' : ∀ k, normMetric ![1, coord 0] g 1 k = if k = 1 then -1 else 0 := by
    intro k
    fin_cases k
    · simp [normMetric, hg]
    · simp [normMetric, hg]; field_simp
  have hγ : gamma1 (fun i => ⇑(partialD (n := 2) i)) g 0 1 1 = -coord 0 := by
    simp only [gamma1, dg]
    have e1 : g 1 1 = -coord 0 ^ 2 := by simp [hg]
    have e2 : g 0 1 = 0 := by simp [hg]
    have e3 : partialD 0 (-(coord 0 : Fun 2) ^ 2) = -(2 * coord 0) := by
      rw [map_neg, sq, Derivation.leibniz, partialD_coord]
      simp [two_mul]
    rw [e1, e2, e3, map_zero]
    have t2 : (2 : Fun 2) * ⅟2 = 1 := mul_invOf_self 2
    linear_combination (-coord 0) * t2
  simp only [hn, hn', Matrix.of_apply, mul_ite, mul_neg, mul_one, mul_zero, ite_mul, neg_mul, one_mul,
    zero_mul, Finset.sum_ite_eq', Finset.mem_univ, if_true, hγ, Matrix.cons_val_one,
    Matrix.cons_val_fin_one, partialD_coord, map_neg, Derivation.map_one_eq_zero, neg_zero] at h3
  have : (2 * 2 : Fun 2) = 0 := by
    field_simp at h3
    linear_combination h3
  exact mul_ne_zero two_ne_zero two_ne_zero this

/-- Names with an underscore: the metric of the first counterexample has the right connection. -/
example (order : List (Fin 2)) (ho : order.Perm (List.finRange 2)) {de'}
    (h : deNamed (fun i => Ex.partialD i) Ex.nullMetric none ![['e', '_', 'x'], ['e', '_', 'y']]
      ![['e', '_', '_', 'x'], ['e', '_', '_', 'y']] order = some de') :
    ∃ Γ, IsConnection Ex.nullMetric (some de') Γ ∧
      ∀ i, Spec.Compatible Ex.nullMetric (Ex.partialD i) (Γ i) := by
  obtain ⟨Γ, h1, h2, -⟩ := C83_connection_partial Ex.nullMetric_symm (s := "e*x|y".toList) (coords := none)
    (by decide +kernel) (by decide) (N := none) ⟨by decide, Or.inl (by decide)⟩ ho Ex.partialD h
  exact ⟨Γ, h1, h2⟩

end GA
