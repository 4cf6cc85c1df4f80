import Verif.Proofs.Chart

/-!
# C96: fields and their derivatives do not depend on the coordinates

`S` and `T` are algebras for two coordinate systems of the same space, with or without normalised basis
vectors (`SameSpace`, `Spec/Chart`).  `SameField … A B` says that the multivector `A` of `T` and the
multivector `B` of `S` are the same field, and `runFields` runs a program that calculates with multivectors
and the operators `grad` and `rgrad`.
-/

set_option linter.unusedSectionVars false
set_option maxRecDepth 10000

namespace GA
variable {n : ℕ} {K L : Type*} [Field K] [DecidableEq K] [Invertible (2 : K)]
  [Field L] [DecidableEq L] [Invertible (2 : L)] {φ : K →+* L} {X : Fin n → L} {S : Chart K n}
  {T : Chart L n}

/-- C96: a program that calculates with fields, their gradients, divergences and curls and with
derivatives along a field ends in both coordinate systems, and then every variable holds the same field. -/
theorem C96_program (H : SameSpace φ X S T) (hS : S.Made) (hT : T.Made) (P : List (ℕ × FieldRhs K))
    {a : ℕ → Mv L n} {b : ℕ → Mv K n} (ha : ∀ i, (a i).WF T.g ∧ (a i).isBladeRep = true)
    (hb : ∀ i, (b i).WF S.g ∧ (b i).isBladeRep = true) (hab : ∀ i, SameField φ X S T (a i) (b i)) :
    ∃ a' b', runFields T (P.map fun t => (t.1, t.2.map φ)) a = some a' ∧ runFields S P b = some b' ∧
      ∀ i, SameField φ X S T (a' i) (b' i) := by
  obtain ⟨Ψ, E, Γ, u, Δ, w, C⟩ := exists_cov H hS hT
  have ra := fun i => Rep.of_wf (ha i).1 (ha i).2
  have rb := fun i => Rep.of_wf (hb i).1 (hb i).2
  obtain ⟨a', b', x, y, h1, h2, h3, h4, h5⟩ := C.program P ra rb fun i =>
    (C.same_iff (ra i) (rb i)).mp (hab i)
  exact ⟨a', b', h1, h2, fun i => (C.same_iff (h3 i) (h4 i)).mpr (h5 i)⟩

/-- C96: the chain rule: the derivative of a field by coordinate `j` of `T` is the sum over the coordinates
of `S` of `dX[i]/dy[j]` times the derivative by coordinate `i`. -/
theorem C96_chain_rule (H : SameSpace φ X S T) (hS : S.Made) (hT : T.Made) {A : Mv L n} {B : Mv K n}
    (hA : A.WF T.g ∧ A.isBladeRep = true) (hB : B.WF S.g ∧ B.isBladeRep = true)
    (hAB : SameField φ X S T A B) (j : Fin n) :
    ∃ (A' : Mv L n) (B' : Fin n → Mv K n), A.pDiff T.g T.conn (T.D j) (some j) = some A' ∧
      (∀ i, B.pDiff S.g S.conn (S.D i) (some i) = some (B' i)) ∧
      (A'.rewriteIn (S.g.map φ) (basisIn φ X S T)).eq (S.g.map φ)
        (((List.finRange n).map fun i => ((B' i).subs φ).smul (T.D j (X i))).foldl
          (Mv.add (S.g.map φ)) Mv.zero) = true := by
  obtain ⟨Ψ, E, Γ, u, Δ, w, C⟩ := exists_cov H hS hT
  have ra := Rep.of_wf hA.1 hA.2
  have rb := Rep.of_wf hB.1 hB.2
  have hs := isSymm_map (φ := φ) C.oldR.symm
  obtain ⟨A', h1, h2⟩ := pDiff_rep C.newR.symm C.new (T.D j) j ra
  choose B' h3 h4 using fun i => pDiff_rep C.oldR.symm C.old (S.D i) i rb
  refine ⟨A', B', h1, h3, ?_⟩
  have h5 := foldl_add_rep hs (List.finRange n) (fun i => ((B' i).subs φ).smul (T.D j (X i)))
    (fun i => T.D j (X i) • Ψ.hom (Spec.deriv S.g (S.D i) (Γ i) (B.val S.g)))
    (fun i _ => ((h4 i).subs Ψ).smul _) (Rep.zero (g := S.g.map φ))
  refine (Rep.eq_iff hs (C.rewrite h2) h5).mpr ?_
  rw [C.deriv j ((C.same_iff ra rb).mp hAB), zero_add, Fin.sum_univ_def]

/-- C96: every field of `S` is a field of `T`. -/
theorem C96_convert (H : SameSpace φ X S T) (hS : S.Made) (hT : T.Made) {B : Mv K n}
    (hB : B.WF S.g ∧ B.isBladeRep = true) :
    ∃ A : Mv L n, A.WF T.g ∧ A.isBladeRep = true ∧ SameField φ X S T A B := by
  obtain ⟨Ψ, E, Γ, u, Δ, w, C⟩ := exists_cov H hS hT
  have rb := Rep.of_wf hB.1 hB.2
  obtain ⟨x, hx⟩ := emb_surjective E C.surj (Ψ.hom (B.val S.g))
  obtain ⟨A, hA⟩ := exists_rep T.g x
  exact ⟨A, hA.wf, hA.flag, (C.same_iff hA rb).mpr hx⟩

/-- C96: two fields are equal (`==`) in one coordinate system exactly if they are in the other. -/
theorem C96_equal (H : SameSpace φ X S T) (hS : S.Made) (hT : T.Made) {A A' : Mv L n} {B B' : Mv K n}
    (hA : A.WF T.g ∧ A.isBladeRep = true) (hA' : A'.WF T.g ∧ A'.isBladeRep = true)
    (hB : B.WF S.g ∧ B.isBladeRep = true) (hB' : B'.WF S.g ∧ B'.isBladeRep = true)
    (h : SameField φ X S T A B) (h' : SameField φ X S T A' B') : A.eq T.g A' = B.eq S.g B' := by
  obtain ⟨Ψ, E, Γ, u, Δ, w, C⟩ := exists_cov H hS hT
  have ra := Rep.of_wf hA.1 hA.2
  have rb := Rep.of_wf hB.1 hB.2
  have ra' := Rep.of_wf hA'.1 hA'.2
  have rb' := Rep.of_wf hB'.1 hB'.2
  rw [Bool.eq_iff_iff, Rep.eq_iff C.newR.symm ra ra', Rep.eq_iff C.oldR.symm rb rb']
  have e := (C.same_iff ra rb).mp h
  have e' := (C.same_iff ra' rb').mp h'
  constructor
  · intro q; exact change_injective Ψ (by rw [← e, ← e', q])
  · intro q; exact C.inj (by rw [e, e', q])

/-- C96: the scalar part of a field is the same function in both coordinate systems. -/
theorem C96_scalar (H : SameSpace φ X S T) (hS : S.Made) (hT : T.Made) {A : Mv L n} {B : Mv K n}
    (hA : A.WF T.g ∧ A.isBladeRep = true) (hB : B.WF S.g ∧ B.isBladeRep = true)
    (h : SameField φ X S T A B) : A.scalar = φ B.scalar := by
  obtain ⟨Ψ, E, Γ, u, Δ, w, C⟩ := exists_cov H hS hT
  have ra := Rep.of_wf hA.1 hA.2
  have rb := Rep.of_wf hB.1 hB.2
  have e := (C.same_iff ra rb).mp h
  rw [← scalar_emb E ra (C.rewrite ra), ← (rb.scalar_subs Ψ ((C.rewrite ra).congr e))]

/-- C96: an algebra with coordinates can be made for every invertible symmetric metric tensor, and with
normalised basis vectors if it is diagonal and the norms are square roots. -/
theorem C96_exists (D : Fin n → Derivation ℤ K K) {g0 : Matrix (Fin n) (Fin n) K} (hs : g0.IsSymm)
    (hd : g0.det ≠ 0) {N : Option (Fin n → K)}
    (hN : ∀ N', N = some N' → ∀ i, N' i ^ 2 = g0 i i ∨ N' i ^ 2 = - g0 i i)
    (hO : N.isSome → isOrtho g0 = true) :
    ∃ conn grads, Chart.Made ⟨D, g0, N, conn, grads⟩ := by
  obtain ⟨l, hl⟩ := Option.isSome_iff_exists.mp (C60_exists hs hd hN hO)
  have hr : ∃ rb, rBasis (currentMetric N g0) = some rb := by
    rw [gradVecs] at hl
    obtain ⟨rm, h1, -⟩ := Option.bind_eq_some_iff.mp hl
    rw [rBasisMv] at h1
    obtain ⟨rb, h2, -⟩ := Option.map_eq_some_iff.mp h1
    exact ⟨rb, h2⟩
  obtain ⟨rb, hrb⟩ := hr
  have hde : ∃ d, de (fun i => D i) g0 N = some d := by
    refine ⟨deEntry (fun i => D i) g0 N rb, ?_⟩
    rw [de, hrb]
    cases N with
    | none =>
      rw [if_neg (by simp), if_neg (by simp), Option.bind_some, if_neg]
      rintro ⟨-, h0⟩
      change eSq g0 = 0 at h0
      rw [eSq_eq hs] at h0
      exact mul_ne_zero (pow_ne_zero _ (by norm_num)) hd h0
    | some M =>
      have ho := hO rfl
      rw [if_neg (by simp [ho]), if_neg, Option.bind_some, if_neg (by simp [ho])]
      rw [Option.any_some, decide_eq_true_eq]
      rintro ⟨i, hi⟩
      apply hd
      refine Matrix.det_eq_zero_of_row_eq_zero i fun j => ?_
      by_cases hij : i = j
      · subst hij
        rcases hN M rfl i with h | h
        · rw [← h, hi]; ring
        · rw [← neg_eq_zero, ← h, hi]; ring
      · exact isOrtho_symm hs ho i j hij
  obtain ⟨d, hd'⟩ := hde
  by_cases hc : connectFlg (fun i => D i) g0 = true
  · exact ⟨some d, l, hs, hN, hO, by rw [connOf, if_pos hc, hd']; rfl, hl⟩
  · exact ⟨none, l, hs, hN, hO, by rw [connOf, if_neg hc], hl⟩

/-! ### Concrete cases -/

namespace Ex

theorem coord_square (i : Fin 2) (j : Fin 2) :
    partialD i (coord j ^ 2 : Fun 2) = 2 * coord j * (if i = j then 1 else 0) := by
  rw [sq, Derivation.leibniz, partialD_coord]
  simp only [smul_eq_mul]; ring

/-- `u² + v²` -/
noncomputable def uv2 : Fun 2 := coord 0 ^ 2 + coord 1 ^ 2

theorem uv2_ne : uv2 ≠ 0 := by
  intro h
  have h1 := congrArg (partialD 0) h
  rw [uv2, map_add, coord_square, coord_square, map_zero] at h1
  simp at h1
  exact coord_ne_zero 0 h1

/-- The Cartesian coordinates `x = (u² - v²)/2`, `y = u*v` as functions of the parabolic ones. -/
noncomputable def parX : Fin 2 → Fun 2 := ![⅟2 * (coord 0 ^ 2 - coord 1 ^ 2), coord 0 * coord 1]

theorem partialD_half (i : Fin 2) : partialD i (⅟2 : Fun 2) = 0 := by
  have h : partialD i ((2 : Fun 2) * ⅟2) = 0 := by rw [mul_invOf_self, Derivation.map_one_eq_zero]
  have h2 : partialD i (2 : Fun 2) = 0 := by
    rw [show (2 : Fun 2) = 1 + 1 by norm_num, map_add, Derivation.map_one_eq_zero, add_zero]
  rw [Derivation.leibniz, h2] at h
  simpa using h

theorem parX_d (i j : Fin 2) : partialD i (parX j) =
    (!![coord 0, - coord 1; coord 1, coord 0] : Matrix (Fin 2) (Fin 2) (Fun 2)) j i := by
  have h2 : (⅟2 : Fun 2) * 2 = 1 := invOf_mul_self 2
  fin_cases j
  · change partialD i (⅟2 * (coord 0 ^ 2 - coord 1 ^ 2) : Fun 2) = _
    rw [Derivation.leibniz, map_sub, coord_square, coord_square, partialD_half]
    fin_cases i
    · simp [smul_eq_mul]
    · simp [smul_eq_mul]
  · change partialD i (coord 0 * coord 1 : Fun 2) = _
    rw [Derivation.leibniz, partialD_coord, partialD_coord]
    fin_cases i <;> simp

/-- The derivatives by the Cartesian coordinates. -/
noncomputable def cartD : Fin 2 → Derivation ℤ (Fun 2) (Fun 2) :=
  ![(coord 0 / uv2) • partialD 0 - (coord 1 / uv2) • partialD 1,
    (coord 1 / uv2) • partialD 0 + (coord 0 / uv2) • partialD 1]

/-- The metric tensor of parabolic coordinates. -/
noncomputable def parG : Matrix (Fin 2) (Fin 2) (Fun 2) := Matrix.diagonal fun _ => uv2

/-- Cartesian and parabolic coordinates of the plane. -/
theorem parabolic : ∃ S T : Chart (Fun 2) 2, S.Made ∧ T.Made ∧ SameSpace (RingHom.id _) parX S T ∧
    S.D = cartD ∧ S.g0 = 1 ∧ T.D = partialD ∧ T.g0 = parG := by
  obtain ⟨c, l, h1⟩ := C96_exists cartD (g0 := 1) (N := none) Matrix.isSymm_one (by simp) (by simp)
    (by simp)
  obtain ⟨c', l', h2⟩ := C96_exists partialD (g0 := parG) (N := none) (Matrix.isSymm_diagonal _)
    (by simp [parG, uv2_ne]) (by simp) (by simp)
  refine ⟨_, _, h1, h2, ⟨?_, ?_, ?_⟩, rfl, rfl, rfl, rfl⟩
  · intro j f
    have h := uv2_ne
    simp only [Fin.sum_univ_two, RingHom.id_apply, parX_d]
    fin_cases j <;> simp [cartD] <;> field_simp <;> rw [uv2] <;> ring
  · intro j k i
    exact partialD_comm j k _
  · intro j k
    simp only [Fin.sum_univ_two, RingHom.id_apply, parX_d]
    fin_cases j <;> fin_cases k <;> simp [parG, uv2] <;> ring

/-- The hypotheses of `C96_program` are met: the vector field `x*e_x + y*e_y` in both coordinate systems,
and the program `f = x*x; v = grad*f; d = grad|v`. -/
example : ∃ (S T : Chart (Fun 2) 2) (a b : ℕ → Mv (Fun 2) 2), S.Made ∧ T.Made ∧
    SameSpace (RingHom.id _) parX S T ∧ b 0 = Mv.vector parX ∧
    (∀ i, (a i).WF T.g ∧ (a i).isBladeRep = true) ∧ (∀ i, (b i).WF S.g ∧ (b i).isBladeRep = true) ∧
    (∀ i, SameField (RingHom.id _) parX S T (a i) (b i)) ∧
    ∃ a' b', runFields T ([(1, FieldRhs.value (.mul (.var 0) (.var 0))), (2, .grad .geo (.var 1)),
        (3, .grad .inner (.var 2))].map fun t => (t.1, t.2.map (RingHom.id (Fun 2)))) a = some a' ∧
      runFields S [(1, .value (.mul (.var 0) (.var 0))), (2, .grad .geo (.var 1)),
        (3, .grad .inner (.var 2))] b = some b' ∧
      ∀ i, SameField (RingHom.id _) parX S T (a' i) (b' i) := by
  obtain ⟨S, T, h1, h2, h3, -⟩ := parabolic
  have hv := Rep.vector (g := S.g) parX
  obtain ⟨A, q1, q2, q3⟩ := C96_convert h3 h1 h2 ⟨hv.wf, hv.flag⟩
  refine ⟨S, T, fun _ => A, fun _ => Mv.vector parX, h1, h2, h3, rfl, fun _ => ⟨q1, q2⟩,
    fun _ => ⟨hv.wf, hv.flag⟩, fun _ => q3, ?_⟩
  exact C96_program h3 h1 h2 _ (fun _ => ⟨q1, q2⟩) (fun _ => ⟨hv.wf, hv.flag⟩) fun _ => q3

/-- The coordinates `u, v` with `r = u²`, `θ = v`. -/
noncomputable def sqX : Fin 2 → Fun 2 := ![coord 0 ^ 2, coord 1]

theorem sqX_d (i j : Fin 2) : partialD i (sqX j) =
    (!![2 * coord 0, 0; 0, 1] : Matrix (Fin 2) (Fin 2) (Fun 2)) j i := by
  fin_cases j
  · change partialD i (coord 0 ^ 2 : Fun 2) = _
    rw [coord_square]
    fin_cases i <;> simp
  · change partialD i (coord 1 : Fun 2) = _
    rw [partialD_coord]
    fin_cases i <;> simp

/-- Polar coordinates `r, θ` and the coordinates `u, v` with `r = u²`, `θ = v`, both with normalised basis
vectors. -/
example : ∃ S T : Chart (Fun 2) 2, S.Made ∧ T.Made ∧ SameSpace (RingHom.id _) sqX S T ∧
    S.g0 = Matrix.diagonal ![1, coord 0 ^ 4] ∧ S.N = some ![1, coord 0 ^ 2] ∧
    T.g0 = Matrix.diagonal ![4 * coord 0 ^ 2, coord 0 ^ 4] ∧ T.N = some ![2 * coord 0, coord 0 ^ 2] := by
  have h0 := coord_ne_zero (n := 2) 0
  obtain ⟨c, l, h1⟩ := C96_exists (![(2 * coord (n := 2) 0)⁻¹ • partialD 0, partialD 1] :
      Fin 2 → Derivation ℤ (Fun 2) (Fun 2)) (g0 := Matrix.diagonal ![1, coord 0 ^ 4])
    (N := some ![1, coord 0 ^ 2]) (Matrix.isSymm_diagonal _) (by simp [h0])
    (by rintro N' h i; left; obtain rfl := Option.some.inj h; fin_cases i <;> simp; ring)
    (fun _ => by rw [isOrtho_iff]; exact fun i j h => Matrix.diagonal_apply_ne _ (ne_of_lt h))
  obtain ⟨c', l', h2⟩ := C96_exists partialD (g0 := Matrix.diagonal ![4 * coord 0 ^ 2, coord 0 ^ 4])
    (N := some ![2 * coord 0, coord 0 ^ 2]) (Matrix.isSymm_diagonal _) (by simp [h0])
    (by rintro N' h i; left; obtain rfl := Option.some.inj h; fin_cases i <;> simp <;> ring)
    (fun _ => by rw [isOrtho_iff]; exact fun i j h => Matrix.diagonal_apply_ne _ (ne_of_lt h))
  refine ⟨_, _, h1, h2, ⟨?_, ?_, ?_⟩, rfl, rfl, rfl, rfl⟩
  · intro j f
    simp only [Fin.sum_univ_two, RingHom.id_apply, sqX_d]
    fin_cases j <;> simp
    field_simp
  · intro j k i
    exact partialD_comm j k _
  · intro j k
    simp only [Fin.sum_univ_two, RingHom.id_apply, sqX_d]
    fin_cases j <;> fin_cases k <;> simp
    ring

end Ex
end GA
