import Verif.Proofs.Submanifold
import Verif.Props.C45
import Verif.Props.C96

/-!
# C98: derivatives on a submanifold are tangential parts of derivatives in the space around it
-/

set_option linter.unusedSectionVars false
set_option maxRecDepth 10000

namespace GA
variable {n m : ℕ} {K L : Type*} [Field K] [DecidableEq K] [Invertible (2 : K)]
  [Field L] [DecidableEq L] [Invertible (2 : L)]

/-- C98: let `A` be a multivector field on a submanifold of a flat space.  Differentiate it by coordinate `j`
in the algebra of the submanifold and write the result with vectors of the space; or write `A` with vectors
of the space, differentiate its coefficients, and project into the blade of the tangent space.  Both give the
same field. -/
theorem C98_flat {G : Matrix (Fin n) (Fin n) L} {X : Fin n → L} {T : Chart L m} (H : InFlatSpace G X T)
    (hT : T.Made) {A : Mv L m} (hA : A.WF T.g) (hb : A.isBladeRep = true) (j : Fin m) :
    ∃ dA dE P, A.pDiff T.g T.conn (T.D j) (some j) = some dA ∧
      (A.rewriteIn G (tangent X T)).pDiff G none (T.D j) none = some dE ∧
      dE.projectInBlade G (tangentBlade G (tangent X T)) = some P ∧
      P.eq G (dA.rewriteIn G (tangent X T)) = true := by
  obtain ⟨E, Γ, w, C⟩ := exists_flat H hT
  have ra := Rep.of_wf hA hb
  obtain ⟨dA, h1, h2⟩ := pDiff_rep C.recip.symm C.conn (T.D j) j ra
  have hr := C.rewrite ra
  obtain ⟨v1, d1⟩ := coefDiff_spec (g := G) (T.D j) hr.valid
  have hd : Rep G (Mv.ofExpr (expand ((A.rewriteIn G (tangent X T)).obj.map fun t => (T.D j t.1, t.2))))
      (Spec.deriv G (T.D j) 0 (E.hom (A.val T.g))) := by
    have q := Rep.ofExpr (g := G) v1.expand
    rw [den_expand, d1, hr.den] at q
    refine q.congr ?_
    rw [Spec.deriv, nabla_zero, add_zero]
  obtain ⟨P, h3, h4⟩ := project_emb H.symm C.recip.symm (recip_det C.recip) hd C.blade (C.deriv j (A.val T.g))
  exact ⟨dA, _, P, h1, rfl, h3, (h4.eq_iff H.symm (C.rewrite h2)).mpr rfl⟩

/-- C98 in a curved space or curvilinear coordinates: `B` is a multivector field of the space that agrees with
the field `A` at the points of the submanifold.  The derivative of `B` in the direction of tangent vector
`j`, projected into the blade of the tangent space, is the derivative of `A` by coordinate `j`. -/
theorem C98_curved {φ : K →+* L} {X : Fin n → L} {S : Chart K n} {T : Chart L m} (H : InSpace φ X S T)
    (hS : S.Made) (hT : T.Made) {A : Mv L m} {B : Mv K n} (hA : A.WF T.g ∧ A.isBladeRep = true)
    (hB : B.WF S.g ∧ B.isBladeRep = true)
    (hAB : (A.rewriteIn (S.g.map φ) (tangentIn φ X S T)).eq (S.g.map φ) (B.subs φ) = true) (j : Fin m) :
    ∃ dA dB P, A.pDiff T.g T.conn (T.D j) (some j) = some dA ∧
      (∀ a, B.pDiff S.g S.conn (S.D a) (some a) = some (dB a)) ∧
      (alongTangent φ X S T dB j).projectInBlade (S.g.map φ)
        (tangentBlade (S.g.map φ) (tangentIn φ X S T)) = some P ∧
      P.eq (S.g.map φ) (dA.rewriteIn (S.g.map φ) (tangentIn φ X S T)) = true := by
  obtain ⟨Γ', u, E, Γ, w, hr, hc, -, -, C⟩ := exists_space H hS hT
  obtain ⟨Ψ⟩ := Spec.exists_change φ S.g
  have hsp : (S.g.map φ).IsSymm := isSymm_map hr.symm
  have ra := Rep.of_wf hA.1 hA.2
  have rb := Rep.of_wf hB.1 hB.2
  have hxy : E.hom (A.val T.g) = Ψ.hom (B.val S.g) :=
    (Rep.eq_iff hsp (C.rewrite ra) (rb.subs Ψ)).mp hAB
  obtain ⟨dA, h1, h2⟩ := pDiff_rep C.recip.symm C.conn (T.D j) j ra
  choose dB h3 h4 using fun a => pDiff_rep hr.symm hc (S.D a) a rb
  have hz : Rep (S.g.map φ) (alongTangent φ X S T dB j)
      (∑ a, T.D j (X a) • Ψ.hom (Spec.deriv S.g (S.D a) (Γ' a) (B.val S.g))) := by
    rw [alongTangent, ← List.foldl_map (f := fun a => ((dB a).subs φ).smul (T.D j (X a)))
      (g := Mv.add (S.g.map φ))]
    refine (foldl_add_rep hsp (List.finRange n)
      (fun a => ((dB a).subs φ).smul (T.D j (X a)))
      (fun a => T.D j (X a) • Ψ.hom (Spec.deriv S.g (S.D a) (Γ' a) (B.val S.g)))
      (fun a _ => ((h4 a).subs Ψ).smul _) Rep.zero).congr ?_
    rw [zero_add, ← List.sum_toFinset _ (List.nodup_finRange n)]
    simp
  have ho := C.deriv j (A.val T.g)
  rw [hxy, Spec.pull_deriv (fun f => H.chain j f)] at ho
  obtain ⟨P, h5, h6⟩ := project_emb hsp C.recip.symm (recip_det C.recip) hz C.blade ho
  exact ⟨dA, dB, P, h1, h3, h5, (h6.eq_iff hsp (C.rewrite h2)).mpr rfl⟩

/-- C98: the gradient of a function on the submanifold is the projection of its gradient in the space. -/
theorem C98_gradient {φ : K →+* L} {X : Fin n → L} {S : Chart K n} {T : Chart L m} (H : InSpace φ X S T)
    (hS : S.Made) (hT : T.Made) (f : K) :
    ∃ G F P, (gradDop S.grads false).mulMv S.fields .geo (Mv.scalarMv f) = .inl G ∧
      (gradDop T.grads false).mulMv T.fields .geo (Mv.scalarMv (φ f)) = .inl F ∧
      (G.subs φ).projectInBlade (S.g.map φ) (tangentBlade (S.g.map φ) (tangentIn φ X S T)) = some P ∧
      P.eq (S.g.map φ) (F.rewriteIn (S.g.map φ) (tangentIn φ X S T)) = true := by
  obtain ⟨Γ', u, E, Γ, w, hr, hc, hlen, hu, C⟩ := exists_space H hS hT
  obtain ⟨Ψ⟩ := Spec.exists_change φ S.g
  have hsp : (S.g.map φ).IsSymm := isSymm_map hr.symm
  obtain ⟨G, h1, h2⟩ := gradDop_mulMv (X := S.fields) hr.symm (fun _ => rfl) (fun _ => rfl) hc .geo hlen hu
    (Rep.scalarMv f)
  obtain ⟨F, h3, h4⟩ := gradDop_mulMv (X := T.fields) C.recip.symm (fun _ => rfl) (fun _ => rfl) C.conn .geo
    C.len C.vecs (Rep.scalarMv (φ f))
  replace h2 := (h2.congr (grad_scalar_sum f)).subs Ψ
  replace h4 := h4.congr (grad_scalar_sum (φ f))
  change Rep (S.g.map φ) (G.subs φ) (Ψ.hom (Spec.vec S.g (∑ i, S.D i f • u i))) at h2
  rw [Ψ.vec] at h2
  have htan : ∀ k, E.lin (Pi.single k (scaleOf T.N k)) = ∑ a, T.D k (X a) •
      fun b => φ ((Pi.single a (scaleOf S.N a) : Fin n → K) b) := by
    intro k
    funext b
    rw [lin_single C.lin, Finset.sum_apply, Finset.sum_eq_single b]
    · simp only [Pi.smul_apply, Pi.single_eq_same, smul_eq_mul]
      rw [mul_div_cancel₀ _ (C.recip.ne k), mul_comm]
    · intro a _ ha
      rw [Pi.smul_apply, Pi.single_eq_of_ne (Ne.symm ha), map_zero, smul_zero]
    · simp
  obtain ⟨P, h5, h6⟩ := project_emb hsp C.recip.symm (recip_det C.recip)
    (y := Spec.vec T.g (∑ i, T.D i (φ f) • w i)) h2 C.blade (by
      rw [E.vec, ← map_sub_vec]
      refine Spec.off_vec (Spec.normal_of C.recip.ne fun l => ?_)
      rw [Spec.ip_sub_left, emb_ip', grad_scalar_ip C.recip, htan, Spec.ip, map_sum, H.chain, sub_eq_zero]
      refine Finset.sum_congr rfl fun a _ => ?_
      rw [map_smul, ← Spec.ip]
      refine congrArg (T.D l (X a) • ·) ((ip_map hr.symm _ _).trans ?_)
      rw [grad_scalar_ip hr])
  exact ⟨G, F, P, h1, h3, h5, (h6.eq_iff hsp (C.rewrite h4)).mpr rfl⟩

/-- The hypotheses of C98 are met by the submanifolds that `Ga.sm` makes: of a space with constant metric
tensor, … -/
theorem C98_sm_flat {V : Type*} {D : V → Derivation ℤ L L} {sub1 : V → L → L → L}
    {G : Matrix (Fin n) (Fin n) L} {cb : List V} {X : Fin n → L} {coords : Fin m → V} {T : Chart L m}
    (hD : ∀ j, T.D j = D (coords j))
    (hsm : smMetric (fun x => D x) sub1 G (some cb) (.functions (List.ofFn X)) coords = .ok T.g0)
    (hG : G.IsSymm) (hsub : ∀ a b, subsList sub1 (cb.zip (List.ofFn X)) (G a b) = G a b)
    (hconst : ∀ j a b, D (coords j) (G a b) = 0)
    (hcomm : ∀ x y f, D x (D y f) = D y (D x f)) : InFlatSpace G X T := by
  refine ⟨hG, fun j a b => by rw [hD, hconst], fun j k a => by rw [hD, hD, hcomm], fun j k => ?_⟩
  rw [smMetric_some, if_neg (by simp)] at hsm
  rw [← Except.ok.inj hsm, Matrix.of_apply, smEntry_eq]
  refine Finset.sum_congr rfl fun a _ => Finset.sum_congr rfl fun b _ => ?_
  rw [hsub, dxdu, dxdu, hD, hD]
  simp only [List.getD_eq_getElem?_getD, List.getElem?_ofFn, a.2, b.2, dif_pos, Option.getD_some]
  ring

/-- … and of any space, if the substitution of the coordinates by the functions is a homomorphism `φ` that
obeys the chain rule. -/
theorem C98_sm_curved {V : Type*} {D : V → Derivation ℤ L L} {sub1 : V → L → L → L} {cb : List V}
    {X : Fin n → L} {coords : Fin m → V} {S : Chart L n} {T : Chart L m} {φ : L →+* L}
    (hD : ∀ j, T.D j = D (coords j))
    (hsm : smMetric (fun x => D x) sub1 S.g0 (some cb) (.functions (List.ofFn X)) coords = .ok T.g0)
    (hφ : ∀ f, φ f = subsList sub1 (cb.zip (List.ofFn X)) f)
    (hchain : ∀ j f, D (coords j) (φ f) = ∑ i, D (coords j) (X i) * φ (S.D i f))
    (hcomm : ∀ x y f, D x (D y f) = D y (D x f)) : InSpace φ X S T := by
  refine ⟨fun j f => by rw [hD, hchain], fun j k a => by rw [hD, hD, hcomm], fun j k => ?_⟩
  rw [smMetric_some, if_neg (by simp)] at hsm
  rw [← Except.ok.inj hsm, Matrix.of_apply, smEntry_eq]
  refine Finset.sum_congr rfl fun a _ => Finset.sum_congr rfl fun b _ => ?_
  rw [hφ, dxdu, dxdu, hD, hD]
  simp only [List.getD_eq_getElem?_getD, List.getElem?_ofFn, a.2, b.2, dif_pos, Option.getD_some]
  ring

namespace Ex

/-- The paraboloid `z = x² + y²` with the coordinates `x, y`. -/
noncomputable def cupX : Fin 3 → Fun 2 := ![coord 0, coord 1, coord 0 ^ 2 + coord 1 ^ 2]

theorem cupX_d (i : Fin 2) (a : Fin 3) : partialD i (cupX a) =
    (!![1, 0; 0, 1; 2 * coord 0, 2 * coord 1] : Matrix (Fin 3) (Fin 2) (Fun 2)) a i := by
  fin_cases a
  · change partialD i (coord 0 : Fun 2) = _
    rw [partialD_coord]; fin_cases i <;> simp
  · change partialD i (coord 1 : Fun 2) = _
    rw [partialD_coord]; fin_cases i <;> simp
  · change partialD i (coord 0 ^ 2 + coord 1 ^ 2 : Fun 2) = _
    rw [map_add, coord_square, coord_square]; fin_cases i <;> simp

/-- Its metric tensor. -/
noncomputable def cupG : Matrix (Fin 2) (Fin 2) (Fun 2) :=
  !![1 + 4 * coord 0 ^ 2, 4 * coord 0 * coord 1; 4 * coord 0 * coord 1, 1 + 4 * coord 1 ^ 2]

theorem cupG_det : cupG.det ≠ 0 := by
  intro h
  have h1 : (1 : Fun 2) + 4 * uv2 = 0 := by
    rw [← h, cupG, Matrix.det_fin_two_of, uv2]; ring
  have h4 : partialD 0 (4 : Fun 2) = 0 := by
    have := (partialD (n := 2) 0).map_natCast 4
    simpa using this
  have h2 := congrArg (partialD 0) h1
  rw [map_add, Derivation.map_one_eq_zero, Derivation.leibniz, h4, uv2, map_add, coord_square, coord_square,
    map_zero] at h2
  simp [coord_ne_zero (n := 2) 0] at h2

/-- The hypotheses of `C98_flat` are met by the paraboloid in Euclidean space. -/
example : ∃ T : Chart (Fun 2) 2, T.Made ∧ InFlatSpace (1 : Matrix (Fin 3) (Fin 3) (Fun 2)) cupX T ∧
    T.D = partialD ∧ T.g0 = cupG := by
  obtain ⟨c, l, h1⟩ := C96_exists partialD (g0 := cupG) (N := none)
    (Matrix.IsSymm.ext fun i j => by fin_cases i <;> fin_cases j <;> rfl) cupG_det (by simp) (by simp)
  refine ⟨_, h1, ⟨Matrix.isSymm_one, fun j a b => ?_, fun j k a => partialD_comm j k _, fun j k => ?_⟩,
    rfl, rfl⟩
  · rw [Matrix.one_apply]; split_ifs <;> simp
  · simp only [Fin.sum_univ_three, cupX_d]
    fin_cases j <;> fin_cases k <;> simp [cupG] <;> ring

/-- The spiral `r = exp(θ)` in polar coordinates with normalised basis vectors: the derivative by its
parameter `θ` is `r*d/dr + d/dθ`. -/
theorem spiral : ∃ (S : Chart (Fun 2) 2) (T : Chart (Fun 2) 1), S.Made ∧ T.Made ∧
    InSpace (RingHom.id _) ![coord 0, coord 1] S T ∧ S.g0 = polar ∧ S.N = some polarN ∧
    T.g0 = Matrix.diagonal (fun _ => 2 * coord 0 ^ 2) := by
  have h0 := coord_ne_zero (n := 2) 0
  obtain ⟨c, l, h1⟩ := C96_exists partialD (g0 := polar) (N := some polarN) polar_symm (by simp [polar, h0])
    polarN_sq (fun _ => polar_ortho)
  obtain ⟨c', l', h2⟩ := C96_exists (fun _ : Fin 1 => coord (n := 2) 0 • partialD (n := 2) 0 + partialD 1)
    (g0 := Matrix.diagonal (fun _ => 2 * coord 0 ^ 2)) (N := none) (Matrix.isSymm_diagonal _) (by simp [h0])
    (by simp) (by simp)
  refine ⟨_, _, h1, h2, ⟨fun j f => ?_, fun j k a => ?_, fun j k => ?_⟩, rfl, rfl, rfl⟩
  · simp [Fin.sum_univ_two, partialD_coord]
  · rw [Subsingleton.elim j k]
  · obtain rfl := Subsingleton.elim j k
    simp [Fin.sum_univ_two, partialD_coord, polar]; ring

/-- The hypotheses of `C98_curved` and `C98_gradient` are met by the tangent vector of the spiral. -/
example : ∃ (S : Chart (Fun 2) 2) (T : Chart (Fun 2) 1) (A : Mv (Fun 2) 1) (B : Mv (Fun 2) 2),
    S.Made ∧ T.Made ∧ InSpace (RingHom.id _) ![coord 0, coord 1] S T ∧ A = Mv.vector (fun _ => 1) ∧
    (A.WF T.g ∧ A.isBladeRep = true) ∧ (B.WF S.g ∧ B.isBladeRep = true) ∧
    (A.rewriteIn (S.g.map (RingHom.id _)) (tangentIn (RingHom.id _) ![coord 0, coord 1] S T)).eq
      (S.g.map (RingHom.id _)) (B.subs (RingHom.id _)) = true := by
  obtain ⟨S, T, h1, h2, h3, -⟩ := spiral
  obtain ⟨Γ', u, E, Γ, w, hr, hc, -, -, C⟩ := exists_space h3 h1 h2
  have hv := Rep.vector (g := T.g) (fun _ : Fin 1 => (1 : Fun 2))
  have ra := C.rewrite hv
  have hg : S.g.map (RingHom.id (Fun 2)) = S.g := by ext; rfl
  have hsub : ∀ A : Mv (Fun 2) 2, A.subs (RingHom.id (Fun 2)) = Mv.ofExpr (linearExpand A.obj) := by
    intro A; simp [Mv.subs]
  have rs := Rep.ofExpr (g := S.g.map (RingHom.id (Fun 2))) (valid_linearExpand ra.valid)
  rw [den_linearExpand, ra.den] at rs
  refine ⟨S, T, _, _, h1, h2, h3, rfl, ⟨hv.wf, hv.flag⟩, ⟨hg ▸ ra.wf, ra.flag⟩, ?_⟩
  rw [hsub]
  exact (ra.eq_iff (isSymm_map hr.symm) rs).mpr rfl

end Ex
end GA
