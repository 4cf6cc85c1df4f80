import Verif.Props.C60Product

/-!
# C60: laws of derivatives in the direction of a vector field
-/

set_option linter.unusedSectionVars false
set_option maxRecDepth 10000

namespace GA
section
variable {n : ℕ} {K : Type*} [Field K] [DecidableEq K] [Invertible (2 : K)]
variable {g0 : Matrix (Fin n) (Fin n) K} {D : Fin n → Derivation ℤ K K} {N : Option (Fin n → K)}
  {conn : Option (Fin n → Fin n → Expr K n)} {l : List (Mv K n)}
variable (hs : g0.IsSymm)
  (hN : ∀ N', N = some N' → ∀ i, N' i ^ 2 = g0 i i ∨ N' i ^ 2 = - g0 i i)
  (hO : N.isSome → isOrtho g0 = true) (h : connOf (fun i => D i) g0 N = some conn)
  (hl : gradVecs g0 N = some l)
include hs hN hO h hl

/-- C60: the derivative in a direction is a derivation of each of the products `*`, `^`, `|`, `<`, `>`:
`(a|grad)*(A op B) == (((a|grad)*A) op B) + (A op ((a|grad)*B))`. -/
theorem C60_directional_product (op : ProdOp) (a : Fin n → K) {A B : Mv K n} (hA : A.WF (currentMetric N g0))
    (hA' : A.isBladeRep = true) (hB : B.WF (currentMetric N g0)) (hB' : B.isBladeRep = true) : ∃ d P Q R,
    Dop.mvMul (Fields.ofMetric (fun i => D i) g0 N conn) .inner (Mv.vector a) (gradDop l false) = .inr d ∧
    d.mulMv (Fields.ofMetric (fun i => D i) g0 N conn) .geo A = .inl P ∧
    d.mulMv (Fields.ofMetric (fun i => D i) g0 N conn) .geo B = .inl Q ∧
    d.mulMv (Fields.ofMetric (fun i => D i) g0 N conn) .geo (Mv.mulOp (currentMetric N g0) op A B) = .inl R ∧
    R.eq (currentMetric N g0) ((Mv.mulOp (currentMetric N g0) op P B).add (currentMetric N g0)
      (Mv.mulOp (currentMetric N g0) op A Q)) = true := by
  obtain ⟨Γ, u, hr, hg, -, hc, hlen, hu⟩ := grad_env hs hN hO h hl
  have hsc := currentMetric_symm hs N
  have rA := Rep.of_wf hA hA'
  have rB := Rep.of_wf hB hB'
  obtain ⟨d, P, h1, h2, h3⟩ := directional_rep hs hN hO h hl hr hc a rA
  obtain ⟨d', Q, k1, k2, k3⟩ := directional_rep hs hN hO h hl hr hc a rB
  obtain ⟨d'', R, m1, m2, m3⟩ := directional_rep hs hN hO h hl hr hc a (mulOp_rep hsc op rA rB)
  have e1 := Sum.inr.inj (h1.symm.trans k1)
  have e2 := Sum.inr.inj (h1.symm.trans m1)
  subst e1 e2
  refine ⟨_, P, Q, R, h1, h2, k2, m2, ?_⟩
  rw [m3.eq_iff hsc (Rep.add hsc (mulOp_rep hsc op h3 rB) (mulOp_rep hsc op rA k3)), opS_sum_left, opS_sum_right,
    ← Finset.sum_add_distrib]
  refine Finset.sum_congr rfl fun i _ => ?_
  rw [opS_deriv hsc (hr.compat i), smul_add, opS_smul_left, opS_smul_right]

/-- C60: the derivative in a direction keeps grades and commutes with reversion. -/
theorem C60_directional_grade (r : ℕ) (a : Fin n → K) {A : Mv K n} (hA : A.WF (currentMetric N g0))
    (hA' : A.isBladeRep = true) : ∃ d P Q R,
    Dop.mvMul (Fields.ofMetric (fun i => D i) g0 N conn) .inner (Mv.vector a) (gradDop l false) = .inr d ∧
    d.mulMv (Fields.ofMetric (fun i => D i) g0 N conn) .geo A = .inl P ∧
    d.mulMv (Fields.ofMetric (fun i => D i) g0 N conn) .geo (A.getGrade r) = .inl Q ∧
    d.mulMv (Fields.ofMetric (fun i => D i) g0 N conn) .geo (A.rev (currentMetric N g0)) = .inl R ∧
    Q.eq (currentMetric N g0) (P.getGrade r) = true ∧
    R.eq (currentMetric N g0) (P.rev (currentMetric N g0)) = true := by
  obtain ⟨Γ, u, hr, hg, -, hc, hlen, hu⟩ := grad_env hs hN hO h hl
  have hsc := currentMetric_symm hs N
  have rA := Rep.of_wf hA hA'
  obtain ⟨d, P, h1, h2, h3⟩ := directional_rep hs hN hO h hl hr hc a rA
  obtain ⟨d', Q, k1, k2, k3⟩ := directional_rep hs hN hO h hl hr hc a (rA.getGrade r)
  obtain ⟨d'', R, m1, m2, m3⟩ := directional_rep hs hN hO h hl hr hc a (rA.rev hsc)
  have e1 := Sum.inr.inj (h1.symm.trans k1)
  have e2 := Sum.inr.inj (h1.symm.trans m1)
  subst e1 e2
  refine ⟨_, P, Q, R, h1, h2, k2, m2, ?_, ?_⟩
  · rw [k3.eq_iff hsc (h3.getGrade r), map_sum]
    refine Finset.sum_congr rfl fun i _ => ?_
    rw [Spec.deriv_grade, map_smul]
  · rw [m3.eq_iff hsc (h3.rev hsc), map_sum]
    refine Finset.sum_congr rfl fun i _ => ?_
    rw [map_smul, Spec.deriv_reverse]

/-- C60: the values of a curl on pairs of vectors, in terms of derivatives in their directions:
`b<(a<(grad^v)) == (((a|grad)*v)|b) - (((b|grad)*v)|a)`. -/
theorem C60_curl_values (a b v : Fin n → K) : ∃ d e P Q G,
    Dop.mvMul (Fields.ofMetric (fun i => D i) g0 N conn) .inner (Mv.vector a) (gradDop l false) = .inr d ∧
    Dop.mvMul (Fields.ofMetric (fun i => D i) g0 N conn) .inner (Mv.vector b) (gradDop l false) = .inr e ∧
    d.mulMv (Fields.ofMetric (fun i => D i) g0 N conn) .geo (Mv.vector v) = .inl P ∧
    e.mulMv (Fields.ofMetric (fun i => D i) g0 N conn) .geo (Mv.vector v) = .inl Q ∧
    (gradDop l false).mulMv (Fields.ofMetric (fun i => D i) g0 N conn) .outer (Mv.vector v) = .inl G ∧
    ((Mv.vector b).left (currentMetric N g0) ((Mv.vector a).left (currentMetric N g0) G)).eq (currentMetric N g0)
      ((P.dot (currentMetric N g0) (Mv.vector b)).sub (currentMetric N g0)
        (Q.dot (currentMetric N g0) (Mv.vector a))) = true := by
  obtain ⟨Γ, u, hr, hg, -, hc, hlen, hu⟩ := grad_env hs hN hO h hl
  have hsc := currentMetric_symm hs N
  obtain ⟨d, P, h1, h2, h3⟩ := directional_rep hs hN hO h hl hr hc a (Rep.vector v)
  obtain ⟨e, Q, k1, k2, k3⟩ := directional_rep hs hN hO h hl hr hc b (Rep.vector v)
  obtain ⟨G, g1, g2⟩ := hg .outer (Rep.vector v)
  refine ⟨d, e, P, Q, G, h1, k1, h2, k2, g1, ?_⟩
  rw [(Rep.left hsc (Rep.vector b) (Rep.left hsc (Rep.vector a) g2)).eq_iff hsc
    (Rep.sub hsc (Rep.dot hsc h3 (Rep.vector b)) (Rep.dot hsc k3 (Rep.vector a)))]
  have hvec : ∀ a : Fin n → K, ∑ i, Spec.ip (currentMetric N g0) a (u i) •
      Spec.deriv (currentMetric N g0) (D i) (Γ i) (Spec.vec (currentMetric N g0) v) =
      Spec.vec (currentMetric N g0) (∑ i, Spec.ip (currentMetric N g0) a (u i) • Spec.dvec (D i) (Γ i) v) := by
    intro a
    conv_rhs => rw [Spec.vec, map_sum]
    refine Finset.sum_congr rfl fun i _ => ?_
    rw [Spec.deriv_vec, map_smul]
    rfl
  have hs1 : ∀ a b : Fin n → K, Spec.ip (currentMetric N g0)
      (∑ i, Spec.ip (currentMetric N g0) a (u i) • Spec.dvec (D i) (Γ i) v) b =
      ∑ i, Spec.ip (currentMetric N g0) a (u i) * Spec.ip (currentMetric N g0) b (Spec.dvec (D i) (Γ i) v) := by
    intro a b
    rw [Spec.ip_comm]
    refine (map_sum (QuadraticMap.associated (R := K) (Spec.Q (currentMetric N g0)) b) _ _).trans ?_
    refine Finset.sum_congr rfl fun i _ => ?_
    rw [map_smul, smul_eq_mul]
  rw [hvec, hvec, Spec.hestenesDot_vec_ip, Spec.hestenesDot_vec_ip, hs1, hs1, Spec.lc_vec, Spec.lc_vec, map_sum,
    map_sum, ← map_sub, ← Finset.sum_sub_distrib, map_sum]
  refine Finset.sum_congr rfl fun i _ => ?_
  rw [opS, Spec.deriv_vec, Spec.con_wedge_vec, Spec.con_vec, Algebra.algebraMap_eq_smul_one, Spec.wedge_smul,
    Spec.wedge_one, map_sub (Spec.con _ b), map_smul, map_smul, Spec.con_vec, Spec.con_vec, Algebra.smul_def,
    Algebra.smul_def, ← map_mul, ← map_mul, ← map_sub]
  congr 1
  ring

end

/-- The hypotheses hold in polar coordinates. -/
example (a b v : Fin 2 → Ex.Fun 2) : ∃ conn l,
    connOf (fun i => Ex.partialD i) Ex.polar none = some conn ∧ gradVecs Ex.polar none = some l ∧
    (∃ d P, Dop.mvMul (Fields.ofMetric (fun i => Ex.partialD i) Ex.polar none conn) .inner (Mv.vector a)
        (gradDop l false) = .inr d ∧
      d.mulMv (Fields.ofMetric (fun i => Ex.partialD i) Ex.polar none conn) .geo (Mv.vector b) = .inl P) ∧
    (∃ G, (gradDop l false).mulMv (Fields.ofMetric (fun i => Ex.partialD i) Ex.polar none conn) .outer
      (Mv.vector v) = .inl G) := by
  obtain ⟨d, hd⟩ := Ex.polar_de none (Or.inl rfl)
  have hdet : Ex.polar.det ≠ 0 := by
    have := Ex.coord_ne_zero (n := 2) 0
    simp [Ex.polar, Matrix.det_diagonal, Fin.prod_univ_two, this]
  obtain ⟨l, hl⟩ := Option.isSome_iff_exists.mp (C60_exists (N := none) Ex.polar_symm hdet (by simp) (by simp))
  have hc : connOf (fun i => Ex.partialD i) Ex.polar none = some (some d) := by
    rw [connOf, if_pos Ex.polar_connect, hd]; rfl
  obtain ⟨d, -, P, -, -, h1, -, h2, -⟩ := C60_curl_values Ex.polar_symm (by simp) (by simp) hc hl a b b
  obtain ⟨-, -, -, -, G, -, -, -, -, h3, -⟩ := C60_curl_values Ex.polar_symm (by simp) (by simp) hc hl a b v
  exact ⟨_, l, hc, hl, ⟨d, P, h1, h2⟩, G, h3⟩

/-- The hypotheses of `C60_bracket`, in polar coordinates. -/
example (a b : Fin 2 → Ex.Fun 2) (f : Ex.Fun 2) : ∃ conn l d e B B',
    connOf (fun i => Ex.partialD i) Ex.polar none = some conn ∧ gradVecs Ex.polar none = some l ∧
    Dop.mvMul (Fields.ofMetric (fun i => Ex.partialD i) Ex.polar none conn) .inner (Mv.vector a)
        (gradDop l false) = .inr d ∧
    Dop.mvMul (Fields.ofMetric (fun i => Ex.partialD i) Ex.polar none conn) .inner (Mv.vector b)
        (gradDop l false) = .inr e ∧
    e.mulMv (Fields.ofMetric (fun i => Ex.partialD i) Ex.polar none conn) .geo (Mv.scalarMv f) = .inl B ∧
    d.mulMv (Fields.ofMetric (fun i => Ex.partialD i) Ex.polar none conn) .geo B = .inl B' := by
  obtain ⟨d, hd⟩ := Ex.polar_de none (Or.inl rfl)
  have hdet : Ex.polar.det ≠ 0 := by
    have := Ex.coord_ne_zero (n := 2) 0
    simp [Ex.polar, Matrix.det_diagonal, Fin.prod_univ_two, this]
  obtain ⟨l, hl⟩ := Option.isSome_iff_exists.mp (C60_exists (N := none) Ex.polar_symm hdet (by simp) (by simp))
  have hc : connOf (fun i => Ex.partialD i) Ex.polar none = some (some d) := by
    rw [connOf, if_pos Ex.polar_connect, hd]; rfl
  obtain ⟨d, e, -, -, -, -, -, B, B', h1, h2, -, -, -, h3, h4, -⟩ :=
    C60_bracket Ex.polar_symm (by simp) (by simp) hc hl (fun i j f => Ex.partialD_comm i j f) a b f
  exact ⟨_, l, d, e, B, B', hc, hl, h1, h2, h3, h4⟩

end GA
