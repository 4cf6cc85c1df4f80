import Verif.Proofs.DopScalar
import Verif.Props.C42

/-!
# C42: products of differential operators, applied to scalar fields

`C42_mul` needs the derivatives of multivector fields to commute, which is true in flat spaces only
(`C42_curved_counterexample`).  For scalar fields the derivatives of functions are enough, so that the product of
operators is right in every space.
-/

set_option linter.unusedSectionVars false
set_option maxRecDepth 10000

namespace GA
variable {n : ℕ} {K : Type*} [Field K] [DecidableEq K] [Invertible (2 : K)]
  {g0 : Matrix (Fin n) (Fin n) K} {D : Fin n → Derivation ℤ K K} {N : Option (Fin n → K)}
  {conn : Option (Fin n → Fin n → Expr K n)}

theorem envS_of (hs : g0.IsSymm)
    (hN : ∀ N', N = some N' → ∀ i, N' i ^ 2 = g0 i i ∨ N' i ^ 2 = - g0 i i)
    (h : connOf (fun i => D i) g0 N = some conn) (hD : ∀ i j f, D i (D j f) = D j (D i f)) :
    ∃ Γ, EnvS (Fields.ofMetric (fun i => D i) g0 N conn) D Γ := by
  obtain ⟨Γ, h1, h2⟩ := connOf_spec hs D hN h
  exact ⟨Γ, currentMetric_symm hs N, fun _ => rfl, fun _ => rfl, h1, h2, hD⟩

section
variable (hs : g0.IsSymm)
  (hN : ∀ N', N = some N' → ∀ i, N' i ^ 2 = g0 i i ∨ N' i ^ 2 = - g0 i i)
  (h : connOf (fun i => D i) g0 N = some conn) (hD : ∀ i j f, D i (D j f) = D j (D i f))
include hs hN h hD

/-- C42: `(d * e) * f = d * (e * f)` and `(d ^ e) ^ f = d ^ (e ^ f)` for a scalar field `f`, in every space, flat
or curved. -/
theorem C42_mul_scalar {op : ProdOp} (ho : op = .geo ∨ op = .outer) {d e : Dop (Fin n) K n} (f : K)
    (hd : d.WF (Fields.ofMetric (fun i => D i) g0 N conn))
    (he : e.WF (Fields.ofMetric (fun i => D i) g0 N conn)) (hdf : d.cmpflg = false) (hef : e.cmpflg = false) :
    ∃ c G H I, Dop.mul (Fields.ofMetric (fun i => D i) g0 N conn) op d e = some c ∧
      e.mulMv (Fields.ofMetric (fun i => D i) g0 N conn) op (Mv.scalarMv f) = .inl G ∧
      d.mulMv (Fields.ofMetric (fun i => D i) g0 N conn) op G = .inl H ∧
      c.mulMv (Fields.ofMetric (fun i => D i) g0 N conn) op (Mv.scalarMv f) = .inl I ∧
      I.eq (currentMetric N g0) H = true := by
  obtain ⟨Γ, hE⟩ := envS_of hs hN h hD
  obtain ⟨c, f1, f2, f3, f4⟩ := Dop.mul_specK hE ho hd he hdf hef
  obtain ⟨G, G1, G2⟩ := Dop.apply_rightK hE op he hef f
  obtain ⟨H, H1, H2⟩ := Dop.apply_right' hE op hd hdf G2
  obtain ⟨I, I1, I2⟩ := Dop.apply_rightK hE op f2 f3 f
  exact ⟨c, G, H, I, f1, G1, H1, I1, (I2.eq_iff hE.symm H2).mpr (f4 _)⟩

/-- C42: `f * (d * e) = (f * d) * e` and `f ^ (d ^ e) = (f ^ d) ^ e` for operators on the left. -/
theorem C42_mul_scalar_left {op : ProdOp} (ho : op = .geo ∨ op = .outer) {d e : Dop (Fin n) K n} (f : K)
    (hd : d.WF (Fields.ofMetric (fun i => D i) g0 N conn))
    (he : e.WF (Fields.ofMetric (fun i => D i) g0 N conn)) (hdf : d.cmpflg = true) (hef : e.cmpflg = true) :
    ∃ c G H I, Dop.mul (Fields.ofMetric (fun i => D i) g0 N conn) op d e = some c ∧
      Dop.mvMul (Fields.ofMetric (fun i => D i) g0 N conn) op (Mv.scalarMv f) d = .inl G ∧
      Dop.mvMul (Fields.ofMetric (fun i => D i) g0 N conn) op G e = .inl H ∧
      Dop.mvMul (Fields.ofMetric (fun i => D i) g0 N conn) op (Mv.scalarMv f) c = .inl I ∧
      I.eq (currentMetric N g0) H = true := by
  obtain ⟨Γ, hE⟩ := envS_of hs hN h hD
  obtain ⟨c, f1, f2, f3, f4⟩ := Dop.mul_spec_leftK hE ho hd he hdf hef
  obtain ⟨G, G1, G2⟩ := Dop.apply_leftK hE op hd hdf f
  obtain ⟨H, H1, H2⟩ := Dop.apply_left' hE op he hef G2
  obtain ⟨I, I1, I2⟩ := Dop.apply_leftK hE op f2 f3 f
  exact ⟨c, G, H, I, f1, G1, H1, I1, (I2.eq_iff hE.symm H2).mpr (f4 _)⟩

end

/-! ### Concrete cases -/

namespace Ex

/-- The surface `diag(1, x⁴)` of `C42_curved_counterexample`, which is curved. -/
theorem curved_conn : ∃ conn, connOf (fun i => partialD i) (warp (coord 0 ^ 2)) none = some conn ∧
    conn.isSome = true := by
  have c0 := coord_ne_zero (n := 2) 0
  have d : ∀ k : Fin 2, partialD k (coord 0 ^ 2 : Fun 2) = 2 * coord 0 * (if k = 0 then 1 else 0) := by
    intro k
    rw [sq, Derivation.leibniz, partialD_coord]
    simp only [smul_eq_mul]; ring
  have h1 : partialD 1 (coord 0 ^ 2 : Fun 2) = 0 := by rw [d, if_neg (by simp), mul_zero]
  have h0 : partialD 0 (coord 0 ^ 2 : Fun 2) ≠ 0 := by
    rw [d, if_pos rfl, mul_one]; exact mul_ne_zero two_ne_zero c0
  obtain ⟨conn, hc, hΓ⟩ := warp_conn (pow_ne_zero 2 c0) h1 h0
  refine ⟨conn, hc, ?_⟩
  cases conn with
  | some c => rfl
  | none =>
    exfalso
    have h3 : warpΓ (coord 0 ^ 2 : Fun 2) = 0 := hΓ
    have h4 := congrFun (congrFun (congrFun h3 0) 1) 1
    simp [warpΓ, c0] at h4
    rw [partialD_coord, if_pos rfl] at h4
    exact one_ne_zero h4

/-- All hypotheses of `C42_mul_scalar` are met on a curved surface, for an operator with coefficients and
derivatives of several orders. -/
example (f : Fun 2) : ∃ conn c G H I,
    connOf (fun i => partialD i) (warp (coord 0 ^ 2)) none = some conn ∧ conn.isSome = true ∧
    Dop.mul (Fields.ofMetric (fun i => partialD i) (warp (coord 0 ^ 2)) none conn) .geo (dpol false)
      (dpol false) = some c ∧
    (dpol false).mulMv (Fields.ofMetric (fun i => partialD i) (warp (coord 0 ^ 2)) none conn) .geo
      (Mv.scalarMv f) = .inl G ∧
    (dpol false).mulMv (Fields.ofMetric (fun i => partialD i) (warp (coord 0 ^ 2)) none conn) .geo G = .inl H ∧
    c.mulMv (Fields.ofMetric (fun i => partialD i) (warp (coord 0 ^ 2)) none conn) .geo (Mv.scalarMv f) = .inl I ∧
    I.eq (warp (coord 0 ^ 2)) H = true := by
  obtain ⟨conn, h1, h2⟩ := curved_conn
  obtain ⟨c, G, H, I, k1, k2, k3, k4, k5⟩ := C42_mul_scalar (warp_symm _) (by simp) h1 partialD_comm
    (Or.inl rfl) f (dpol_wf _ _) (dpol_wf _ _) rfl rfl
  exact ⟨conn, c, G, H, I, h1, h2, k1, k2, k3, k4, k5⟩

end Ex

end GA
