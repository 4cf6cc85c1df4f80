import Verif.Proofs.Dop
import Verif.Props.C43
import Verif.Props.C40
import Verif.Proofs.Warp

/-!
# C42: multivector differential operators

`d.mulMv X op F` and `Dop.mvMul X op F d` model the products `d op F` and `F op d` of an operator and
a multivector; the result is a multivector (`.inl`) or an operator (`.inr`).  `Dop.mul X op d e`
models `d op e`; `none` is an exception.  `X = Fields.ofMetric D g0 N conn` is the algebra
constructed with coordinates `Fin n` and metric tensor `g0`.
-/

set_option linter.unusedSectionVars false
set_option maxRecDepth 10000

namespace GA
variable {n : ℕ} {K : Type*} [Field K] [DecidableEq K] [Invertible (2 : K)]

section algebra
variable {g0 : Matrix (Fin n) (Fin n) K} {D : Fin n → Derivation ℤ K K} {N : Option (Fin n → K)}
  {conn : Option (Fin n → Fin n → Expr K n)}

/-- Every element of the Clifford algebra is represented. -/
theorem exists_rep (g : Matrix (Fin n) (Fin n) K) (x : Spec.Cl g) : ∃ A : Mv K n, Rep g A x := by
  obtain ⟨E, hE, rfl⟩ := exists_expr g x
  exact ⟨_, Rep.ofExpr hE⟩

theorem derivs_comm_iff {X : Fields (Fin n) K n} {Γ : Fin n → Matrix (Fin n) (Fin n) K}
    (hs : X.g.IsSymm) (hD : ∀ i, X.D i = D i) (hi : ∀ i, X.idx i = some i)
    (hc : IsConnection X.g X.conn Γ) {A : Mv K n} {x : Spec.Cl X.g} (hA : Rep X.g A x) (i j : Fin n) :
    ((A.diffN X j 1).diffN X i 1).eq X.g ((A.diffN X i 1).diffN X j 1) = true ↔
      grd X D Γ i (grd X D Γ j x) = grd X D Γ j (grd X D Γ i x) :=
  (diffN_rep hs hD hi hc i 1 (diffN_rep hs hD hi hc j 1 hA)).eq_iff hs
    (diffN_rep hs hD hi hc j 1 (diffN_rep hs hD hi hc i 1 hA))

theorem env_of (hs : g0.IsSymm)
    (hN : ∀ N', N = some N' → ∀ i, N' i ^ 2 = g0 i i ∨ N' i ^ 2 = - g0 i i)
    (h : connOf (fun i => D i) g0 N = some conn)
    (hf : CommutingDerivatives (Fields.ofMetric (fun i => D i) g0 N conn)) :
    ∃ Γ, Env (Fields.ofMetric (fun i => D i) g0 N conn) D Γ := by
  obtain ⟨Γ, h1, h2⟩ := connOf_spec hs D hN h
  have hsc := currentMetric_symm hs N
  refine ⟨Γ, hsc, fun _ => rfl, fun _ => rfl, h1, h2, fun i j x => ?_⟩
  obtain ⟨A, hA⟩ := exists_rep (currentMetric N g0) x
  exact (derivs_comm_iff (X := Fields.ofMetric (fun i => D i) g0 N conn) hsc (fun _ => rfl) (fun _ => rfl) h1
    hA i j).mp (hf i j A hA.wf hA.flag)

/-! ### When derivatives commute -/

/-- C42: the derivatives of multivector fields commute if those of functions and of the basis vectors
do. -/
theorem C42_commuting_of_basis (hs : g0.IsSymm)
    (hN : ∀ N', N = some N' → ∀ i, N' i ^ 2 = g0 i i ∨ N' i ^ 2 = - g0 i i)
    (h : connOf (fun i => D i) g0 N = some conn) (hD : ∀ i j f, D i (D j f) = D j (D i f))
    (hb : ∀ i j k, ((Mv.diffN (Fields.ofMetric (fun i => D i) g0 N conn) i 1
        (Mv.diffN (Fields.ofMetric (fun i => D i) g0 N conn) j 1 (Mv.ofExpr (bladeE [k]))))).eq
          (currentMetric N g0)
        (Mv.diffN (Fields.ofMetric (fun i => D i) g0 N conn) j 1
          (Mv.diffN (Fields.ofMetric (fun i => D i) g0 N conn) i 1 (Mv.ofExpr (bladeE [k])))) = true) :
    CommutingDerivatives (Fields.ofMetric (fun i => D i) g0 N conn) := by
  obtain ⟨Γ, h1, h2⟩ := connOf_spec hs D hN h
  have hsc := currentMetric_symm hs N
  intro i j A hA hA'
  rw [derivs_comm_iff (X := Fields.ofMetric (fun i => D i) g0 N conn) hsc (fun _ => rfl) (fun _ => rfl) h1
    (Rep.of_wf hA hA')]
  refine deriv_comm (hD i j) (fun k => ?_) _
  exact (derivs_comm_iff (X := Fields.ofMetric (fun i => D i) g0 N conn) hsc (fun _ => rfl) (fun _ => rfl) h1
    (basis_rep k) i j).mp (hb i j k)

/-- C42: derivatives commute if the metric is constant (there is no connection). -/
theorem C42_commuting_of_constant (hs : g0.IsSymm)
    (hN : ∀ N', N = some N' → ∀ i, N' i ^ 2 = g0 i i ∨ N' i ^ 2 = - g0 i i)
    (hg : ∀ i j k, D k (g0 i j) = 0) (hD : ∀ i j f, D i (D j f) = D j (D i f)) :
    connOf (fun i => D i) g0 N = some none ∧
      CommutingDerivatives (Fields.ofMetric (fun i => D i) g0 N none) := by
  have h : connOf (fun i => D i) g0 N = some none := by
    rw [connOf, if_neg]
    rw [Bool.not_eq_true, connectFlg_false]
    exact hg
  refine ⟨h, C42_commuting_of_basis hs hN h hD fun i j k => ?_⟩
  have hsc := currentMetric_symm hs N
  refine (derivs_comm_iff (X := Fields.ofMetric (fun i => D i) g0 N none) (Γ := 0) hsc (fun _ => rfl)
    (fun _ => rfl) rfl (basis_rep k) i j).mpr ?_
  have h0 : ∀ i, grd (Fields.ofMetric (fun i => D i) g0 N none) D 0 i
      (Spec.vec (Fields.ofMetric (fun i => D i) g0 N none).g (Pi.single k 1)) = 0 := by
    intro i
    refine (Spec.deriv_vec _ _ _).trans ?_
    have : Spec.dvec (D i) 0 (Pi.single k (1 : K)) = 0 := by
      funext j; simp [Spec.dvec, Pi.single_apply, apply_ite (D i)]
    rw [Pi.zero_apply, this]
    exact map_zero _
  rw [h0, h0]
  exact (Spec.deriv_zero _ _).trans (Spec.deriv_zero _ _).symm

/-! ### Algebra of operators -/

variable (hs : g0.IsSymm)
  (hN : ∀ N', N = some N' → ∀ i, N' i ^ 2 = g0 i i ∨ N' i ^ 2 = - g0 i i)
  (h : connOf (fun i => D i) g0 N = some conn)

include hs hN h

/-- C42: `(d * e) * F = d * (e * F)` and `(d ^ e) ^ F = d ^ (e ^ F)` for operators on the right, if
derivatives commute. -/
theorem C42_mul (hf : CommutingDerivatives (Fields.ofMetric (fun i => D i) g0 N conn))
    {op : ProdOp} (ho : op = .geo ∨ op = .outer) {d e : Dop (Fin n) K n} {F : Mv K n}
    (hd : d.WF (Fields.ofMetric (fun i => D i) g0 N conn))
    (he : e.WF (Fields.ofMetric (fun i => D i) g0 N conn))
    (hF : F.WF (currentMetric N g0)) (hF' : F.isBladeRep = true)
    (hdf : d.cmpflg = false) (hef : e.cmpflg = false) :
    ∃ f G H I, Dop.mul (Fields.ofMetric (fun i => D i) g0 N conn) op d e = some f ∧
      f.cmpflg = false ∧ f.WF (Fields.ofMetric (fun i => D i) g0 N conn) ∧
      e.mulMv (Fields.ofMetric (fun i => D i) g0 N conn) op F = .inl G ∧
      d.mulMv (Fields.ofMetric (fun i => D i) g0 N conn) op G = .inl H ∧
      f.mulMv (Fields.ofMetric (fun i => D i) g0 N conn) op F = .inl I ∧
      I.eq (currentMetric N g0) H = true := by
  obtain ⟨Γ, hE⟩ := env_of hs hN h hf
  obtain ⟨f, f1, f2, f3, f4⟩ := Dop.mul_spec hE ho hd he hdf hef
  obtain ⟨G, G1, G2⟩ := Dop.apply_right hE op he hef (Rep.of_wf hF hF')
  obtain ⟨H, H1, H2⟩ := Dop.apply_right hE op hd hdf G2
  obtain ⟨I, I1, I2⟩ := Dop.apply_right hE op f2 f3 (Rep.of_wf hF hF')
  exact ⟨f, G, H, I, f1, f3, f2, G1, H1, I1, (I2.eq_iff hE.symm H2).mpr (f4 _)⟩

/-- C42: `F * (d * e) = (F * d) * e` and `F ^ (d ^ e) = (F ^ d) ^ e` for operators on the left, if
derivatives commute. -/
theorem C42_mul_left (hf : CommutingDerivatives (Fields.ofMetric (fun i => D i) g0 N conn))
    {op : ProdOp} (ho : op = .geo ∨ op = .outer) {d e : Dop (Fin n) K n} {F : Mv K n}
    (hd : d.WF (Fields.ofMetric (fun i => D i) g0 N conn))
    (he : e.WF (Fields.ofMetric (fun i => D i) g0 N conn))
    (hF : F.WF (currentMetric N g0)) (hF' : F.isBladeRep = true)
    (hdf : d.cmpflg = true) (hef : e.cmpflg = true) :
    ∃ f G H I, Dop.mul (Fields.ofMetric (fun i => D i) g0 N conn) op d e = some f ∧
      f.cmpflg = true ∧ f.WF (Fields.ofMetric (fun i => D i) g0 N conn) ∧
      Dop.mvMul (Fields.ofMetric (fun i => D i) g0 N conn) op F d = .inl G ∧
      Dop.mvMul (Fields.ofMetric (fun i => D i) g0 N conn) op G e = .inl H ∧
      Dop.mvMul (Fields.ofMetric (fun i => D i) g0 N conn) op F f = .inl I ∧
      I.eq (currentMetric N g0) H = true := by
  obtain ⟨Γ, hE⟩ := env_of hs hN h hf
  obtain ⟨f, f1, f2, f3, f4⟩ := Dop.mul_spec_left hE ho hd he hdf hef
  obtain ⟨G, G1, G2⟩ := Dop.apply_left hE op hd hdf (Rep.of_wf hF hF')
  obtain ⟨H, H1, H2⟩ := Dop.apply_left hE op he hef G2
  obtain ⟨I, I1, I2⟩ := Dop.apply_left hE op f2 f3 (Rep.of_wf hF hF')
  exact ⟨f, G, H, I, f1, f3, f2, G1, H1, I1, (I2.eq_iff hE.symm H2).mpr (f4 _)⟩

/-- C42: a multivector times an operator: `(A * d) * F = A * (d * F)`, `(A ^ d) ^ F = A ^ (d ^ F)`. -/
theorem C42_mv_mul (hf : CommutingDerivatives (Fields.ofMetric (fun i => D i) g0 N conn))
    {op : ProdOp} (ho : op = .geo ∨ op = .outer) {d : Dop (Fin n) K n} {A F : Mv K n}
    (hd : d.WF (Fields.ofMetric (fun i => D i) g0 N conn))
    (hA : A.WF (currentMetric N g0)) (hA' : A.isBladeRep = true)
    (hF : F.WF (currentMetric N g0)) (hF' : F.isBladeRep = true) (hdf : d.cmpflg = false) :
    ∃ f G H, Dop.mvMul (Fields.ofMetric (fun i => D i) g0 N conn) op A d = .inr f ∧
      f.cmpflg = false ∧ f.WF (Fields.ofMetric (fun i => D i) g0 N conn) ∧
      d.mulMv (Fields.ofMetric (fun i => D i) g0 N conn) op F = .inl G ∧
      f.mulMv (Fields.ofMetric (fun i => D i) g0 N conn) op F = .inl H ∧
      H.eq (currentMetric N g0) (Mv.mulOp (currentMetric N g0) op A G) = true := by
  obtain ⟨Γ, hE⟩ := env_of hs hN h hf
  obtain ⟨f, f1, f2, f3, f4⟩ := Dop.mvMul_spec hE ho hd hdf (Rep.of_wf hA hA')
  obtain ⟨G, G1, G2⟩ := Dop.apply_right hE op hd hdf (Rep.of_wf hF hF')
  obtain ⟨H, H1, H2⟩ := Dop.apply_right hE op f2 f3 (Rep.of_wf hF hF')
  exact ⟨f, G, H, f1, f3, f2, G1, H1,
    (H2.eq_iff hE.symm (mulOp_rep hE.symm op (Rep.of_wf hA hA') G2)).mpr (f4 _)⟩

/-- C42: an operator on the left times a multivector: `F * (d * A) = (F * d) * A`. -/
theorem C42_mul_mv (hf : CommutingDerivatives (Fields.ofMetric (fun i => D i) g0 N conn))
    {op : ProdOp} (ho : op = .geo ∨ op = .outer) {d : Dop (Fin n) K n} {A F : Mv K n}
    (hd : d.WF (Fields.ofMetric (fun i => D i) g0 N conn))
    (hA : A.WF (currentMetric N g0)) (hA' : A.isBladeRep = true)
    (hF : F.WF (currentMetric N g0)) (hF' : F.isBladeRep = true) (hdf : d.cmpflg = true) :
    ∃ f G H, Dop.mulMv (Fields.ofMetric (fun i => D i) g0 N conn) op d A = .inr f ∧
      f.cmpflg = true ∧ f.WF (Fields.ofMetric (fun i => D i) g0 N conn) ∧
      Dop.mvMul (Fields.ofMetric (fun i => D i) g0 N conn) op F d = .inl G ∧
      Dop.mvMul (Fields.ofMetric (fun i => D i) g0 N conn) op F f = .inl H ∧
      H.eq (currentMetric N g0) (Mv.mulOp (currentMetric N g0) op G A) = true := by
  obtain ⟨Γ, hE⟩ := env_of hs hN h hf
  obtain ⟨f, f1, f2, f3, f4⟩ := Dop.mulMv_spec hE ho hd hdf (Rep.of_wf hA hA')
  obtain ⟨G, G1, G2⟩ := Dop.apply_left hE op hd hdf (Rep.of_wf hF hF')
  obtain ⟨H, H1, H2⟩ := Dop.apply_left hE op f2 f3 (Rep.of_wf hF hF')
  exact ⟨f, G, H, f1, f3, f2, G1, H1,
    (H2.eq_iff hE.symm (mulOp_rep hE.symm op G2 (Rep.of_wf hA hA'))).mpr (f4 _)⟩

/-- C42: `(d + e) op F = d op F + e op F` and `(d - e) op F = d op F - e op F`, for every product and
operators on the right. -/
theorem C42_add (hf : CommutingDerivatives (Fields.ofMetric (fun i => D i) g0 N conn))
    (op : ProdOp) {d e : Dop (Fin n) K n} {F : Mv K n}
    (hd : d.WF (Fields.ofMetric (fun i => D i) g0 N conn))
    (he : e.WF (Fields.ofMetric (fun i => D i) g0 N conn))
    (hF : F.WF (currentMetric N g0)) (hF' : F.isBladeRep = true)
    (hdf : d.cmpflg = false) (hef : e.cmpflg = false) :
    ∃ f f' G H I J, Dop.add (Fields.ofMetric (fun i => D i) g0 N conn) d e = some f ∧
      Dop.sub (Fields.ofMetric (fun i => D i) g0 N conn) d e = some f' ∧
      d.mulMv (Fields.ofMetric (fun i => D i) g0 N conn) op F = .inl G ∧
      e.mulMv (Fields.ofMetric (fun i => D i) g0 N conn) op F = .inl H ∧
      f.mulMv (Fields.ofMetric (fun i => D i) g0 N conn) op F = .inl I ∧
      f'.mulMv (Fields.ofMetric (fun i => D i) g0 N conn) op F = .inl J ∧
      I.eq (currentMetric N g0) (G.add (currentMetric N g0) H) = true ∧
      J.eq (currentMetric N g0) (G.sub (currentMetric N g0) H) = true := by
  obtain ⟨Γ, hE⟩ := env_of hs hN h hf
  obtain ⟨f, f1, f2, f3, f4⟩ := Dop.add_spec hE hd he (hdf.trans hef.symm)
  obtain ⟨n1, n2, n3⟩ := Dop.neg_spec (D := D) (Γ := Γ) he
  obtain ⟨f', k1, k2, k3, k4⟩ := Dop.add_spec hE hd n1 (hdf.trans (n2.trans hef).symm)
  obtain ⟨G, G1, G2⟩ := Dop.apply_right hE op hd hdf (Rep.of_wf hF hF')
  obtain ⟨H, H1, H2⟩ := Dop.apply_right hE op he hef (Rep.of_wf hF hF')
  obtain ⟨I, I1, I2⟩ := Dop.apply_right hE op f2 (f3.trans hdf) (Rep.of_wf hF hF')
  obtain ⟨J, J1, J2⟩ := Dop.apply_right hE op k2 (k3.trans hdf) (Rep.of_wf hF hF')
  refine ⟨f, f', G, H, I, J, f1, k1, G1, H1, I1, J1, (I2.eq_iff hE.symm (Rep.add hE.symm G2 H2)).mpr ?_,
    (J2.eq_iff hE.symm (Rep.sub hE.symm G2 H2)).mpr ?_⟩
  · rw [f4, Pi.add_apply]
  · rw [k4, n3, Pi.add_apply, Pi.neg_apply, sub_eq_add_neg]

/-- C42: `F op (d + e) = F op d + F op e` for operators on the left. -/
theorem C42_add_left (hf : CommutingDerivatives (Fields.ofMetric (fun i => D i) g0 N conn))
    (op : ProdOp) {d e : Dop (Fin n) K n} {F : Mv K n}
    (hd : d.WF (Fields.ofMetric (fun i => D i) g0 N conn))
    (he : e.WF (Fields.ofMetric (fun i => D i) g0 N conn))
    (hF : F.WF (currentMetric N g0)) (hF' : F.isBladeRep = true)
    (hdf : d.cmpflg = true) (hef : e.cmpflg = true) :
    ∃ f f' G H I J, Dop.add (Fields.ofMetric (fun i => D i) g0 N conn) d e = some f ∧
      Dop.sub (Fields.ofMetric (fun i => D i) g0 N conn) d e = some f' ∧
      Dop.mvMul (Fields.ofMetric (fun i => D i) g0 N conn) op F d = .inl G ∧
      Dop.mvMul (Fields.ofMetric (fun i => D i) g0 N conn) op F e = .inl H ∧
      Dop.mvMul (Fields.ofMetric (fun i => D i) g0 N conn) op F f = .inl I ∧
      Dop.mvMul (Fields.ofMetric (fun i => D i) g0 N conn) op F f' = .inl J ∧
      I.eq (currentMetric N g0) (G.add (currentMetric N g0) H) = true ∧
      J.eq (currentMetric N g0) (G.sub (currentMetric N g0) H) = true := by
  obtain ⟨Γ, hE⟩ := env_of hs hN h hf
  obtain ⟨f, f1, f2, f3, f4⟩ := Dop.add_spec hE hd he (hdf.trans hef.symm)
  obtain ⟨n1, n2, n3⟩ := Dop.neg_spec (D := D) (Γ := Γ) he
  obtain ⟨f', k1, k2, k3, k4⟩ := Dop.add_spec hE hd n1 (hdf.trans (n2.trans hef).symm)
  obtain ⟨G, G1, G2⟩ := Dop.apply_left hE op hd hdf (Rep.of_wf hF hF')
  obtain ⟨H, H1, H2⟩ := Dop.apply_left hE op he hef (Rep.of_wf hF hF')
  obtain ⟨I, I1, I2⟩ := Dop.apply_left hE op f2 (f3.trans hdf) (Rep.of_wf hF hF')
  obtain ⟨J, J1, J2⟩ := Dop.apply_left hE op k2 (k3.trans hdf) (Rep.of_wf hF hF')
  refine ⟨f, f', G, H, I, J, f1, k1, G1, H1, I1, J1, (I2.eq_iff hE.symm (Rep.add hE.symm G2 H2)).mpr ?_,
    (J2.eq_iff hE.symm (Rep.sub hE.symm G2 H2)).mpr ?_⟩
  · rw [f4, Pi.add_apply]
  · rw [k4, n3, Pi.add_apply, Pi.neg_apply, sub_eq_add_neg]

/-- C42: adding a multivector to an operator: `(d + A) op F = d op F + A op F`, on either side. -/
theorem C42_add_mv (hf : CommutingDerivatives (Fields.ofMetric (fun i => D i) g0 N conn))
    (op : ProdOp) {d : Dop (Fin n) K n} {A F : Mv K n}
    (hd : d.WF (Fields.ofMetric (fun i => D i) g0 N conn))
    (hA : A.WF (currentMetric N g0)) (hA' : A.isBladeRep = true)
    (hF : F.WF (currentMetric N g0)) (hF' : F.isBladeRep = true) (hdf : d.cmpflg = false) :
    ∃ f f' G H I, Dop.addMv (Fields.ofMetric (fun i => D i) g0 N conn) d A = some f ∧
      Dop.mvAdd (Fields.ofMetric (fun i => D i) g0 N conn) A d = some f' ∧
      d.mulMv (Fields.ofMetric (fun i => D i) g0 N conn) op F = .inl G ∧
      f.mulMv (Fields.ofMetric (fun i => D i) g0 N conn) op F = .inl H ∧
      f'.mulMv (Fields.ofMetric (fun i => D i) g0 N conn) op F = .inl I ∧
      H.eq (currentMetric N g0)
        (G.add (currentMetric N g0) (Mv.mulOp (currentMetric N g0) op A F)) = true ∧
      I.eq (currentMetric N g0)
        (G.add (currentMetric N g0) (Mv.mulOp (currentMetric N g0) op A F)) = true := by
  obtain ⟨Γ, hE⟩ := env_of hs hN h hf
  have rA := Rep.of_wf hA hA'
  have rF := Rep.of_wf hF hF'
  have ga : Dop.Good (Fields.ofMetric (fun i => D i) g0 N conn) ⟨[(A, [])], d.cmpflg⟩ :=
    twf_cons.mpr ⟨⟨⟨hA, hA'⟩, Pdop.wf_nil⟩, TWF.nil⟩
  have aa : Dop.actS (Fields.ofMetric (fun i => D i) g0 N conn) D Γ op ⟨[(A, [])], d.cmpflg⟩
      (F.val (currentMetric N g0)) = opS (currentMetric N g0) op (A.val (currentMetric N g0))
        (F.val (currentMetric N g0)) := by
    rw [Dop.actS, hdf]
    exact add_zero _
  obtain ⟨f, f1, f2, f3, f4⟩ := Dop.add_spec hE hd ga rfl
  obtain ⟨f', k1, k2, k3, k4⟩ := Dop.add_spec hE ga hd rfl
  obtain ⟨G, G1, G2⟩ := Dop.apply_right hE op hd hdf rF
  obtain ⟨H, H1, H2⟩ := Dop.apply_right hE op f2 (f3.trans hdf) rF
  obtain ⟨I, I1, I2⟩ := Dop.apply_right hE op k2 (k3.trans hdf) rF
  have r := Rep.add hE.symm G2 (mulOp_rep hE.symm op rA rF)
  refine ⟨f, f', G, H, I, f1, k1, G1, H1, I1, (H2.eq_iff hE.symm r).mpr ?_,
    (I2.eq_iff hE.symm r).mpr ?_⟩
  · exact (congrFun (f4 op) _).trans (congrArg (_ + ·) aa)
  · exact ((congrFun (k4 op) _).trans (add_comm _ _)).trans (congrArg (_ + ·) aa)

/-- C42: operators that compare equal have the same action. -/
theorem C42_eq_sound (hf : CommutingDerivatives (Fields.ofMetric (fun i => D i) g0 N conn))
    (op : ProdOp) {d e : Dop (Fin n) K n} {F : Mv K n}
    (hd : d.WF (Fields.ofMetric (fun i => D i) g0 N conn))
    (he : e.WF (Fields.ofMetric (fun i => D i) g0 N conn))
    (hF : F.WF (currentMetric N g0)) (hF' : F.isBladeRep = true)
    (hdf : d.cmpflg = false) (hef : e.cmpflg = false)
    (heq : d.eq (Fields.ofMetric (fun i => D i) g0 N conn) e = some true) :
    ∃ G H, d.mulMv (Fields.ofMetric (fun i => D i) g0 N conn) op F = .inl G ∧
      e.mulMv (Fields.ofMetric (fun i => D i) g0 N conn) op F = .inl H ∧
      G.eq (currentMetric N g0) H = true := by
  obtain ⟨f, f', G, H, I, J, -, h2, h3, h4, -, h6, -, h8⟩ :=
    C42_add hs hN h hf op hd he hF hF' hdf hef
  obtain ⟨Γ, hE⟩ := env_of hs hN h hf
  refine ⟨G, H, h3, h4, ?_⟩
  rw [Dop.eq, h2] at heq
  have h9 : f'.terms = [] := List.length_eq_zero_iff.mp (of_decide_eq_true (Option.some.inj heq))
  obtain ⟨G', G1, G2⟩ := Dop.apply_right hE op hd hdf (Rep.of_wf hF hF')
  obtain ⟨H', H1, H2⟩ := Dop.apply_right hE op he hef (Rep.of_wf hF hF')
  have eG : G' = G := Sum.inl.inj (G1.symm.trans h3)
  have eH : H' = H := Sum.inl.inj (H1.symm.trans h4)
  subst eG eH
  have hf' : f'.cmpflg = false := by
    rw [Dop.sub, Dop.add] at h2
    split_ifs at h2 with hc
    exact (congrArg Dop.cmpflg (Option.some.inj h2)).symm.trans hdf
  rw [Dop.mulMv, if_pos hf', h9] at h6
  have e1 : J = Mv.scalarMv 0 := (Sum.inl.inj h6).symm
  rw [e1] at h8
  have h10 := ((Rep.scalarMv 0).eq_iff hE.symm (Rep.sub hE.symm G2 H2)).mp h8
  rw [map_zero] at h10
  exact (G2.eq_iff hE.symm H2).mpr (sub_eq_zero.mp h10.symm)

omit hs hN h

/-- C42: incompatible operators (one on the left, one on the right) cannot be added, multiplied or
compared. -/
theorem C42_incompatible_raises {V : Type*} [DecidableEq V] (X : Fields V K n) (op : ProdOp)
    {d e : Dop V K n} (hc : d.cmpflg ≠ e.cmpflg) :
    Dop.add X d e = none ∧ Dop.sub X d e = none ∧ Dop.mul X op d e = none ∧ Dop.eq X d e = none := by
  have h1 : Dop.add X d e = none := if_neg hc
  have h2 : Dop.sub X d e = none := if_neg hc
  exact ⟨h1, h2, if_neg hc, by rw [Dop.eq, h2]; rfl⟩

end algebra

/-! ### Concrete cases -/

namespace Ex

/-- Derivatives commute on the surface `diag(1, f²)` if `f'' = 0`. -/
theorem warp_commuting {f : Fun 2} (hf : f ≠ 0) (h1 : partialD 1 f = 0) (h0 : partialD 0 f ≠ 0)
    (h2 : partialD 0 (partialD 0 f) = 0) :
    ∃ conn, connOf (fun i => partialD i) (warp f) none = some conn ∧
      CommutingDerivatives (Fields.ofMetric (fun i => partialD i) (warp f) none conn) := by
  obtain ⟨conn, hc, hΓ⟩ := warp_conn hf h1 h0
  refine ⟨conn, hc, C42_commuting_of_basis (warp_symm f) (by simp) hc partialD_comm fun i j k => ?_⟩
  refine (derivs_comm_iff (X := Fields.ofMetric (fun i => partialD i) (warp f) none conn) (warp_symm f)
    (fun _ => rfl) (fun _ => rfl) hΓ (basis_rep k) i j).mpr ?_
  have key : ∀ v, Spec.dvec (partialD 0) (warpΓ f 0) (Spec.dvec (partialD 1) (warpΓ f 1) v) =
      Spec.dvec (partialD 1) (warpΓ f 1) (Spec.dvec (partialD 0) (warpΓ f 0) v) := by
    intro v
    have := warp_curvature hf h1 v
    rw [h2, mul_zero, neg_zero, zero_mul, zero_div, zero_mul] at this
    rw [← sub_eq_zero, this]
    funext j; fin_cases j <;> rfl
  have e : ∀ i j : Fin 2, Spec.dvec (partialD i) (warpΓ f i) (Spec.dvec (partialD j) (warpΓ f j)
      (Pi.single k 1)) = Spec.dvec (partialD j) (warpΓ f j) (Spec.dvec (partialD i) (warpΓ f i)
        (Pi.single k 1)) := by
    intro i j
    fin_cases i <;> fin_cases j
    · rfl
    · exact key _
    · exact (key _).symm
    · rfl
  have e2 : ∀ i j : Fin 2, Spec.deriv (warp f) (partialD i) (warpΓ f i)
      (Spec.deriv (warp f) (partialD j) (warpΓ f j) (Spec.vec (warp f) (Pi.single k 1))) =
      Spec.vec (warp f) (Spec.dvec (partialD i) (warpΓ f i) (Spec.dvec (partialD j) (warpΓ f j)
        (Pi.single k 1))) := by
    intro i j; rw [Spec.deriv_vec, Spec.deriv_vec]
  exact (e2 i j).trans ((congrArg _ (e i j)).trans (e2 j i).symm)

/-- The hypotheses are met by polar coordinates of the plane, where the basis vectors are not
constant. -/
theorem polar_commuting : ∃ conn, connOf (fun i => partialD i) polar none = some conn ∧
    CommutingDerivatives (Fields.ofMetric (fun i => partialD i) polar none conn) := by
  refine warp_commuting (coord_ne_zero 0) ?_ ?_ ?_
  · rw [partialD_coord, if_neg (by simp)]
  · rw [partialD_coord, if_pos rfl]; exact one_ne_zero
  · rw [partialD_coord, if_pos rfl, Derivation.map_one_eq_zero]

/-- `e_θ ∂_r + r² ∂_θ ∂_r`, a well-formed operator. -/
noncomputable def dpol (b : Bool) : Dop (Fin 2) (Fun 2) 2 :=
  ⟨[(Mv.ofExpr (bladeE [1]), [(0, 1)]), (Mv.scalarMv (coord 0 ^ 2), [(0, 1), (1, 1)])], b⟩

theorem dpol_wf (X : Fields (Fin 2) (Fun 2) 2) (b : Bool) : (dpol b).WF X := by
  intro t ht
  simp only [dpol, List.mem_cons, List.not_mem_nil, or_false] at ht
  rcases ht with rfl | rfl
  · exact ⟨(basis_rep 1).good, by simp [Pdop.WF]⟩
  · exact ⟨(Rep.scalarMv _).good, by simp [Pdop.WF]⟩

/-- All hypotheses of `C42_mul` are met by a composition with non-constant coefficients. -/
example : ∃ conn f G H I, connOf (fun i => partialD i) polar none = some conn ∧
    Dop.mul (Fields.ofMetric (fun i => partialD i) polar none conn) .geo (dpol false) (dpol false) =
      some f ∧
    (dpol false).mulMv (Fields.ofMetric (fun i => partialD i) polar none conn) .geo
      (Mv.vector ![coord 0, coord 1]) = .inl G ∧
    (dpol false).mulMv (Fields.ofMetric (fun i => partialD i) polar none conn) .geo G = .inl H ∧
    f.mulMv (Fields.ofMetric (fun i => partialD i) polar none conn) .geo
      (Mv.vector ![coord 0, coord 1]) = .inl I ∧ I.eq polar H = true := by
  obtain ⟨conn, h1, h2⟩ := polar_commuting
  obtain ⟨f, G, H, I, k1, -, -, k2, k3, k4, k5⟩ := C42_mul polar_symm (by simp) h1 h2 (Or.inl rfl)
    (dpol_wf _ _) (dpol_wf _ _) (Rep.vector (g := polar) ![coord 0, coord 1]).wf
    (Rep.vector (g := polar) ![coord 0, coord 1]).flag rfl rfl
  exact ⟨conn, f, G, H, I, h1, k1, k2, k3, k4, k5⟩

/-- Constant metrics: the hypotheses of `C42_commuting_of_constant` are met in every dimension. -/
example (n : ℕ) (g : Matrix (Fin n) (Fin n) ℚ) (hs : g.IsSymm) :
    CommutingDerivatives (Fields.ofMetric (fun i => partialD i)
      (Matrix.of fun i j => poly (MvPolynomial.C (g i j)) : Matrix (Fin n) (Fin n) (Fun n)) none none) := by
  refine (C42_commuting_of_constant (D := partialD) ?_ (by simp) (fun i j k => ?_) partialD_comm).2
  · ext i j; rw [Matrix.transpose_apply, Matrix.of_apply, Matrix.of_apply, hs.apply]
  · rw [Matrix.of_apply, partialD_poly]; simp

end Ex

/-! ### Curved spaces -/

section curved
variable {X : Fields (Fin n) K n} {D : Fin n → Derivation ℤ K K}
  {Γ : Fin n → Matrix (Fin n) (Fin n) K}

theorem single_apply (hs : X.g.IsSymm) (hD : ∀ i, X.D i = D i) (hi : ∀ i, X.idx i = some i)
    (hc : IsConnection X.g X.conn Γ) {c : Mv K n} (h1 : Rep X.g c 1) (p : Pdop (Fin n)) {F : Mv K n}
    {x : Spec.Cl X.g} (hF : Rep X.g F x) :
    ∃ G, Dop.mulMv X .geo ⟨[(c, p)], false⟩ F = .inl G ∧
      Rep X.g G (p.call (basicDiff (grd X D Γ)) x) := by
  refine ⟨_, rfl, ?_⟩
  refine (Rep.add hs (Rep.scalarMv 0) (Rep.mul hs h1 (callMv_rep hs hD hi hc p hF))).congr ?_
  rw [map_zero, zero_add, one_mul]

theorem vec_inj (g : Matrix (Fin n) (Fin n) K) {v w : Fin n → K} (h : Spec.vec g v = Spec.vec g w) :
    v = w := by
  have h2 := congrArg (Spec.toExt g) h
  rw [Spec.toExt_vec, Spec.toExt_vec, ExteriorAlgebra.ι_inj] at h2
  exact h2

/-- The composition of a derivative and an operator with one term. -/
theorem single_mul (hs : X.g.IsSymm) (hD : ∀ i, X.D i = D i) (hi : ∀ i, X.idx i = some i)
    (hc : IsConnection X.g X.conn Γ) (i : Fin n) {p : Pdop (Fin n)} (hp : p.WF) :
    ∃ c, Rep X.g c 1 ∧ Dop.mul X .geo ⟨[(Mv.scalarMv 1, [(i, 1)])], false⟩
      ⟨[(Mv.scalarMv 1, p)], false⟩ = some ⟨[(c, p.diff i 1)], false⟩ := by
  have one : Rep X.g (Mv.scalarMv 1) 1 := (Rep.scalarMv 1).congr (map_one _)
  have h1 : Mv.eqZero X.g ((Mv.scalarMv 1).diffN X i 1) = true := by
    refine (eqZero_iff hs (diffN_rep hs hD hi hc i 1 one)).mpr ?_
    exact Spec.deriv_one _ _
  have z : ∀ {c : Mv K n}, Rep X.g c 1 → Mv.eqZero X.g c = false := by
    intro c h
    rw [← Bool.not_eq_true, eqZero_iff hs h]
    intro h0
    exact one_ne_zero (algebraMap_inj X.g ((map_one _).trans (h0.trans (map_zero _).symm)))
  have r2 : Rep X.g ((Mv.scalarMv 1).mul X.g (Mv.scalarMv 1)) 1 := (Rep.mul hs one one).congr (one_mul 1)
  have r3 : Rep X.g (Mv.zero.add X.g ((Mv.scalarMv 1).mul X.g (Mv.scalarMv 1))) 1 :=
    (Rep.add hs Rep.zero r2).congr (zero_add 1)
  refine ⟨_, r3, ?_⟩
  have e1 : Dop.diff X i 1 ⟨[(Mv.scalarMv 1, p)], false⟩ = ⟨[(Mv.scalarMv 1, p.diff i 1)], false⟩ := by
    simp only [Dop.diff, diffTerms, Function.iterate_one, diffTermsOnce, List.flatMap_cons,
      List.flatMap_nil, h1, if_true, List.nil_append, List.append_nil, consolidateTerms, List.foldl_cons,
      List.foldl_nil, z one, Bool.false_eq_true, if_false, accum]
  have e2 : Dop.mvMul X .geo (Mv.scalarMv 1) ⟨[(Mv.scalarMv 1, p.diff i 1)], false⟩ =
      .inr ⟨[((Mv.scalarMv 1).mul X.g (Mv.scalarMv 1), p.diff i 1)], false⟩ := by
    simp only [Dop.mvMul, if_true, Dop.consolidate, List.map_cons, List.map_nil, Mv.mulOp,
      consolidateTerms, List.foldl_cons, List.foldl_nil, z r2, Bool.false_eq_true, if_false, accum]
  have hself : (p.diff i 1).eqv (p.diff i 1) = true := by
    exact Pdop.eqv_refl (Pdop.diff_wf hp i 1)
  have e3 : Dop.add X ⟨[], false⟩ ⟨[((Mv.scalarMv 1).mul X.g (Mv.scalarMv 1), p.diff i 1)], false⟩ =
      some ⟨[(Mv.zero.add X.g ((Mv.scalarMv 1).mul X.g (Mv.scalarMv 1)), p.diff i 1)], false⟩ := by
    simp only [Dop.add, if_true, mergeTerms, List.map_nil, List.map_cons, List.any_nil, Bool.not_false,
      List.nil_append, List.foldl_nil, List.foldl_cons, accum, hself, List.filter_cons,
      List.filter_nil, z r3]
  have e4 : Dop.consolidate X ⟨[(Mv.zero.add X.g ((Mv.scalarMv 1).mul X.g (Mv.scalarMv 1)),
      p.diff i 1)], false⟩ = ⟨[(Mv.zero.add X.g ((Mv.scalarMv 1).mul X.g (Mv.scalarMv 1)),
      p.diff i 1)], false⟩ := by
    simp only [Dop.consolidate, consolidateTerms, List.foldl_cons, List.foldl_nil, z r3,
      Bool.false_eq_true, if_false, accum]
  have e5 : Dop.sum X ⟨[], false⟩ [.inr ⟨[((Mv.scalarMv 1).mul X.g (Mv.scalarMv 1), p.diff i 1)], false⟩] =
      some ⟨[(Mv.zero.add X.g ((Mv.scalarMv 1).mul X.g (Mv.scalarMv 1)), p.diff i 1)], false⟩ := by
    rw [Dop.sum, List.foldlM_cons]
    simp only [e3]
    rfl
  rw [Dop.mul, if_pos rfl, if_pos rfl]
  have e6 : Pdop.call (Dop.diff X) [(i, 1)] ⟨[(Mv.scalarMv 1, p)], false⟩ =
      Dop.diff X i 1 ⟨[(Mv.scalarMv 1, p)], false⟩ := rfl
  simp only [List.map_cons, List.map_nil, e6, e1, e2, e5, Option.map_some, e4]

end curved

/-- C42 does not hold in curved spaces: on the surface with metric tensor `diag(1, x⁴)`, composing
`∂_x` with `d = ∂_y ∂_x` gives an operator which differentiates twice by `x` first, so that
`(∂_x * d) * F ≠ ∂_x * (d * F)` for the vector field `F = x e_x`.  Moreover `∂_y ∂_x` and `∂_x ∂_y`
compare equal although their actions on `e_x` differ. -/
theorem C42_curved_counterexample :
    ∃ conn, connOf (fun i => Ex.partialD i) (Ex.warp (Ex.coord 0 ^ 2)) none = some conn ∧
    (∃ f G H I, Dop.mul (Fields.ofMetric (fun i => Ex.partialD i) (Ex.warp (Ex.coord 0 ^ 2)) none conn)
        .geo ⟨[(Mv.scalarMv 1, [(0, 1)])], false⟩ ⟨[(Mv.scalarMv 1, [(0, 1), (1, 1)])], false⟩ = some f ∧
      Dop.mulMv (Fields.ofMetric (fun i => Ex.partialD i) (Ex.warp (Ex.coord 0 ^ 2)) none conn) .geo
        ⟨[(Mv.scalarMv 1, [(0, 1), (1, 1)])], false⟩ (Mv.vector ![Ex.coord 0, 0]) = .inl G ∧
      Dop.mulMv (Fields.ofMetric (fun i => Ex.partialD i) (Ex.warp (Ex.coord 0 ^ 2)) none conn) .geo
        ⟨[(Mv.scalarMv 1, [(0, 1)])], false⟩ G = .inl H ∧
      f.mulMv (Fields.ofMetric (fun i => Ex.partialD i) (Ex.warp (Ex.coord 0 ^ 2)) none conn) .geo
        (Mv.vector ![Ex.coord 0, 0]) = .inl I ∧
      I.eq (Ex.warp (Ex.coord 0 ^ 2)) H = false) ∧
    (∃ G H, Dop.eq (Fields.ofMetric (fun i => Ex.partialD i) (Ex.warp (Ex.coord 0 ^ 2)) none conn)
        ⟨[(Mv.scalarMv 1, [(0, 1), (1, 1)])], false⟩ ⟨[(Mv.scalarMv 1, [(1, 1), (0, 1)])], false⟩ =
          some true ∧
      Dop.mulMv (Fields.ofMetric (fun i => Ex.partialD i) (Ex.warp (Ex.coord 0 ^ 2)) none conn) .geo
        ⟨[(Mv.scalarMv 1, [(0, 1), (1, 1)])], false⟩ (Mv.vector ![1, 0]) = .inl G ∧
      Dop.mulMv (Fields.ofMetric (fun i => Ex.partialD i) (Ex.warp (Ex.coord 0 ^ 2)) none conn) .geo
        ⟨[(Mv.scalarMv 1, [(1, 1), (0, 1)])], false⟩ (Mv.vector ![1, 0]) = .inl H ∧
      G.eq (Ex.warp (Ex.coord 0 ^ 2)) H = false) := by
  have c0 := Ex.coord_ne_zero (n := 2) 0
  set f : Ex.Fun 2 := Ex.coord 0 ^ 2 with hfdef
  have hf : f ≠ 0 := pow_ne_zero 2 c0
  have d : ∀ k : Fin 2, Ex.partialD k f = 2 * Ex.coord 0 * (if k = 0 then 1 else 0) := by
    intro k
    rw [hfdef, sq, Derivation.leibniz, Ex.partialD_coord]
    simp only [smul_eq_mul]; ring
  have h1 : Ex.partialD 1 f = 0 := by rw [d, if_neg (by simp), mul_zero]
  have h0 : Ex.partialD 0 f = 2 * Ex.coord 0 := by rw [d, if_pos rfl, mul_one]
  have h0' : Ex.partialD 0 f ≠ 0 := by rw [h0]; exact mul_ne_zero two_ne_zero c0
  have h00 : Ex.partialD 0 (Ex.partialD 0 f) = 2 := by
    rw [h0, two_mul, map_add, Ex.partialD_coord, if_pos rfl]; norm_num
  obtain ⟨conn, hc, hΓ⟩ := Ex.warp_conn hf h1 h0'
  have hs := Ex.warp_symm f
  have curv : ∀ w : Spec.Cl (Ex.warp f), w = Spec.vec (Ex.warp f) ![1, 0] →
      Spec.deriv (Ex.warp f) (Ex.partialD 0) (Ex.warpΓ f 0)
        (Spec.deriv (Ex.warp f) (Ex.partialD 1) (Ex.warpΓ f 1) w) ≠
      Spec.deriv (Ex.warp f) (Ex.partialD 1) (Ex.warpΓ f 1)
        (Spec.deriv (Ex.warp f) (Ex.partialD 0) (Ex.warpΓ f 0) w) := by
    rintro w rfl h
    rw [Spec.deriv_vec, Spec.deriv_vec, Spec.deriv_vec, Spec.deriv_vec] at h
    have h2 := Ex.warp_curvature hf h1 ![1, 0]
    rw [vec_inj _ h, sub_self, h00] at h2
    have h3 := congrFun h2 1
    simp at h3
    exact div_ne_zero two_ne_zero hf h3.symm
  refine ⟨conn, hc, ?_, ?_⟩
  · obtain ⟨c, r1, e1⟩ := single_mul (X := Fields.ofMetric (fun i => Ex.partialD i) (Ex.warp f) none conn)
      (D := Ex.partialD) hs (fun _ => rfl) (fun _ => rfl) hΓ 0 (p := [(0, 1), (1, 1)]) (by simp [Pdop.WF])
    have one : Rep (Ex.warp f) (Mv.scalarMv 1) 1 := (Rep.scalarMv 1).congr (map_one _)
    have rF := Rep.vector (g := Ex.warp f) ![Ex.coord 0, 0]
    obtain ⟨G, g1, g2⟩ := single_apply (X := Fields.ofMetric (fun i => Ex.partialD i) (Ex.warp f) none conn)
      (D := Ex.partialD) hs (fun _ => rfl) (fun _ => rfl) hΓ one [(0, 1), (1, 1)] rF
    obtain ⟨H, k1, k2⟩ := single_apply (X := Fields.ofMetric (fun i => Ex.partialD i) (Ex.warp f) none conn)
      (D := Ex.partialD) hs (fun _ => rfl) (fun _ => rfl) hΓ one [(0, 1)] g2
    obtain ⟨I, m1, m2⟩ := single_apply (X := Fields.ofMetric (fun i => Ex.partialD i) (Ex.warp f) none conn)
      (D := Ex.partialD) hs (fun _ => rfl) (fun _ => rfl) hΓ r1 (Pdop.diff 0 1 [(0, 1), (1, 1)]) rF
    refine ⟨_, G, H, I, e1, g1, k1, m1, ?_⟩
    rw [← Bool.not_eq_true]
    intro h
    have h2 := (m2.eq_iff hs k2).mp h
    refine curv _ ?_ h2.symm
    refine (Spec.deriv_vec _ _ _).trans (congrArg _ ?_)
    funext j
    fin_cases j
    · simp [Spec.dvec, Ex.warpΓ, Ex.partialD_coord]
    · simp [Spec.dvec, Ex.warpΓ]
  · have one : Rep (Ex.warp f) (Mv.scalarMv 1) 1 := (Rep.scalarMv 1).congr (map_one _)
    have rF := Rep.vector (g := Ex.warp f) ![1, 0]
    obtain ⟨G, g1, g2⟩ := single_apply (X := Fields.ofMetric (fun i => Ex.partialD i) (Ex.warp f) none conn)
      (D := Ex.partialD) hs (fun _ => rfl) (fun _ => rfl) hΓ one [(0, 1), (1, 1)] rF
    obtain ⟨H, k1, k2⟩ := single_apply (X := Fields.ofMetric (fun i => Ex.partialD i) (Ex.warp f) none conn)
      (D := Ex.partialD) hs (fun _ => rfl) (fun _ => rfl) hΓ one [(1, 1), (0, 1)] rF
    refine ⟨G, H, ?_, g1, k1, ?_⟩
    · have z : Mv.eqZero (Ex.warp f) (Mv.add (Ex.warp f) (Mv.add (Ex.warp f) Mv.zero (Mv.scalarMv 1))
          (Mv.scalarMv 1).neg) = true := by
        refine (eqZero_iff (X := Fields.ofMetric (fun i => Ex.partialD i) (Ex.warp f) none conn) hs
          (Rep.add hs (Rep.add hs Rep.zero one) one.neg)).mpr ?_
        exact (congrArg (fun z : Spec.Cl (Ex.warp f) => z + -1) (zero_add 1)).trans (add_neg_cancel 1)
      have q1 : Pdop.eqv (V := Fin 2) [(0, 1), (1, 1)] [(1, 1), (0, 1)] = true := by decide
      have q2 : Pdop.eqv (V := Fin 2) [(0, 1), (1, 1)] [(0, 1), (1, 1)] = true := by decide
      simp [Dop.eq, Dop.sub, Dop.add, Dop.neg, mergeTerms, accum, q1, q2, z, Fields.ofMetric, currentMetric]
    · rw [← Bool.not_eq_true]
      intro h
      have h2 := (g2.eq_iff hs k2).mp h
      exact curv _ rfl h2.symm

end GA
