import Verif.Spec.Submanifold
import Verif.Proofs.Chart
import Verif.Proofs.Blade

/-! The derivative of a field on a submanifold is the tangential part of its derivative in the space. -/

set_option linter.unusedSectionVars false

namespace Spec
open GA CliffordAlgebra
variable {n m : ℕ} {L : Type*} [Field L] [DecidableEq L] [Invertible (2 : L)]
  {h : Matrix (Fin m) (Fin m) L} {g : Matrix (Fin n) (Fin n) L} (E : Emb h g)

theorem wedge_sub (x y z : Cl g) : wedge g x (y - z) = wedge g x y - wedge g x z := by
  rw [sub_eq_add_neg, ← neg_one_smul L z, wedge_add, wedge_smul, neg_one_smul, ← sub_eq_add_neg]

theorem sub_wedge (x y z : Cl g) : wedge g (x - y) z = wedge g x z - wedge g y z := by
  rw [sub_eq_add_neg, ← neg_one_smul L y, add_wedge, smul_wedge, neg_one_smul, ← sub_eq_add_neg]

/-- `v` is orthogonal to all vectors of the image. -/
def Normal (v : Fin n → L) : Prop := ∀ w, ip g v (E.lin w) = 0

theorem con_normal {v : Fin n → L} (hv : Normal E v) (z : Cl h) : con g v (E.hom z) = 0 := by
  induction z using blade_induction h with
  | h0 => simp
  | hadd x y hx hy => rw [map_add, map_add, hx, hy, add_zero]
  | hsm c l _ =>
    rw [map_smul, map_smul, blade_eq_wedgeL]
    generalize l.map _ = V
    have : con g v (E.hom (wedgeL h V)) = 0 := by
      induction V with
      | nil => rw [wedgeL_nil, map_one]; exact con_homogeneous_zero v (homogeneous_zero_iff.mpr ⟨1, (map_one _).symm⟩)
      | cons w V ih => rw [wedgeL_cons, E.wedge, E.vec, con_wedge_vec, hv, ih, wedge_zero, zero_smul, sub_zero]
    rw [this, smul_zero]

/-- Sums of `v ∧ y` with `v` orthogonal to the image and `y` in the image. -/
inductive Off : Cl g → Prop
  | zero : Off 0
  | add {x y} : Off x → Off y → Off (x + y)
  | smul {x} (c : L) : Off x → Off (c • x)
  | wedge {v : Fin n → L} (hv : Normal E v) (y : Cl h) : Off (wedge g (vec g v) (E.hom y))

variable {E}

theorem Off.lc {x : Cl g} (hx : Off E x) (z : Cl h) : leftContraction g x (E.hom z) = 0 := by
  induction hx with
  | zero => exact lc_zero_left _
  | add _ _ h1 h2 => rw [lc_add_left, h1, h2, add_zero]
  | smul c _ h1 => rw [lc_smul_left, h1, smul_zero]
  | wedge hv y =>
    rw [lc_wedge_vec, leftContraction, ← E.gradedProduct]
    exact con_normal E hv _

theorem Off.wedge_vec {x : Cl g} (hx : Off E x) (w : Fin m → L) :
    Off E (Spec.wedge g (vec g (E.lin w)) x) := by
  induction hx with
  | zero => rw [wedge_zero]; exact .zero
  | add _ _ h1 h2 => rw [wedge_add]; exact h1.add h2
  | smul c _ h1 => rw [wedge_smul]; exact h1.smul c
  | wedge hv y =>
    rw [wedge_vec_swap, ← E.vec, ← E.wedge, ← neg_one_smul L]
    exact (Off.wedge hv _).smul _

theorem deriv_off {D : Derivation ℤ L L} {Γ : Matrix (Fin m) (Fin m) L} {Δ : Matrix (Fin n) (Fin n) L}
    (hv : ∀ v, Normal E (dvec D Δ (E.lin v) - E.lin (dvec D Γ v))) (x : Cl h) :
    Off E (deriv g D Δ (E.hom x) - E.hom (deriv h D Γ x)) := by
  induction x using blade_induction h with
  | h0 => simp only [map_zero, deriv_zero, sub_zero]; exact .zero
  | hadd x y hx hy =>
    simp only [map_add, deriv_add]
    have := hx.add hy
    convert this using 1
    abel
  | hsm c l _ =>
    simp only [map_smul, deriv_smul, map_add, add_sub_add_left_eq_sub, ← smul_sub]
    refine Off.smul c ?_
    rw [blade_eq_wedgeL]
    generalize l.map _ = V
    induction V with
    | nil => rw [wedgeL_nil, map_one, deriv_one, deriv_one, map_zero, sub_zero]; exact .zero
    | cons v V ih =>
      rw [wedgeL_cons, E.wedge, deriv_wedge, deriv_wedge, map_add, E.wedge, E.wedge, E.vec, deriv_vec,
        deriv_vec, E.vec]
      have h1 : Off E _ := (Off.wedge (hv v) (wedgeL h V)).add (ih.wedge_vec v)
      convert h1 using 1
      rw [map_sub_vec, wedge_sub, sub_wedge]
      abel

theorem dvec_normal {D : Derivation ℤ L L} {Γ : Matrix (Fin m) (Fin m) L} {Δ : Matrix (Fin n) (Fin n) L}
    {s : Fin m → L} (hs : ∀ i, s i ≠ 0)
    (hv : ∀ k, Normal E (dvec D Δ (E.lin (Pi.single k (s k))) - E.lin (dvec D Γ (Pi.single k (s k)))))
    (v : Fin m → L) : Normal E (dvec D Δ (E.lin v) - E.lin (dvec D Γ v)) := by
  have e : v = ∑ k, (v k * (s k)⁻¹) • (Pi.single k (s k) : Fin m → L) := by
    funext j
    simp only [Finset.sum_apply, Pi.smul_apply, smul_eq_mul]
    rw [Finset.sum_eq_single j]
    · rw [Pi.single_eq_same, mul_assoc, inv_mul_cancel₀ (hs j), mul_one]
    · intro k _ hk; rw [Pi.single_eq_of_ne (Ne.symm hk), mul_zero]
    · simp
  intro w
  have e2 : dvec D Δ (E.lin v) - E.lin (dvec D Γ v) = ∑ k, (v k * (s k)⁻¹) •
      (dvec D Δ (E.lin (Pi.single k (s k))) - E.lin (dvec D Γ (Pi.single k (s k)))) := by
    conv_lhs => rw [e]
    rw [dvec_sum, map_sum, map_sum, dvec_sum, ← Finset.sum_sub_distrib]
    refine Finset.sum_congr rfl fun k _ => ?_
    rw [dvec_smul, map_add, map_smul, map_smul, map_smul, dvec_smul, smul_sub]
    abel
  rw [e2, ip_comm, ip, map_sum]
  refine Finset.sum_eq_zero fun k _ => ?_
  rw [map_smul, ← ip, ip_comm, hv, smul_zero]

theorem normal_of {s : Fin m → L} (hs : ∀ i, s i ≠ 0) {v : Fin n → L}
    (hv : ∀ l, ip g v (E.lin (Pi.single l (s l))) = 0) : Normal E v := by
  intro w
  have e : w = ∑ l, (w l * (s l)⁻¹) • (Pi.single l (s l) : Fin m → L) := by
    funext i
    simp only [Finset.sum_apply, Pi.smul_apply, smul_eq_mul]
    rw [Finset.sum_eq_single i]
    · rw [Pi.single_eq_same, mul_assoc, inv_mul_cancel₀ (hs i), mul_one]
    · intro k _ hk; rw [Pi.single_eq_of_ne (Ne.symm hk), mul_zero]
    · simp
  rw [e, map_sum, ip, map_sum]
  exact Finset.sum_eq_zero fun l _ => by rw [map_smul, map_smul, ← ip, hv, smul_zero]

theorem ip_sub_left (v v' w : Fin n → L) : ip g (v - v') w = ip g v w - ip g v' w := by
  rw [ip_comm, ip, map_sub, ← ip, ← ip, ip_comm, ip_comm (g := g) w]

theorem off_vec {v : Fin n → L} (hv : Normal E v) : Off E (vec g v) := by
  have := Off.wedge hv (1 : Cl h)
  rwa [map_one, wedge_one] at this

/-- The Levi-Civita connection of the submanifold is the tangential part of the connection of the space. -/
theorem koszul_normal {D : Fin m → Derivation ℤ L L} {Γ : Fin m → Matrix (Fin m) (Fin m) L}
    {Δ : Fin m → Matrix (Fin n) (Fin n) L} {s : Fin m → L} {u : Fin m → Fin m → L}
    (H : Recip h D Γ s u) (hg : g.IsSymm) (hip : ∀ v w, ip g (E.lin v) (E.lin w) = ip h v w)
    (hc : ∀ i, Compatible g (D i) (Δ i))
    (ht : ∀ j k, dvec (D j) (Δ j) (E.lin (Pi.single k (s k))) =
      dvec (D k) (Δ k) (E.lin (Pi.single j (s j)))) (j k : Fin m) :
    Normal E (dvec (D j) (Δ j) (E.lin (Pi.single k (s k))) -
      E.lin (dvec (D j) (Γ j) (Pi.single k (s k)))) := by
  have key : ∀ j k l, ip g (dvec (D j) (Δ j) (E.lin (Pi.single k (s k)))) (E.lin (Pi.single l (s l))) =
      ip h (dvec (D j) (Γ j) (Pi.single k (s k))) (Pi.single l (s l)) := by
    have g1 : ∀ j k l, ip g (dvec (D j) (Δ j) (E.lin (Pi.single k (s k)))) (E.lin (Pi.single l (s l))) =
        ip g (dvec (D k) (Δ k) (E.lin (Pi.single j (s j)))) (E.lin (Pi.single l (s l))) := by
      intro j k l
      rw [ht]
    have g2 : ∀ j k l, D j (ip h (Pi.single k (s k)) (Pi.single l (s l))) =
        ip g (dvec (D j) (Δ j) (E.lin (Pi.single k (s k)))) (E.lin (Pi.single l (s l))) +
        ip g (dvec (D j) (Δ j) (E.lin (Pi.single l (s l)))) (E.lin (Pi.single k (s k))) := by
      intro j k l
      rw [← hip, ip_deriv hg (hc j), ip_comm (g := g) (E.lin (Pi.single k (s k)))]
    have w1 : ∀ j k l, ip h (dvec (D j) (Γ j) (Pi.single k (s k))) (Pi.single l (s l)) =
        ip h (dvec (D k) (Γ k) (Pi.single j (s j))) (Pi.single l (s l)) := by
      intro j k l
      rw [H.torsion]
    have w2 : ∀ j k l, D j (ip h (Pi.single k (s k)) (Pi.single l (s l))) =
        ip h (dvec (D j) (Γ j) (Pi.single k (s k))) (Pi.single l (s l)) +
          ip h (dvec (D j) (Γ j) (Pi.single l (s l))) (Pi.single k (s k)) := by
      intro j k l
      rw [ip_deriv H.symm (H.compat j), ip_comm (g := h) (Pi.single k (s k))]
    intro j k l
    have t2 : (2 : L) ≠ 0 := (isUnit_of_invertible (2 : L)).ne_zero
    apply mul_left_cancel₀ t2
    linear_combination -(g2 j k l + g2 k j l - g2 l j k - w2 j k l - w2 k j l + w2 l j k
      - g1 j k l + g1 j l k + g1 k l j + w1 j k l - w1 j l k - w1 k l j)
  refine normal_of H.ne fun l => ?_
  rw [ip_sub_left, key, hip, sub_self]

theorem mul_pseudo_eq_lc (x : Cl h) : x * pseudo h = leftContraction h x (pseudo h) := by
  induction x using blade_induction h with
  | h0 => rw [zero_mul, lc_zero_left]
  | hadd x y hx hy => rw [add_mul, hx, hy, lc_add_left]
  | hsm c l _ =>
    rw [smul_mul_assoc, lc_smul_left, blade_eq_wedgeL,
      (sub_wedgeL (g := h) (W := Set.univ) fun _ _ => trivial).mul_eq_lc fun v _ => wedge_pseudo v]

end Spec

namespace GA
open _root_.Spec (Emb Change Recip Off Normal)
variable {n m : ℕ} {K L : Type*} [Field K] [DecidableEq K] [Invertible (2 : K)]
  [Field L] [DecidableEq L] [Invertible (2 : L)]
  {h : Matrix (Fin m) (Fin m) L} {g : Matrix (Fin n) (Fin n) L}

theorem emb_ip' (E : Emb h g) (v w : Fin m → L) : Spec.ip g (E.lin v) (E.lin w) = Spec.ip h v w := by
  have e : E.hom (Spec.hestenesDot h (Spec.vec h v) (Spec.vec h w)) =
    Spec.hestenesDot g (E.hom (Spec.vec h v)) (E.hom (Spec.vec h w)) := E.gradedProduct _ _ _
  rw [E.vec, E.vec, Spec.hestenesDot_vec_ip, Spec.hestenesDot_vec_ip, AlgHom.commutes] at e
  exact (algebraMap_inj g e).symm

theorem recip_det {D : Fin m → Derivation ℤ L L} {Γ : Fin m → Matrix (Fin m) (Fin m) L} {s : Fin m → L}
    {u : Fin m → Fin m → L} (H : Recip h D Γ s u) : h.det ≠ 0 := by
  intro h0
  have hm : h * (Matrix.of fun k j => u j k) = Matrix.diagonal fun j => (s j)⁻¹ := by
    ext i j
    rw [Matrix.mul_apply, Matrix.diagonal_apply]
    have := H.recip i j
    rw [Spec.ip_single H.symm] at this
    refine this.trans ?_
    split_ifs with hij
    · rw [hij]
    · rfl
  have := congrArg Matrix.det hm
  rw [Matrix.det_mul, h0, zero_mul, Matrix.det_diagonal] at this
  exact Finset.prod_ne_zero_iff.mpr (fun i _ => inv_ne_zero (H.ne i)) this.symm

/-- The projection into the blade of the tangent space. -/
theorem project_emb (hs : g.IsSymm) (hh : h.IsSymm) (hd : h.det ≠ 0) {E : Emb h g} {Z B : Mv L n}
    {z : Spec.Cl g} {y : Spec.Cl h} (hZ : Rep g Z z) (hB : Rep g B (E.hom (Spec.pseudo h)))
    (ho : Off E (z - E.hom y)) : ∃ P, Z.projectInBlade g B = some P ∧ Rep g P (E.hom y) := by
  obtain ⟨c, hc0, hc⟩ : ∃ c : L, c ≠ 0 ∧ Spec.pseudo h * Spec.pseudo h = algebraMap L _ c :=
    ⟨_, mul_ne_zero (pow_ne_zero _ (by norm_num)) hd, Spec.pseudo_sq hh⟩
  obtain ⟨W, hW⟩ : ∃ W, E.hom (Spec.pseudo h) = Spec.wedgeL g W := ⟨_, by
    rw [Spec.pseudo_eq_ofFn, E.wedgeL]⟩
  have hc' : Spec.wedgeL g W * Spec.wedgeL g W = algebraMap L _ c := by
    rw [← hW, ← map_mul, hc, AlgHom.commutes]
  have hB' := hB
  rw [hW] at hB'
  have hq : B.qform g ≠ 0 := by
    have h1 := (hB'.rev hs).mul hs hB'
    rw [Spec.reverse_wedgeL, smul_mul_assoc, hc', Algebra.smul_def, ← map_mul] at h1
    have h2 : B.qform g = (-1) ^ (W.length * (W.length - 1) / 2) * c := by
      have := h1.scalar
      rw [grade_zero_algebraMap] at this
      exact algebraMap_inj g this
    rw [h2]
    exact mul_ne_zero (pow_ne_zero _ (by norm_num)) hc0
  obtain ⟨P, h1, h2⟩ := project_spec hs hZ.wf hZ.val hB' hq (inv_mul_cancel₀ hc0) hc'
  refine ⟨P, h1, h2.congr ?_⟩
  have e : Spec.leftContraction g z (Spec.wedgeL g W) = E.hom y * Spec.wedgeL g W := by
    rw [← hW, ← map_mul, Spec.mul_pseudo_eq_lc]
    have h3 : z = (z - E.hom y) + E.hom y := (sub_add_cancel _ _).symm
    rw [h3, Spec.lc_add_left, ho.lc, zero_add]
    exact (E.gradedProduct _ _ _).symm
  rw [e, mul_assoc, mul_smul_comm, hc', mul_smul_comm, ← Algebra.commutes, ← Algebra.smul_def, smul_smul,
    inv_mul_cancel₀ hc0, one_smul]

theorem exists_frame (hs : g.IsSymm) {f : Fin m → Fin n → L} (e : h = Spec.gramOf g f) :
    ∃ E : Emb h g, (∀ v, E.lin v = Spec.combLin f v) ∧
      (∀ {A : Mv L m} {x}, Rep h A x → Rep g (A.rewriteIn g fun i => Mv.vector (f i)) (E.hom x)) ∧
      Rep g (tangentBlade g fun i => Mv.vector (f i)) (E.hom (Spec.pseudo h)) := by
  subst e
  refine ⟨Spec.emb g f, fun _ => rfl, fun hA => rewrite_rep hs f hA, ?_⟩
  refine (frameBlade_rep hs f _).congr ?_
  rw [Spec.pseudo, (Spec.emb g f).blade]
  congr 2
  funext i
  exact (Spec.combLin_single f i).symm

/-- The meaning of a submanifold whose basis vectors have the components `f` in a space with a connection. -/
structure Surf (g : Matrix (Fin n) (Fin n) L) (T : Chart L m) (f : Fin m → Fin n → L)
    (Δ : Fin m → Matrix (Fin n) (Fin n) L) (E : Emb T.g g) (Γ : Fin m → Matrix (Fin m) (Fin m) L)
    (w : Fin m → Fin m → L) : Prop where
  recip : Recip T.g T.D Γ (scaleOf T.N) w
  conn : IsConnection T.g T.conn Γ
  len : T.grads.length = m
  vecs : ∀ j : Fin m, Rep T.g (T.grads.getD j Mv.zero) (Spec.vec T.g (w j))
  lin : ∀ v, E.lin v = Spec.combLin f v
  rewrite : ∀ {A : Mv L m} {x}, Rep T.g A x → Rep g (A.rewriteIn g fun i => Mv.vector (f i)) (E.hom x)
  blade : Rep g (tangentBlade g fun i => Mv.vector (f i)) (E.hom (Spec.pseudo T.g))
  deriv : ∀ j x, Off E (Spec.deriv g (T.D j) (Δ j) (E.hom x) - E.hom (Spec.deriv T.g (T.D j) (Γ j) x))

theorem lin_single {E : Emb h g} {f : Fin m → Fin n → L} (hl : ∀ v, E.lin v = Spec.combLin f v) (k : Fin m)
    (c : L) : E.lin (Pi.single k c) = c • f k := by
  rw [← Spec.combLin_single f k, ← map_smul, hl, ← Pi.single_smul, smul_eq_mul, mul_one]

theorem exists_surf (hs : g.IsSymm) {T : Chart L m} (hT : T.Made) {f : Fin m → Fin n → L}
    (e : T.g = Spec.gramOf g f) {Δ : Fin m → Matrix (Fin n) (Fin n) L}
    (hc : ∀ j, Spec.Compatible g (T.D j) (Δ j))
    (ht : ∀ j k, Spec.dvec (T.D j) (Δ j) (scaleOf T.N k • f k) =
      Spec.dvec (T.D k) (Δ k) (scaleOf T.N j • f j)) : ∃ E Γ w, Surf g T f Δ E Γ w := by
  obtain ⟨Γ, w, hr, -, -, h1, h2, h3⟩ := grad_env hT.symm hT.norms hT.ortho hT.conn hT.grads
  change Recip T.g T.D Γ (scaleOf T.N) w at hr
  obtain ⟨E, hl, hrw, hb⟩ := exists_frame hs e
  refine ⟨E, Γ, w, hr, h1, h2, h3, hl, hrw, hb, fun j x => ?_⟩
  refine Spec.deriv_off (Spec.dvec_normal hr.ne fun k => ?_) x
  refine Spec.koszul_normal hr hs (emb_ip' E) hc (fun j k => ?_) j k
  rw [lin_single hl, lin_single hl, ht]

theorem exists_flat {G : Matrix (Fin n) (Fin n) L} {X : Fin n → L} {T : Chart L m}
    (H : InFlatSpace G X T) (hT : T.Made) : ∃ E Γ w,
      Surf G T (fun j a => T.D j (X a) / scaleOf T.N j) 0 E Γ w := by
  have hne : ∀ i, scaleOf T.N i ≠ 0 := by
    obtain ⟨Γ, w, hr, -⟩ := grad_env hT.symm hT.norms hT.ortho hT.conn hT.grads
    exact hr.ne
  refine exists_surf H.symm hT ?_ (fun j a b => ?_) fun j k => ?_
  · ext j k
    rw [chart_g, H.metric, Spec.gramOf, Matrix.of_apply, div_eq_mul_inv, Finset.sum_mul]
    refine Finset.sum_congr rfl fun a _ => ?_
    rw [Finset.sum_mul]
    refine Finset.sum_congr rfl fun b _ => ?_
    field_simp
  · rw [H.const]; simp
  · have key : ∀ j k : Fin m, Spec.dvec (T.D j) ((0 : Fin m → Matrix (Fin n) (Fin n) L) j)
        (scaleOf T.N k • fun a => T.D k (X a) / scaleOf T.N k) = fun a => T.D j (T.D k (X a)) := by
      intro j k
      funext a
      have := hne k
      simp only [Spec.dvec, Pi.smul_apply, smul_eq_mul, Pi.zero_apply, Matrix.zero_apply, zero_mul,
        Finset.sum_const_zero, add_zero]
      rw [mul_div_cancel₀ _ (hne k)]
    rw [key, key]
    funext a
    rw [H.comm]

/-- A submanifold of a curved space. -/
theorem exists_space {φ : K →+* L} {X : Fin n → L} {S : Chart K n} {T : Chart L m} (H : InSpace φ X S T)
    (hS : S.Made) (hT : T.Made) : ∃ (Γ' : Fin n → Matrix (Fin n) (Fin n) K)
      (u : Fin n → Fin n → K) (E : _) (Γ : _) (w : _), Recip S.g S.D Γ' (scaleOf S.N) u ∧
      IsConnection S.g S.conn Γ' ∧ S.grads.length = n ∧
      (∀ j : Fin n, Rep S.g (S.grads.getD j Mv.zero) (Spec.vec S.g (u j))) ∧
      Surf (S.g.map φ) T (fun j a => φ (scaleOf S.N a) * T.D j (X a) / scaleOf T.N j)
        (fun j => Spec.pull φ Γ' fun i => T.D j (X i)) E Γ w := by
  obtain ⟨Γ', u, hr, -, -, h1, h2, h3⟩ := grad_env hS.symm hS.norms hS.ortho hS.conn hS.grads
  change Recip S.g S.D Γ' (scaleOf S.N) u at hr
  have hne : ∀ i, scaleOf T.N i ≠ 0 := by
    obtain ⟨Γ, w, hr, -⟩ := grad_env hT.symm hT.norms hT.ortho hT.conn hT.grads
    exact hr.ne
  have hch := fun j => H.chain j
  obtain ⟨E, Γ, w, hsurf⟩ := exists_surf (g := S.g.map φ)
    (f := fun j a => φ (scaleOf S.N a) * T.D j (X a) / scaleOf T.N j)
    (Δ := fun j => Spec.pull φ Γ' fun i => T.D j (X i)) (isSymm_map hr.symm) hT (by
      ext j k
      rw [chart_g, H.metric, Spec.gramOf, Matrix.of_apply, div_eq_mul_inv, Finset.sum_mul]
      refine Finset.sum_congr rfl fun a _ => ?_
      rw [Finset.sum_mul]
      refine Finset.sum_congr rfl fun b _ => ?_
      rw [Matrix.map_apply, chart_g, map_div₀, map_mul]
      have ha : φ (scaleOf S.N a) ≠ 0 := (map_ne_zero φ).mpr (hr.ne a)
      have hb : φ (scaleOf S.N b) ≠ 0 := (map_ne_zero φ).mpr (hr.ne b)
      have hj := hne j
      have hk := hne k
      field_simp) (fun j => Spec.pull_compatible (hch j) hr.compat) (by
      have htan : ∀ k, (scaleOf T.N k • fun a => φ (scaleOf S.N a) * T.D k (X a) / scaleOf T.N k) =
          ∑ a, T.D k (X a) • fun b => φ ((Pi.single a (scaleOf S.N a) : Fin n → K) b) := by
        intro k
        funext b
        rw [Finset.sum_apply, Finset.sum_eq_single b]
        · simp only [Pi.smul_apply, Pi.single_eq_same, smul_eq_mul]
          rw [mul_div_cancel₀ _ (hne k), mul_comm]
        · intro a _ ha
          rw [Pi.smul_apply, Pi.single_eq_of_ne (Ne.symm ha), map_zero, smul_zero]
        · simp
      have key : ∀ j k, Spec.dvec (T.D j) (Spec.pull φ Γ' fun i => T.D j (X i))
          (scaleOf T.N k • fun a => φ (scaleOf S.N a) * T.D k (X a) / scaleOf T.N k) =
          (∑ a, T.D j (T.D k (X a)) • fun b => φ ((Pi.single a (scaleOf S.N a) : Fin n → K) b)) +
          ∑ a, ∑ i, (T.D k (X a) * T.D j (X i)) •
            fun b => φ (Spec.dvec (S.D i) (Γ' i) (Pi.single a (scaleOf S.N a)) b) := by
        intro j k
        rw [htan, Spec.dvec_sum, ← Finset.sum_add_distrib]
        refine Finset.sum_congr rfl fun a _ => ?_
        rw [Spec.dvec_smul, Spec.pull_dvec (hch j), Finset.smul_sum]
        simp only [smul_smul]
      intro j k
      rw [key, key]
      congr 1
      · exact Finset.sum_congr rfl fun a _ => by rw [H.comm]
      · rw [Finset.sum_comm]
        refine Finset.sum_congr rfl fun a _ => Finset.sum_congr rfl fun i _ => ?_
        rw [hr.torsion, mul_comm])
  exact ⟨Γ', u, E, Γ, w, hr, h1, h2, h3, hsurf⟩

/-- The value of the gradient of a scalar. -/
theorem grad_scalar_sum {g : Matrix (Fin n) (Fin n) K} {D : Fin n → Derivation ℤ K K}
    {Γ : Fin n → Matrix (Fin n) (Fin n) K} {u : Fin n → Fin n → K} (f : K) :
    ∑ i, opS g .geo (Spec.vec g (u i)) (Spec.deriv g (D i) (Γ i) (algebraMap K _ f)) =
      Spec.vec g (∑ i, D i f • u i) := by
  rw [Spec.vec, map_sum]
  refine Finset.sum_congr rfl fun i _ => ?_
  rw [Spec.deriv_algebraMap, opS_geo, ← Algebra.commutes, ← Algebra.smul_def, map_smul]
  rfl

/-- Inner products of the gradient of a scalar with the tangent vectors. -/
theorem grad_scalar_ip {g : Matrix (Fin n) (Fin n) K} {D : Fin n → Derivation ℤ K K}
    {Γ : Fin n → Matrix (Fin n) (Fin n) K} {s : Fin n → K} {u : Fin n → Fin n → K} (H : Recip g D Γ s u)
    (f : K) (a : Fin n) : Spec.ip g (∑ i, D i f • u i) (Pi.single a (s a)) = D a f := by
  rw [Spec.ip_comm, ← H.single, Spec.ip, map_sum, Finset.sum_eq_single a]
  · rw [map_smul, ← Spec.ip, H.recip, if_pos rfl, smul_eq_mul]
    field_simp [H.ne a]
  · intro j _ hj
    rw [map_smul, ← Spec.ip, H.recip, if_neg (Ne.symm hj), smul_zero]
  · simp

theorem ip_map {φ : K →+* L} {g : Matrix (Fin n) (Fin n) K} (hs : g.IsSymm) (v w : Fin n → K) :
    Spec.ip (g.map φ) (fun b => φ (v b)) (fun b => φ (w b)) = φ (Spec.ip g v w) := by
  rw [Spec.ip_dot (isSymm_map hs), Spec.ip_dot hs]
  simp [dotProduct, Matrix.mulVec, map_sum, map_mul]

end GA
