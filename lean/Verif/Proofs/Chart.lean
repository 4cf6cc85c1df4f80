import Verif.Spec.Chart
import Verif.Proofs.Frame
import Verif.Proofs.Curl
import Verif.Props.C60
import Verif.Props.C42

/-! Covariant derivatives in two coordinate systems: the Levi-Civita connection does not depend on the
coordinates. -/

set_option linter.unusedSectionVars false

namespace Spec
open GA CliffordAlgebra
variable {n : ℕ} {L : Type*} [Field L] [DecidableEq L] [Invertible (2 : L)]

section dvec
variable (D : Derivation ℤ L L) (Γ : Matrix (Fin n) (Fin n) L)

theorem dvec_add (v w : Fin n → L) : dvec D Γ (v + w) = dvec D Γ v + dvec D Γ w := by
  rw [dvec_eq, dvec_eq, dvec_eq, Matrix.mulVec_add]
  funext j
  simp only [Pi.add_apply, map_add]
  ring

theorem dvec_zero : dvec D Γ 0 = 0 := by
  rw [dvec_eq, Matrix.mulVec_zero]
  funext j
  simp

theorem dvec_smul (c : L) (v : Fin n → L) : dvec D Γ (c • v) = D c • v + c • dvec D Γ v := by
  rw [dvec_eq, dvec_eq, Matrix.mulVec_smul]
  funext j
  simp only [Pi.add_apply, Pi.smul_apply, smul_eq_mul, Derivation.leibniz]
  ring

theorem dvec_sum {ι : Type*} (s : Finset ι) (f : ι → Fin n → L) :
    dvec D Γ (∑ i ∈ s, f i) = ∑ i ∈ s, dvec D Γ (f i) := by
  classical
  induction s using Finset.induction_on with
  | empty => simp [dvec_zero]
  | insert i s hi ih => rw [Finset.sum_insert hi, Finset.sum_insert hi, dvec_add, ih]

end dvec

section emb
variable {h g : Matrix (Fin n) (Fin n) L} (E : Emb h g)

/-- Derivatives that agree on vectors agree. -/
theorem emb_deriv {D : Derivation ℤ L L} {Γ Δ : Matrix (Fin n) (Fin n) L}
    (hv : ∀ v, E.lin (dvec D Γ v) = dvec D Δ (E.lin v)) (x : Cl h) :
    E.hom (deriv h D Γ x) = deriv g D Δ (E.hom x) := by
  induction x using blade_induction h with
  | h0 => simp [deriv_zero]
  | hadd x y hx hy => rw [deriv_add, map_add, hx, hy, map_add, deriv_add]
  | hsm c l _ =>
    rw [deriv_smul, map_add, map_smul, map_smul, map_smul, deriv_smul]
    congr 2
    rw [blade_eq_wedgeL]
    generalize l.map _ = V
    induction V with
    | nil => rw [wedgeL_nil, map_one, deriv_one, deriv_one, map_zero]
    | cons v V ih =>
      rw [deriv_wedgeL_cons, map_add, E.wedge, E.wedge, E.vec, E.vec, ih, hv, wedgeL_cons, E.wedge,
        E.vec, deriv_wedge, deriv_vec]

/-- It suffices that they agree on multiples of the basis vectors. -/
theorem emb_dvec {D : Derivation ℤ L L} {Γ Δ : Matrix (Fin n) (Fin n) L} {s : Fin n → L}
    (hs : ∀ i, s i ≠ 0)
    (hv : ∀ k, E.lin (dvec D Γ (Pi.single k (s k))) = dvec D Δ (E.lin (Pi.single k (s k))))
    (v : Fin n → L) : E.lin (dvec D Γ v) = dvec D Δ (E.lin v) := by
  have e : v = ∑ k, (v k * (s k)⁻¹) • (Pi.single k (s k) : Fin n → L) := by
    funext j
    simp only [Finset.sum_apply, Pi.smul_apply, smul_eq_mul]
    rw [Finset.sum_eq_single j]
    · rw [Pi.single_eq_same, mul_assoc, inv_mul_cancel₀ (hs j), mul_one]
    · intro k _ hk; rw [Pi.single_eq_of_ne (Ne.symm hk), mul_zero]
    · simp
  rw [e, dvec_sum, map_sum, map_sum, dvec_sum]
  refine Finset.sum_congr rfl fun k _ => ?_
  rw [dvec_smul, map_add, map_smul, map_smul, hv, map_smul, dvec_smul]

variable {D : Fin n → Derivation ℤ L L} {Γ Δ : Fin n → Matrix (Fin n) (Fin n) L} {s : Fin n → L}
  {u : Fin n → Fin n → L}

theorem Recip.ext (H : Recip h D Γ s u) {v w : Fin n → L}
    (e : ∀ l, ip h v (Pi.single l (s l)) = ip h w (Pi.single l (s l))) : v = w := by
  rw [H.expand v, H.expand w]
  refine Finset.sum_congr rfl fun k _ => ?_
  rw [H.single, H.single, ip_comm, e, ip_comm]

/-- The connection that is compatible with the metric and has no torsion is unique. -/
theorem koszul (H : Recip h D Γ s u) (hg : g.IsSymm)
    (hip : ∀ v w, ip g (E.lin v) (E.lin w) = ip h v w) (hsur : Function.Surjective E.lin)
    (hc : ∀ i, Compatible g (D i) (Δ i))
    (ht : ∀ j k, dvec (D j) (Δ j) (E.lin (Pi.single k (s k))) =
      dvec (D k) (Δ k) (E.lin (Pi.single j (s j)))) (j k : Fin n) :
    E.lin (dvec (D j) (Γ j) (Pi.single k (s k))) = dvec (D j) (Δ j) (E.lin (Pi.single k (s k))) := by
  choose v hv using fun j k => hsur (dvec (D j) (Δ j) (E.lin (Pi.single k (s k))))
  rw [← hv]
  congr 1
  have g1 : ∀ j k l, ip h (v j k) (Pi.single l (s l)) = ip h (v k j) (Pi.single l (s l)) := by
    intro j k l
    rw [← hip, ← hip, hv, hv, ht]
  have g2 : ∀ j k l, D j (ip h (Pi.single k (s k)) (Pi.single l (s l))) =
      ip h (v j k) (Pi.single l (s l)) + ip h (v j l) (Pi.single k (s k)) := by
    intro j k l
    rw [← hip, ip_deriv hg (hc j), ← hv, ← hv, hip, hip, ip_comm (g := h) (v j l)]
  have w1 : ∀ j k l, ip h (dvec (D j) (Γ j) (Pi.single k (s k))) (Pi.single l (s l)) =
      ip h (dvec (D k) (Γ k) (Pi.single j (s j))) (Pi.single l (s l)) := by
    intro j k l
    rw [H.torsion]
  have w2 : ∀ j k l, D j (ip h (Pi.single k (s k)) (Pi.single l (s l))) =
      ip h (dvec (D j) (Γ j) (Pi.single k (s k))) (Pi.single l (s l)) +
        ip h (dvec (D j) (Γ j) (Pi.single l (s l))) (Pi.single k (s k)) := by
    intro j k l
    rw [ip_deriv H.symm (H.compat j), ip_comm (g := h) (Pi.single k (s k))]
  refine H.ext fun l => ?_
  have t2 : (2 : L) ≠ 0 := (isUnit_of_invertible (2 : L)).ne_zero
  apply mul_left_cancel₀ t2
  linear_combination g2 j k l + g2 k j l - g2 l j k - w2 j k l - w2 k j l + w2 l j k
    - g1 j k l + g1 j l k + g1 k l j + w1 j k l - w1 j l k - w1 k l j

end emb

section pull
variable {K : Type*} [Field K] [Invertible (2 : K)] {φ : K →+* L}
  {k : Matrix (Fin n) (Fin n) K} {D : Fin n → Derivation ℤ K K} {Γ : Fin n → Matrix (Fin n) (Fin n) K}
  {E : Derivation ℤ L L} {J : Fin n → L}

/-- The connection along a combination of the coordinate directions. -/
def pull (φ : K →+* L) (Γ : Fin n → Matrix (Fin n) (Fin n) K) (J : Fin n → L) :
    Matrix (Fin n) (Fin n) L :=
  Matrix.of fun a b => ∑ i, J i * φ (Γ i a b)

variable (hch : ∀ f, E (φ f) = ∑ i, J i * φ (D i f))
include hch

theorem pull_dvec (v : Fin n → K) : dvec E (pull φ Γ J) (fun a => φ (v a)) =
    ∑ i, J i • fun a => φ (dvec (D i) (Γ i) v a) := by
  funext a
  simp only [dvec, pull, Matrix.of_apply, Finset.sum_apply, Pi.smul_apply, smul_eq_mul, hch, map_add,
    map_sum, map_mul, mul_add, Finset.sum_add_distrib, Finset.mul_sum, Finset.sum_mul]
  congr 1
  rw [Finset.sum_comm]
  exact Finset.sum_congr rfl fun i _ => Finset.sum_congr rfl fun b _ => by ring

theorem pull_compatible (hc : ∀ i, Compatible k (D i) (Γ i)) : Compatible (k.map φ) E (pull φ Γ J) := by
  intro a b
  simp only [Matrix.map_apply, hch, hc _ a b, pull, Matrix.of_apply, map_add, map_sum, map_mul, mul_add,
    Finset.sum_add_distrib, Finset.mul_sum, Finset.sum_mul]
  congr 1 <;>
  · rw [Finset.sum_comm]
    exact Finset.sum_congr rfl fun i _ => Finset.sum_congr rfl fun b _ => by ring

theorem pull_deriv (Ψ : Change φ k) (x : Cl k) :
    deriv (k.map φ) E (pull φ Γ J) (Ψ.hom x) = ∑ i, J i • Ψ.hom (deriv k (D i) (Γ i) x) := by
  induction x using blade_induction k with
  | h0 => simp [deriv_zero]
  | hadd x y hx hy =>
    simp only [map_add, deriv_add, hx, hy, smul_add, Finset.sum_add_distrib]
  | hsm c l _ =>
    have hb : deriv (k.map φ) E (pull φ Γ J) (Ψ.hom (blade k l)) =
        ∑ i, J i • Ψ.hom (deriv k (D i) (Γ i) (blade k l)) := by
      rw [blade_eq_wedgeL]
      generalize l.map _ = V
      induction V with
      | nil => simp [deriv_one]
      | cons v V ih =>
        simp only [wedgeL_cons, Ψ.wedge, deriv_wedge, ih, Ψ.vec, deriv_vec,
          pull_dvec hch, map_add, smul_add, Finset.sum_add_distrib]
        congr 1
        · rw [vec, map_sum, sum_wedge]
          exact Finset.sum_congr rfl fun i _ => by rw [map_smul, smul_wedge, vec]
        · rw [wedge_sum]
          exact Finset.sum_congr rfl fun i _ => by rw [wedge_smul]
    rw [Ψ.smul, deriv_smul, hb, hch, Finset.sum_smul, Finset.smul_sum, ← Finset.sum_add_distrib]
    refine Finset.sum_congr rfl fun i _ => ?_
    rw [deriv_smul, map_add, Ψ.smul, Ψ.smul, smul_add, smul_smul, smul_smul, smul_smul, mul_comm (φ c)]

end pull
end Spec

namespace GA
open _root_.Spec (Emb Change Recip)
variable {n : ℕ} {K L : Type*} [Field K] [DecidableEq K] [Invertible (2 : K)]
  [Field L] [DecidableEq L] [Invertible (2 : L)] {φ : K →+* L}

theorem Emb_opS {h g : Matrix (Fin n) (Fin n) L} (E : Emb h g) (op : ProdOp) (x y : Spec.Cl h) :
    E.hom (opS h op x y) = opS g op (E.hom x) (E.hom y) := by
  cases op
  · exact map_mul _ _ _
  · exact E.wedge x y
  all_goals exact E.gradedProduct _ x y

theorem Change_opS {g : Matrix (Fin n) (Fin n) K} (Ψ : Spec.Change φ g) (op : ProdOp) (x y : Spec.Cl g) :
    Ψ.hom (opS g op x y) = opS (g.map φ) op (Ψ.hom x) (Ψ.hom y) := by
  cases op
  · exact map_mul _ _ _
  · exact Ψ.wedge x y
  all_goals exact Ψ.gradedProduct _ x y

theorem opS_sum_right {g : Matrix (Fin n) (Fin n) K} (op : ProdOp) {ι : Type*} (s : Finset ι)
    (x : Spec.Cl g) (f : ι → Spec.Cl g) :
    opS g op x (∑ i ∈ s, f i) = ∑ i ∈ s, opS g op x (f i) := by
  classical
  induction s using Finset.induction_on with
  | empty => simp [opS_zero_right]
  | insert i s hi ih => rw [Finset.sum_insert hi, Finset.sum_insert hi, opS_add_right, ih]

/-- `(A op grad) op' F`. -/
theorem along_rep {X : Fields (Fin n) K n} {D : Fin n → Derivation ℤ K K}
    {Γ : Fin n → Matrix (Fin n) (Fin n) K} (hs : X.g.IsSymm) (hD : ∀ i, X.D i = D i)
    (hi : ∀ i, X.idx i = some i) (hc : IsConnection X.g X.conn Γ) (op op' : ProdOp) {l : List (Mv K n)}
    (hl : l.length = n) {u : Fin n → Spec.Cl X.g} (hu : ∀ j : Fin n, Rep X.g (l.getD j Mv.zero) (u j))
    {A F : Mv K n} {a x : Spec.Cl X.g} (hA : Rep X.g A a) (hF : Rep X.g F x) :
    ∃ d G, Dop.mvMul X op A (gradDop l false) = .inr d ∧ d.mulMv X op' F = .inl G ∧
      Rep X.g G (∑ i, opS X.g op' (opS X.g op a (u i)) (Spec.deriv X.g (D i) (Γ i) x)) := by
  have hrep : ∀ j : Fin n, Rep X.g (Mv.mulOp X.g op A (l.getD j Mv.zero)) (opS X.g op a (u j)) :=
    fun j => mulOp_rep hs op hA (hu j)
  have hder : ∀ i, Rep X.g (F.diffN X i 1) (Spec.deriv X.g (D i) (Γ i) x) := fun i =>
    diffN_rep (X := X) (D := D) (Γ := Γ) hs hD hi hc i 1 hF
  refine ⟨_, _, by rw [Dop.mvMul, if_pos (by rfl)], by rw [Dop.mulMv, if_pos (by rfl)], ?_⟩
  have hterms : ((gradDop l false).terms.map fun t => (Mv.mulOp X.g op A t.1, t.2)) =
      (List.finRange n).map fun i : Fin n =>
        (Mv.mulOp X.g op A (l.getD (i : ℕ) Mv.zero), Pdop.single i) := by
    simp only [gradDop]
    rw [zip_finRange_map l hl Mv.zero]
  have hdist : Distinct ((List.finRange n).map fun i : Fin n =>
        (Mv.mulOp X.g op A (l.getD (i : ℕ) Mv.zero), Pdop.single i)) := by
    rw [Distinct, List.pairwise_map]
    refine (List.nodup_finRange n).imp fun {i j} hij => ?_
    simp [Pdop.eqv, Dict.eqv, Pdop.single, Dict.get?, Ne.symm hij]
  rw [hterms, Dop.consolidate, consolidate_of_distinct hdist, List.filter_map]
  have hfold' := fun L : List (Fin n) => foldl_add_rep hs L
    (fun i => Mv.mulOp X.g op' (Mv.mulOp X.g op A (l.getD (i : ℕ) Mv.zero))
      ((Pdop.single i).call (Mv.diffN X) F))
    (fun i => opS X.g op' (opS X.g op a (u i)) (Spec.deriv X.g (D i) (Γ i) x))
    (fun i _ => mulOp_rep hs op' (hrep i) (hder i)) (Rep.scalarMv (g := X.g) 0)
  simp only [List.map_map]
  refine (hfold' _).congr ?_
  rw [map_zero, zero_add]
  have : ∀ M : List (Fin n), (List.map (fun i => opS X.g op' (opS X.g op a (u i))
      (Spec.deriv X.g (D i) (Γ i) x)) (List.filter ((fun t : Mv K n × Pdop (Fin n) => !Mv.eqZero X.g t.1) ∘
        fun i : Fin n => (Mv.mulOp X.g op A (l.getD (i : ℕ) Mv.zero), Pdop.single i)) M)).sum =
      (List.map (fun i => opS X.g op' (opS X.g op a (u i)) (Spec.deriv X.g (D i) (Γ i) x)) M).sum := by
    intro M
    induction M with
    | nil => rfl
    | cons i M ih =>
      rw [List.filter_cons]
      by_cases hz : opS X.g op a (u i) = 0
      · rw [if_neg, ih, List.map_cons, List.sum_cons, hz, opS_zero_left, zero_add]
        have := (eqZero_iff (X := X) hs (hrep i)).mpr hz
        simp only [Function.comp, this]; decide
      · rw [if_pos, List.map_cons, List.map_cons, List.sum_cons, List.sum_cons, ih]
        have : Mv.eqZero X.g (Mv.mulOp X.g op A (l.getD (i : ℕ) Mv.zero)) = false := by
          rw [← Bool.not_eq_true]
          intro h1
          exact hz ((eqZero_iff (X := X) hs (hrep i)).mp h1)
        simp only [Function.comp, this]; decide
  refine (this _).trans ?_
  rw [← List.sum_toFinset _ (List.nodup_finRange n)]
  simp

theorem emb_ip {h g : Matrix (Fin n) (Fin n) L} (E : Emb h g) (v w : Fin n → L) :
    Spec.ip g (E.lin v) (E.lin w) = Spec.ip h v w := by
  have e := Emb_opS E .inner (Spec.vec h v) (Spec.vec h w)
  rw [opS, opS, E.vec, E.vec, Spec.hestenesDot_vec_ip, Spec.hestenesDot_vec_ip, AlgHom.commutes] at e
  exact (algebraMap_inj g e).symm

variable {X : Fin n → L} {S : Chart K n} {T : Chart L n}

/-- The components of the basis vectors of `T`. -/
def frameOf (φ : K →+* L) (X : Fin n → L) (S : Chart K n) (T : Chart L n) (j a : Fin n) : L :=
  φ (scaleOf S.N a) * T.D j (X a) / scaleOf T.N j

/-- The meanings of the two coordinate systems. -/
structure Cov (φ : K →+* L) (X : Fin n → L) (S : Chart K n) (T : Chart L n) (Ψ : Spec.Change φ S.g)
    (E : Emb T.g (S.g.map φ)) (Γ : Fin n → Matrix (Fin n) (Fin n) K) (u : Fin n → Fin n → K)
    (Δ : Fin n → Matrix (Fin n) (Fin n) L) (w : Fin n → Fin n → L) : Prop where
  made : S.Made
  made' : T.Made
  oldR : Recip S.g S.D Γ (scaleOf S.N) u
  newR : Recip T.g T.D Δ (scaleOf T.N) w
  old : IsConnection S.g S.conn Γ
  new : IsConnection T.g T.conn Δ
  len : S.grads.length = n
  len' : T.grads.length = n
  vecs : ∀ j : Fin n, Rep S.g (S.grads.getD j Mv.zero) (Spec.vec S.g (u j))
  vecs' : ∀ j : Fin n, Rep T.g (T.grads.getD j Mv.zero) (Spec.vec T.g (w j))
  rewrite : ∀ {A : Mv L n} {x}, Rep T.g A x →
    Rep (S.g.map φ) (A.rewriteIn (S.g.map φ) (basisIn φ X S T)) (E.hom x)
  inj : Function.Injective E.hom
  surj : Function.Surjective E.lin
  deriv : ∀ {x y} (j : Fin n), E.hom x = Ψ.hom y → E.hom (Spec.deriv T.g (T.D j) (Δ j) x) =
    ∑ i, T.D j (X i) • Ψ.hom (Spec.deriv S.g (S.D i) (Γ i) y)
  recip : ∀ i, ∑ j, T.D j (X i) • E.hom (Spec.vec T.g (w j)) = Ψ.hom (Spec.vec S.g (u i))

theorem chart_g (S : Chart K n) (i j : Fin n) :
    S.g i j = S.g0 i j / (scaleOf S.N i * scaleOf S.N j) := by
  rw [Chart.g, currentMetric.eq_def, scaleOf]
  cases S.N with
  | none => simp
  | some N => rfl

theorem chart_metric (H : SameSpace φ X S T) (hS : ∀ i, scaleOf S.N i ≠ 0) :
    T.g = Spec.gramOf (S.g.map φ) (frameOf φ X S T) := by
  ext j k
  rw [chart_g, H.metric, Spec.gramOf, Matrix.of_apply, div_eq_mul_inv, Finset.sum_mul]
  refine Finset.sum_congr rfl fun a _ => ?_
  rw [Finset.sum_mul]
  refine Finset.sum_congr rfl fun b _ => ?_
  rw [Matrix.map_apply, chart_g, frameOf, frameOf, map_div₀, map_mul]
  have ha : φ (scaleOf S.N a) ≠ 0 := (map_ne_zero φ).mpr (hS a)
  have hb : φ (scaleOf S.N b) ≠ 0 := (map_ne_zero φ).mpr (hS b)
  field_simp

theorem exists_emb {h : Matrix (Fin n) (Fin n) L} {g : Matrix (Fin n) (Fin n) L} (hs : g.IsSymm)
    {f : Fin n → Fin n → L} (e : h = Spec.gramOf g f) : ∃ E : Emb h g,
      (∀ v, E.lin v = Spec.combLin f v) ∧ ∀ {A : Mv L n} {x}, Rep h A x →
        Rep g (A.rewriteIn g fun i => Mv.vector (f i)) (E.hom x) := by
  subst e
  exact ⟨Spec.emb g f, fun _ => rfl, fun hA => rewrite_rep hs f hA⟩

theorem exists_cov (H : SameSpace φ X S T) (hS : S.Made) (hT : T.Made) :
    ∃ Ψ E Γ u Δ w, Cov φ X S T Ψ E Γ u Δ w := by
  obtain ⟨Γ, u, hr, -, -, hc, hlen, hu⟩ := grad_env hS.symm hS.norms hS.ortho hS.conn hS.grads
  obtain ⟨Δ, w, hr', -, -, hc', hlen', hu'⟩ := grad_env hT.symm hT.norms hT.ortho hT.conn hT.grads
  obtain ⟨Ψ⟩ := Spec.exists_change φ S.g
  change Recip S.g S.D Γ (scaleOf S.N) u at hr
  change Recip T.g T.D Δ (scaleOf T.N) w at hr'
  have hsS : S.g.IsSymm := hr.symm
  have hsT : T.g.IsSymm := hr'.symm
  have hsp : (S.g.map φ).IsSymm := isSymm_map hsS
  obtain ⟨E, hlin, hrew⟩ := exists_emb hsp (chart_metric H hr.ne)
  have hip := emb_ip E
  -- tangent vectors
  have htan : ∀ k, E.lin (Pi.single k (scaleOf T.N k)) = ∑ a, T.D k (X a) •
      fun b => φ ((Pi.single a (scaleOf S.N a) : Fin n → K) b) := by
    intro k
    funext b
    rw [hlin, Spec.combLin_apply, Finset.sum_eq_single k, Finset.sum_apply, Finset.sum_eq_single b]
    · rw [Pi.single_eq_same, frameOf, Pi.smul_apply, Pi.single_eq_same, smul_eq_mul,
        div_mul_cancel₀ _ (hr'.ne k), mul_comm]
    · intro a _ ha
      rw [Pi.smul_apply, Pi.single_eq_of_ne (Ne.symm ha), map_zero, smul_zero]
    · simp
    · intro j _ hj; rw [Pi.single_eq_of_ne hj, mul_zero]
    · simp
  -- the tangent vectors are a basis
  have hdet : T.g.det ≠ 0 := by
    intro h0
    have hm : T.g * (Matrix.of fun k j => w j k) = Matrix.diagonal fun j => (scaleOf T.N j)⁻¹ := by
      ext i j
      rw [Matrix.mul_apply, Matrix.diagonal_apply]
      have := hr'.recip i j
      rw [Spec.ip_single hr'.symm] at this
      refine this.trans ?_
      split_ifs with hij
      · rw [hij]
      · rfl
    have := congrArg Matrix.det hm
    rw [Matrix.det_mul, h0, zero_mul, Matrix.det_diagonal] at this
    exact Finset.prod_ne_zero_iff.mpr (fun i _ => inv_ne_zero (hr'.ne i)) this.symm
  have hF : (Matrix.of fun k i => frameOf φ X S T i k).det ≠ 0 := by
    intro h0
    apply hdet
    rw [chart_metric H hr.ne, Spec.gramOf_eq, Matrix.det_mul, h0, mul_zero]
  have hU := Ne.isUnit hF
  have hlin' : ∀ v, E.lin v = (Matrix.of fun k i => frameOf φ X S T i k).mulVec v := fun v => by
    rw [hlin]; rfl
  have hsur : Function.Surjective E.lin := fun v =>
    ⟨(Matrix.of fun k i => frameOf φ X S T i k)⁻¹.mulVec v, by
      rw [hlin', Matrix.mulVec_mulVec, Matrix.mul_nonsing_inv _ hU, Matrix.one_mulVec]⟩
  have hinj : Function.Injective E.hom :=
    E.injective (L := ((Matrix.of fun k i => frameOf φ X S T i k)⁻¹).mulVecLin) fun v => by
      rw [hlin', Matrix.mulVecLin_apply, Matrix.mulVec_mulVec, Matrix.nonsing_inv_mul _ hU,
        Matrix.one_mulVec]
  have hch := fun j => H.chain j
  have hcomp : ∀ j, Spec.Compatible (S.g.map φ) (T.D j) (Spec.pull φ Γ fun i => T.D j (X i)) :=
    fun j => Spec.pull_compatible (hch j) hr.compat
  have htor : ∀ j k, Spec.dvec (T.D j) (Spec.pull φ Γ fun i => T.D j (X i))
        (E.lin (Pi.single k (scaleOf T.N k))) =
      Spec.dvec (T.D k) (Spec.pull φ Γ fun i => T.D k (X i)) (E.lin (Pi.single j (scaleOf T.N j))) := by
    have key : ∀ j k, Spec.dvec (T.D j) (Spec.pull φ Γ fun i => T.D j (X i))
        (E.lin (Pi.single k (scaleOf T.N k))) =
        (∑ a, T.D j (T.D k (X a)) • fun b => φ ((Pi.single a (scaleOf S.N a) : Fin n → K) b)) +
        ∑ a, ∑ i, (T.D k (X a) * T.D j (X i)) •
          fun b => φ (Spec.dvec (S.D i) (Γ i) (Pi.single a (scaleOf S.N a)) b) := by
      intro j k
      rw [htan, Spec.dvec_sum, ← Finset.sum_add_distrib]
      refine Finset.sum_congr rfl fun a _ => ?_
      rw [Spec.dvec_smul, Spec.pull_dvec (hch j), Finset.smul_sum]
      simp only [smul_smul]
    intro j k
    rw [key, key]
    congr 1
    · exact Finset.sum_congr rfl fun a _ => by rw [H.comm]
    · rw [Finset.sum_comm]
      refine Finset.sum_congr rfl fun a _ => Finset.sum_congr rfl fun i _ => ?_
      rw [hr.torsion, mul_comm]
  have hv := fun j => Spec.emb_dvec E hr'.ne
    (fun k => Spec.koszul E hr' hsp hip hsur hcomp htor j k)
  refine ⟨Ψ, E, Γ, u, Δ, w, hS, hT, hr, hr', hc, hc', hlen, hlen', hu, hu', hrew, hinj, hsur, ?_, ?_⟩
  · intro x y j hxy
    rw [Spec.emb_deriv E (hv j), hxy, Spec.pull_deriv (hch j)]
  · intro i
    simp only [E.vec, Ψ.vec, ← Spec.vec_smul]
    refine (map_sum (CliffordAlgebra.ι (Spec.Q (S.g.map φ))) _ _).symm.trans ?_
    rw [Spec.vec]
    congr 1
    obtain ⟨z, hz⟩ := hsur fun a => φ (u i a)
    rw [← hz]
    simp only [← map_smul, ← map_sum]
    congr 1
    refine hr'.ext fun l => ?_
    have e1 : Spec.ip T.g (∑ j, T.D j (X i) • w j) (Pi.single l (scaleOf T.N l)) = T.D l (X i) := by
      rw [Spec.ip_comm, ← hr'.single, Spec.ip, map_sum, Finset.sum_eq_single l]
      · rw [map_smul, ← Spec.ip, hr'.recip, if_pos rfl, smul_eq_mul]
        field_simp [hr'.ne l]
      · intro j _ hj
        rw [map_smul, ← Spec.ip, hr'.recip, if_neg (Ne.symm hj), smul_zero]
      · simp
    have e2 : ∀ a, Spec.ip (S.g.map φ) (fun b => φ (u i b))
        (fun b => φ ((Pi.single a (scaleOf S.N a) : Fin n → K) b)) = if a = i then 1 else 0 := by
      intro a
      have : ∀ v w : Fin n → K, Spec.ip (S.g.map φ) (fun b => φ (v b)) (fun b => φ (w b)) =
          φ (Spec.ip S.g v w) := by
        intro v w
        rw [Spec.ip_dot hsp, Spec.ip_dot hsS]
        simp [dotProduct, Matrix.mulVec, map_sum, map_mul]
      rw [this, Spec.ip_comm, ← hr.single, hr.recip]
      split_ifs with h
      · rw [h, mul_inv_cancel₀ (hr.ne i), map_one]
      · rw [mul_zero, map_zero]
    rw [e1, ← hip, hz, htan, Spec.ip, map_sum, Finset.sum_eq_single i]
    · rw [map_smul, ← Spec.ip, e2, if_pos rfl, smul_eq_mul, mul_one]
    · intro a _ ha
      rw [map_smul, ← Spec.ip, e2, if_neg ha, smul_zero]
    · simp


namespace Cov
variable {Ψ : Spec.Change φ S.g} {E : Emb T.g (S.g.map φ)} {Γ : Fin n → Matrix (Fin n) (Fin n) K}
  {u : Fin n → Fin n → K} {Δ : Fin n → Matrix (Fin n) (Fin n) L} {w : Fin n → Fin n → L}
  (C : Cov φ X S T Ψ E Γ u Δ w)
include C

theorem same_iff {A : Mv L n} {B : Mv K n} {x y} (hA : Rep T.g A x) (hB : Rep S.g B y) :
    SameField φ X S T A B ↔ E.hom x = Ψ.hom y := by
  rw [SameField]
  exact Rep.eq_iff (isSymm_map C.oldR.symm) (C.rewrite hA) (hB.subs Ψ)

theorem calculation {a : ℕ → Mv L n} {b : ℕ → Mv K n} {x : ℕ → Spec.Cl T.g} {y : ℕ → Spec.Cl S.g}
    (ha : ∀ i, Rep T.g (a i) (x i)) (hb : ∀ i, Rep S.g (b i) (y i))
    (e : ∀ i, E.hom (x i) = Ψ.hom (y i)) (p : Calc K) : ∃ v z, Rep T.g ((p.map φ).run T.g a) v ∧
      Rep S.g (p.run S.g b) z ∧ E.hom v = Ψ.hom z := by
  have hr := fun i => C.rewrite (ha i)
  obtain ⟨z, h1, h2⟩ := calc_rep Ψ C.oldR.symm hb (fun i => (hr i).congr (e i)) p
  obtain ⟨h3, h4⟩ := calc_emb E (isSymm_map C.oldR.symm) C.newR.symm ha hr (p.map φ)
  exact ⟨_, z, h3, h1, h4.val.symm.trans h2.val⟩

/-- A sum over the coordinates, with the vectors of the gradient on one side and the derivatives on the
other. -/
theorem contract {x y} (e : E.hom x = Ψ.hom y)
    (f : Spec.Cl (S.g.map φ) → Spec.Cl (S.g.map φ) → Spec.Cl (S.g.map φ))
    (hf1 : ∀ z, f 0 z = 0) (hf2 : ∀ z, f z 0 = 0)
    (hfa : ∀ a b c, f (a + b) c = f a c + f b c) (hfb : ∀ a b c, f a (b + c) = f a b + f a c)
    (hfs : ∀ (c : L) a b, f (c • a) b = c • f a b) (hft : ∀ (c : L) a b, f a (c • b) = c • f a b) :
    ∑ j, f (E.hom (Spec.vec T.g (w j))) (E.hom (Spec.deriv T.g (T.D j) (Δ j) x)) =
      ∑ i, f (Ψ.hom (Spec.vec S.g (u i))) (Ψ.hom (Spec.deriv S.g (S.D i) (Γ i) y)) := by
  classical
  have hr : ∀ (z : Spec.Cl (S.g.map φ)) (s : Finset (Fin n)) (v : Fin n → Spec.Cl (S.g.map φ)),
      f z (∑ i ∈ s, v i) = ∑ i ∈ s, f z (v i) := by
    intro z s v
    induction s using Finset.induction_on with
    | empty => simp [hf2]
    | insert i s hi ih => rw [Finset.sum_insert hi, Finset.sum_insert hi, hfb, ih]
  have hl : ∀ (z : Spec.Cl (S.g.map φ)) (s : Finset (Fin n)) (v : Fin n → Spec.Cl (S.g.map φ)),
      f (∑ i ∈ s, v i) z = ∑ i ∈ s, f (v i) z := by
    intro z s v
    induction s using Finset.induction_on with
    | empty => simp [hf1]
    | insert i s hi ih => rw [Finset.sum_insert hi, Finset.sum_insert hi, hfa, ih]
  calc ∑ j, f (E.hom (Spec.vec T.g (w j))) (E.hom (Spec.deriv T.g (T.D j) (Δ j) x))
      = ∑ j, ∑ i, T.D j (X i) • f (E.hom (Spec.vec T.g (w j)))
          (Ψ.hom (Spec.deriv S.g (S.D i) (Γ i) y)) := by
        refine Finset.sum_congr rfl fun j _ => ?_
        rw [C.deriv j e, hr]
        exact Finset.sum_congr rfl fun i _ => hft _ _ _
    _ = ∑ i, f (∑ j, T.D j (X i) • E.hom (Spec.vec T.g (w j)))
          (Ψ.hom (Spec.deriv S.g (S.D i) (Γ i) y)) := by
        rw [Finset.sum_comm]
        refine Finset.sum_congr rfl fun i _ => ?_
        rw [hl]
        exact Finset.sum_congr rfl fun j _ => (hfs _ _ _).symm
    _ = _ := Finset.sum_congr rfl fun i _ => by rw [C.recip]

theorem rhs {a : ℕ → Mv L n} {b : ℕ → Mv K n} {x : ℕ → Spec.Cl T.g} {y : ℕ → Spec.Cl S.g}
    (ha : ∀ i, Rep T.g (a i) (x i)) (hb : ∀ i, Rep S.g (b i) (y i))
    (e : ∀ i, E.hom (x i) = Ψ.hom (y i)) (r : FieldRhs K) : ∃ A B v z, (r.map φ).run T a = some A ∧
      r.run S b = some B ∧ Rep T.g A v ∧ Rep S.g B z ∧ E.hom v = Ψ.hom z := by
  have hS := C.oldR.symm
  have hT := C.newR.symm
  cases r with
  | value p =>
    obtain ⟨v, z, h1, h2, h3⟩ := C.calculation ha hb e p
    exact ⟨_, _, v, z, rfl, rfl, h1, h2, h3⟩
  | grad op p =>
    obtain ⟨v, z, h1, h2, h3⟩ := C.calculation ha hb e p
    obtain ⟨A, k1, k2⟩ := gradDop_mulMv (X := T.fields) hT (fun _ => rfl) (fun _ => rfl) C.new op C.len'
      C.vecs' h1
    obtain ⟨B, k3, k4⟩ := gradDop_mulMv (X := S.fields) hS (fun _ => rfl) (fun _ => rfl) C.old op C.len
      C.vecs h2
    refine ⟨A, B, _, _, by rw [FieldRhs.map, FieldRhs.run, k1]; rfl, by rw [FieldRhs.run, k3]; rfl, k2,
      k4, ?_⟩
    change E.hom (∑ j, opS T.g op (Spec.vec T.g (w j)) (Spec.deriv T.g (T.D j) (Δ j) v)) =
      Ψ.hom (∑ j, opS S.g op (Spec.vec S.g (u j)) (Spec.deriv S.g (S.D j) (Γ j) z))
    rw [map_sum, map_sum]
    refine Eq.trans (Finset.sum_congr rfl fun j _ => Emb_opS E op _ _) ?_
    refine Eq.trans ?_ (Finset.sum_congr rfl fun j _ => (Change_opS Ψ op _ _).symm)
    exact C.contract h3 (opS (S.g.map φ) op) (opS_zero_left op) (opS_zero_right op) (opS_add_left op)
      (opS_add_right op) (opS_smul_left op) (opS_smul_right op)
  | rgrad op p =>
    obtain ⟨v, z, h1, h2, h3⟩ := C.calculation ha hb e p
    obtain ⟨A, k1, k2⟩ := gradDop_mvMul (X := T.fields) hT (fun _ => rfl) (fun _ => rfl) C.new op C.len'
      C.vecs' h1
    obtain ⟨B, k3, k4⟩ := gradDop_mvMul (X := S.fields) hS (fun _ => rfl) (fun _ => rfl) C.old op C.len
      C.vecs h2
    refine ⟨A, B, _, _, by rw [FieldRhs.map, FieldRhs.run, k1]; rfl, by rw [FieldRhs.run, k3]; rfl, k2,
      k4, ?_⟩
    change E.hom (∑ j, opS T.g op (Spec.deriv T.g (T.D j) (Δ j) v) (Spec.vec T.g (w j))) =
      Ψ.hom (∑ j, opS S.g op (Spec.deriv S.g (S.D j) (Γ j) z) (Spec.vec S.g (u j)))
    rw [map_sum, map_sum]
    refine Eq.trans (Finset.sum_congr rfl fun j _ => Emb_opS E op _ _) ?_
    refine Eq.trans ?_ (Finset.sum_congr rfl fun j _ => (Change_opS Ψ op _ _).symm)
    exact C.contract h3 (fun p q => opS (S.g.map φ) op q p) (fun z => opS_zero_right op z)
      (fun z => opS_zero_left op z) (fun a b c => opS_add_right op c a b)
      (fun a b c => opS_add_left op b c a) (fun c a b => opS_smul_right op c b a)
      (fun c a b => opS_smul_left op c b a)
  | along op op' p q =>
    obtain ⟨v, z, h1, h2, h3⟩ := C.calculation ha hb e p
    obtain ⟨v', z', h1', h2', h3'⟩ := C.calculation ha hb e q
    obtain ⟨d, A, k0, k1, k2⟩ := along_rep (X := T.fields) hT (fun _ => rfl) (fun _ => rfl) C.new op op'
      C.len' C.vecs' h1 h1'
    obtain ⟨d', B, k0', k3, k4⟩ := along_rep (X := S.fields) hS (fun _ => rfl) (fun _ => rfl) C.old op op'
      C.len C.vecs h2 h2'
    refine ⟨A, B, _, _, by rw [FieldRhs.map, FieldRhs.run, k0, asDop, Option.bind_some, k1]; rfl,
      by rw [FieldRhs.run, k0', asDop, Option.bind_some, k3]; rfl, k2, k4, ?_⟩
    change E.hom (∑ j, opS T.g op' (opS T.g op v (Spec.vec T.g (w j))) (Spec.deriv T.g (T.D j) (Δ j) v')) =
      Ψ.hom (∑ j, opS S.g op' (opS S.g op z (Spec.vec S.g (u j))) (Spec.deriv S.g (S.D j) (Γ j) z'))
    rw [map_sum, map_sum]
    refine Eq.trans (Finset.sum_congr rfl fun j _ => (Emb_opS E op' _ _).trans
      (congrArg (fun t => opS (S.g.map φ) op' t _) (Emb_opS E op _ _))) ?_
    refine Eq.trans ?_ (Finset.sum_congr rfl fun j _ => ((Change_opS Ψ op' _ _).trans
      (congrArg (fun t => opS (S.g.map φ) op' t _) (Change_opS Ψ op _ _))).symm)
    rw [h3]
    exact C.contract h3' (fun p q => opS (S.g.map φ) op' (opS (S.g.map φ) op (Ψ.hom z) p) q)
      (fun z => by rw [opS_zero_right, opS_zero_left]) (fun z => opS_zero_right op' _)
      (fun a b c => by rw [opS_add_right, opS_add_left]) (fun a b c => opS_add_right op' _ b c)
      (fun c a b => by rw [opS_smul_right, opS_smul_left]) (fun c a b => opS_smul_right op' c _ b)

theorem program (P : List (ℕ × FieldRhs K)) {a : ℕ → Mv L n} {b : ℕ → Mv K n} {x : ℕ → Spec.Cl T.g}
    {y : ℕ → Spec.Cl S.g} (ha : ∀ i, Rep T.g (a i) (x i)) (hb : ∀ i, Rep S.g (b i) (y i))
    (e : ∀ i, E.hom (x i) = Ψ.hom (y i)) : ∃ (a' : ℕ → Mv L n) (b' : ℕ → Mv K n)
      (x' : ℕ → Spec.Cl T.g) (y' : ℕ → Spec.Cl S.g),
      runFields T (P.map fun t => (t.1, t.2.map φ)) a = some a' ∧ runFields S P b = some b' ∧
      (∀ i, Rep T.g (a' i) (x' i)) ∧ (∀ i, Rep S.g (b' i) (y' i)) ∧ ∀ i, E.hom (x' i) = Ψ.hom (y' i) := by
  induction P generalizing a b x y with
  | nil => exact ⟨a, b, x, y, rfl, rfl, ha, hb, e⟩
  | cons t P ih =>
    obtain ⟨k, r⟩ := t
    obtain ⟨A, B, v, z, h1, h2, h3, h4, h5⟩ := C.rhs ha hb e r
    have := ih (a := Function.update a k A) (b := Function.update b k B) (x := Function.update x k v)
      (y := Function.update y k z)
      (fun i => by by_cases h : i = k <;> [(subst h; simpa using h3); simpa [h] using ha i])
      (fun i => by by_cases h : i = k <;> [(subst h; simpa using h4); simpa [h] using hb i])
      (fun i => by by_cases h : i = k <;> [(subst h; simpa using h5); simpa [h] using e i])
    rw [List.map_cons, runFields, runFields, h1, h2]
    exact this

end Cov
end GA

namespace GA
open Spec (Change)
variable {n : ℕ} {K L : Type*} [Field K] [DecidableEq K] [Invertible (2 : K)]
  [Field L] [DecidableEq L] [Invertible (2 : L)] {φ : K →+* L} {g : Matrix (Fin n) (Fin n) K}

theorem coeff_map (φ : K →+* L) (A : Expr K n) (l : List (Fin n)) :
    coeff (A.map fun t => (φ t.1, t.2)) l = φ (coeff A l) := by
  rw [coeff, coeff, map_list_sum, List.map_map, List.map_map]
  congr 2
  funext t
  simp only [Function.comp]
  split_ifs <;> simp

/-- Insertion of other coordinates does not identify different multivectors. -/
theorem change_injective (Ψ : Change φ g) : Function.Injective Ψ.hom := by
  intro x y h
  obtain ⟨A, hA⟩ := exists_rep g x
  obtain ⟨B, hB⟩ := exists_rep g y
  rw [← hA.den, ← hB.den, ← den_map Ψ, ← den_map Ψ] at h
  have := (den_eq_iff' _ (valid_mapTo hA.valid φ) (valid_mapTo hB.valid φ)).mp h
  rw [← hA.den, ← hB.den]
  refine (den_eq_iff' g hA.valid hB.valid).mpr (funext fun l => φ.injective ?_)
  rw [← coeff_map, ← coeff_map, this]

theorem emb_surjective {h g : Matrix (Fin n) (Fin n) L} (E : _root_.Spec.Emb h g)
    (hs : Function.Surjective E.lin) : Function.Surjective E.hom := by
  intro y
  induction y using CliffordAlgebra.induction with
  | algebraMap r => exact ⟨algebraMap L _ r, E.hom.commutes r⟩
  | ι v =>
    obtain ⟨w, rfl⟩ := hs v
    exact ⟨Spec.vec h w, E.vec w⟩
  | mul a b ha hb =>
    obtain ⟨x, rfl⟩ := ha
    obtain ⟨y, rfl⟩ := hb
    exact ⟨x * y, map_mul _ _ _⟩
  | add a b ha hb =>
    obtain ⟨x, rfl⟩ := ha
    obtain ⟨y, rfl⟩ := hb
    exact ⟨x + y, map_add _ _ _⟩

end GA
