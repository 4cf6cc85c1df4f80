import Verif.Spec.Deriv
import Verif.Proofs.Recip
import Verif.Proofs.Outer
import Mathlib.Algebra.TrivSqZeroExt.Basic

/-! Derivations of the geometric algebra. -/

set_option linter.unusedSectionVars false

namespace Spec
open GA CliffordAlgebra
variable {n : ℕ} {R : Type*} [CommRing R] [Invertible (2 : R)]
  {g : Matrix (Fin n) (Fin n) R}

/-! ### Derivatives of the coefficients -/

/-- The coefficients of the basis blades are differentiated. -/
noncomputable def cdiff (g : Matrix (Fin n) (Fin n) R) (D : Derivation ℤ R R) (x : Cl g) : Cl g :=
  ∑ s, D ((Pi.basisFun R (Fin n)).ExteriorAlgebra.repr (toExt g x) s) •
    (toExt g).symm ((Pi.basisFun R (Fin n)).ExteriorAlgebra s)

theorem cdiff_add (D : Derivation ℤ R R) (x y : Cl g) :
    cdiff g D (x + y) = cdiff g D x + cdiff g D y := by
  simp only [cdiff, map_add, Finsupp.coe_add, Pi.add_apply, add_smul, Finset.sum_add_distrib]

theorem cdiff_zero (D : Derivation ℤ R R) : cdiff g D 0 = 0 := by
  simp [cdiff]

theorem cdiff_smul (D : Derivation ℤ R R) (c : R) (x : Cl g) :
    cdiff g D (c • x) = D c • x + c • cdiff g D x := by
  have hx : x = ∑ s, (Pi.basisFun R (Fin n)).ExteriorAlgebra.repr (toExt g x) s •
      (toExt g).symm ((Pi.basisFun R (Fin n)).ExteriorAlgebra s) := by
    apply (toExt g).injective
    rw [map_sum]
    simp only [map_smul, LinearEquiv.apply_symm_apply]
    exact ((Pi.basisFun R (Fin n)).ExteriorAlgebra.sum_repr _).symm
  conv_rhs => rw [hx, Finset.smul_sum, cdiff, Finset.smul_sum, ← Finset.sum_add_distrib]
  rw [cdiff]
  refine Finset.sum_congr rfl fun s _ => ?_
  have h : (Pi.basisFun R (Fin n)).ExteriorAlgebra.repr (toExt g (c • x)) s =
      c * (Pi.basisFun R (Fin n)).ExteriorAlgebra.repr (toExt g x) s := by
    simp
  rw [h, Derivation.leibniz, add_smul, smul_smul, smul_smul, smul_eq_mul, smul_eq_mul, ← hx]
  rw [add_comm, mul_comm (D c)]

theorem cdiff_blade (D : Derivation ℤ R R) (l : List (Fin n)) : cdiff g D (blade g l) = 0 := by
  classical
  have hb : ∀ l : List (Fin n), l.Pairwise (· < ·) → cdiff g D (blade g l) = 0 := by
    intro l hl
    rw [cdiff]
    refine Finset.sum_eq_zero fun s _ => ?_
    have : toExt g (blade g l) = (Pi.basisFun R (Fin n)).ExteriorAlgebra l.toFinset := by
      rw [toExt_blade, extBasis_apply, sort_toFinset hl]
    rw [this, Module.Basis.repr_self, Finsupp.single_apply]
    split_ifs
    · rw [Derivation.map_one_eq_zero, zero_smul]
    · rw [map_zero, zero_smul]
  rcases bladeReduce_spec l with ⟨-, h2⟩ | ⟨m, -, -, h3, h4⟩
  · rw [blade, extBlade_not_nodup _ h2, map_zero, cdiff_zero]
  · rw [blade, extBlade_perm _ _ h3 h4, map_smul]
    rw [cdiff_smul]
    have := hb m h3
    rw [blade] at this
    rw [this, smul_zero, add_zero, Derivation.leibniz_pow]
    simp

theorem cdiff_wedge (D : Derivation ℤ R R) (x y : Cl g) :
    cdiff g D (wedge g x y) = wedge g (cdiff g D x) y + wedge g x (cdiff g D y) := by
  classical
  induction x using blade_induction g with
  | h0 => simp [zero_wedge, cdiff_zero]
  | hadd a b ha hb => rw [add_wedge, cdiff_add, ha, hb, cdiff_add, add_wedge, add_wedge]; abel
  | hsm c l hl =>
    induction y using blade_induction g with
    | h0 => simp [wedge_zero, cdiff_zero]
    | hadd a b ha hb => rw [wedge_add, cdiff_add, ha, hb, cdiff_add, wedge_add, wedge_add]; abel
    | hsm d m hm =>
      rw [smul_wedge, wedge_smul, wedge_blade, smul_smul, cdiff_smul, cdiff_smul, cdiff_smul,
        cdiff_blade, cdiff_blade, cdiff_blade, Derivation.leibniz, smul_zero, smul_zero, add_zero,
        smul_zero, add_zero, add_zero, smul_wedge, wedge_smul, smul_wedge, wedge_smul, wedge_blade,
        smul_smul, smul_smul, add_smul, smul_eq_mul, smul_eq_mul, add_comm, mul_comm d]

theorem cdiff_vec (D : Derivation ℤ R R) (v : Fin n → R) :
    cdiff g D (vec g v) = vec g fun i => D (v i) := by
  classical
  have hv : ∀ v : Fin n → R, vec g v = ∑ i, v i • blade g [i] := by
    intro v
    have : v = ∑ i, v i • Pi.single i (1 : R) := by funext j; simp [Pi.single_apply]
    conv_lhs => rw [this, vec, map_sum]
    refine Finset.sum_congr rfl fun i _ => ?_
    rw [map_smul, blade_singleton]; rfl
  have hsum : ∀ (s : Finset (Fin n)) (f : Fin n → Cl g),
      cdiff g D (∑ i ∈ s, f i) = ∑ i ∈ s, cdiff g D (f i) := by
    intro s f
    induction s using Finset.induction_on with
    | empty => simp [cdiff_zero]
    | insert a s ha ih => rw [Finset.sum_insert ha, Finset.sum_insert ha, cdiff_add, ih]
  rw [hv, hv, hsum]
  refine Finset.sum_congr rfl fun i _ => ?_
  rw [cdiff_smul, cdiff_blade, smul_zero, add_zero]

theorem cdiff_grade (D : Derivation ℤ R R) (r : ℕ) (x : Cl g) :
    cdiff g D (grade g r x) = grade g r (cdiff g D x) := by
  classical
  induction x using blade_induction g with
  | h0 => simp [cdiff_zero]
  | hadd a b ha hb => rw [map_add, cdiff_add, ha, hb, cdiff_add, map_add]
  | hsm c l hl =>
    rw [map_smul, cdiff_smul, cdiff_smul, cdiff_blade, smul_zero, add_zero, map_smul, grade_blade]
    split_ifs
    · rw [cdiff_blade, smul_zero, add_zero]
    · rw [cdiff_zero, smul_zero, smul_zero, add_zero]

/-! ### Derivatives of the basis -/

/-- The vector `v` and its image, in the algebra with an element of square zero adjoined. -/
noncomputable def nablaAux (Γ : Matrix (Fin n) (Fin n) R) :
    (Fin n → R) →ₗ[R] TrivSqZeroExt (ExteriorAlgebra R (Fin n → R))
      (ExteriorAlgebra R (Fin n → R)) where
  toFun v := TrivSqZeroExt.inl (ExteriorAlgebra.ι R v) +
    TrivSqZeroExt.inr (ExteriorAlgebra.ι R (Γ.mulVec v))
  map_add' v w := by
    ext
    · simp
    · simp [Matrix.mulVec_add]
  map_smul' c v := by
    ext
    · simp
    · simp [Matrix.mulVec_smul]

/-- The homomorphism `x ↦ x + ε ∇x`. -/
noncomputable def nablaHom (Γ : Matrix (Fin n) (Fin n) R) :
    ExteriorAlgebra R (Fin n → R) →ₐ[R] TrivSqZeroExt (ExteriorAlgebra R (Fin n → R))
      (ExteriorAlgebra R (Fin n → R)) :=
  ExteriorAlgebra.lift R ⟨nablaAux Γ, fun v => by
    ext
    · simp [nablaAux]
    · simp [nablaAux, ext_anticomm v (Γ.mulVec v)]⟩

theorem nablaHom_fst (Γ : Matrix (Fin n) (Fin n) R) (x : ExteriorAlgebra R (Fin n → R)) :
    (nablaHom Γ x).fst = x := by
  have : (TrivSqZeroExt.fstHom R _ _).comp (nablaHom Γ) = AlgHom.id R _ := by
    apply ExteriorAlgebra.hom_ext
    ext v
    simp [nablaHom, nablaAux]
  exact DFunLike.congr_fun this x

/-- The derivation of the exterior product with `∇ e_i` the column `i` of `Γ`. -/
noncomputable def nabla (g Γ : Matrix (Fin n) (Fin n) R) : Cl g →ₗ[R] Cl g where
  toFun x := (toExt g).symm (nablaHom Γ (toExt g x)).snd
  map_add' x y := by simp
  map_smul' c x := by simp

theorem nabla_vec (Γ : Matrix (Fin n) (Fin n) R) (v : Fin n → R) :
    nabla g Γ (vec g v) = vec g (Γ.mulVec v) := by
  apply (toExt g).injective
  simp [nabla, toExt_vec, nablaHom, nablaAux]

theorem nabla_one (Γ : Matrix (Fin n) (Fin n) R) : nabla g Γ 1 = 0 := by
  apply (toExt g).injective
  simp [nabla, toExt_one]

theorem nabla_wedge (Γ : Matrix (Fin n) (Fin n) R) (x y : Cl g) :
    nabla g Γ (wedge g x y) = wedge g (nabla g Γ x) y + wedge g x (nabla g Γ y) := by
  apply (toExt g).injective
  simp only [nabla, wedge, LinearMap.coe_mk, AddHom.coe_mk, LinearEquiv.apply_symm_apply,
    map_add, map_mul, TrivSqZeroExt.snd_mul, nablaHom_fst, smul_eq_mul, MulOpposite.smul_eq_mul_unop, MulOpposite.unop_op]
  rw [add_comm]

/-! ### The derivative -/

/-- The derivative of a multivector field. -/
noncomputable def deriv (g : Matrix (Fin n) (Fin n) R) (D : Derivation ℤ R R)
    (Γ : Matrix (Fin n) (Fin n) R) (x : Cl g) : Cl g := cdiff g D x + nabla g Γ x

variable (D : Derivation ℤ R R) (Γ : Matrix (Fin n) (Fin n) R)

theorem deriv_add (x y : Cl g) : deriv g D Γ (x + y) = deriv g D Γ x + deriv g D Γ y := by
  rw [deriv, cdiff_add, map_add, deriv, deriv]; abel

theorem deriv_zero : deriv g D Γ 0 = 0 := by rw [deriv, cdiff_zero, map_zero, add_zero]

theorem deriv_smul (c : R) (x : Cl g) :
    deriv g D Γ (c • x) = D c • x + c • deriv g D Γ x := by
  rw [deriv, cdiff_smul, map_smul, deriv, smul_add, add_assoc]

theorem deriv_neg (x : Cl g) : deriv g D Γ (-x) = -deriv g D Γ x := by
  have := deriv_add D Γ x (-x)
  rw [add_neg_cancel, deriv_zero] at this
  exact (neg_eq_of_add_eq_zero_right this.symm).symm

theorem deriv_sub (x y : Cl g) : deriv g D Γ (x - y) = deriv g D Γ x - deriv g D Γ y := by
  rw [sub_eq_add_neg, deriv_add, deriv_neg, sub_eq_add_neg]

theorem deriv_sum {ι : Type*} (s : Finset ι) (f : ι → Cl g) :
    deriv g D Γ (∑ i ∈ s, f i) = ∑ i ∈ s, deriv g D Γ (f i) := by
  classical
  induction s using Finset.induction_on with
  | empty => simp [deriv_zero]
  | insert a s ha ih => rw [Finset.sum_insert ha, Finset.sum_insert ha, deriv_add, ih]

theorem deriv_wedge (x y : Cl g) :
    deriv g D Γ (wedge g x y) = wedge g (deriv g D Γ x) y + wedge g x (deriv g D Γ y) := by
  rw [deriv, cdiff_wedge, nabla_wedge, deriv, deriv, add_wedge, wedge_add]; abel

theorem deriv_vec (v : Fin n → R) : deriv g D Γ (vec g v) = vec g (dvec D Γ v) := by
  rw [deriv, cdiff_vec, nabla_vec, ← vec_add]; rfl

theorem deriv_algebraMap (c : R) : deriv g D Γ (algebraMap R _ c) = algebraMap R _ (D c) := by
  rw [Algebra.algebraMap_eq_smul_one, deriv_smul, ← Algebra.algebraMap_eq_smul_one]
  have h1 : cdiff g D (1 : Cl g) = 0 := by
    have := cdiff_blade (g := g) D []
    rwa [blade_nil] at this
  rw [deriv, h1, nabla_one, add_zero, smul_zero, add_zero]

theorem deriv_one : deriv g D Γ (1 : Cl g) = 0 := by
  have := deriv_algebraMap (g := g) D Γ 1
  rwa [map_one, Derivation.map_one_eq_zero, map_zero] at this

theorem deriv_wedgeL_cons (v : Fin n → R) (L : List (Fin n → R)) :
    deriv g D Γ (wedgeL g (v :: L)) =
      wedge g (vec g (dvec D Γ v)) (wedgeL g L) + wedge g (vec g v) (deriv g D Γ (wedgeL g L)) := by
  rw [wedgeL_cons, deriv_wedge, deriv_vec]

theorem homogeneous_deriv {r : ℕ} {x : Cl g} (hx : Homogeneous g r x) :
    Homogeneous g r (deriv g D Γ x) := by
  classical
  have key : ∀ L : List (Fin n → R), Homogeneous g L.length (deriv g D Γ (wedgeL g L)) := by
    intro L
    induction L with
    | nil => rw [wedgeL_nil, deriv_one]; exact homogeneous_zero _
    | cons v L ih =>
      rw [deriv_wedgeL_cons]
      have h1 := homogeneous_wedgeL (g := g) (dvec D Γ v :: L)
      rw [wedgeL_cons] at h1
      refine h1.add ?_
      have := homogeneous_wedge (homogeneous_vec (g := g) v) ih
      rw [add_comm] at this
      exact this
  have h2 : ∀ (x : Cl g) (r : ℕ), Homogeneous g r (deriv g D Γ (grade g r x)) := by
    intro x r
    induction x using blade_induction g with
    | h0 => rw [map_zero, deriv_zero]; exact homogeneous_zero _
    | hadd a b ha hb => rw [map_add, deriv_add]; exact ha.add hb
    | hsm c l hl =>
      rw [map_smul, grade_blade]
      split_ifs with h
      · subst h
        rw [deriv_smul, blade_eq_wedgeL]
        have h3 := homogeneous_wedgeL (g := g) (l.map fun i => Pi.single i (1 : R))
        have h4 := key (l.map fun i => Pi.single i (1 : R))
        rw [List.length_map] at h3 h4
        exact (h3.smul _).add (h4.smul _)
      · rw [smul_zero, deriv_zero]; exact homogeneous_zero _
  have := h2 x r
  rwa [hx.grade_eq] at this

theorem deriv_grade (r : ℕ) (x : Cl g) : deriv g D Γ (grade g r x) = grade g r (deriv g D Γ x) := by
  classical
  conv_rhs => rw [← GA.sum_grade (g := g) x]
  rw [deriv_sum, map_sum]
  by_cases hr : r ≤ n
  · rw [Finset.sum_eq_single r]
    · exact (homogeneous_deriv D Γ (homogeneous_grade r x)).grade_eq.symm
    · intro b _ hb
      exact homogeneous_deriv D Γ (homogeneous_grade b x) r (Ne.symm hb)
    · intro h
      exact absurd (Finset.mem_range.mpr (by omega)) h
  · rw [Finset.sum_eq_zero]
    · have h0 : grade g r x = 0 := by
        rw [← GA.sum_grade (g := g) x, map_sum]
        refine Finset.sum_eq_zero fun b hb => ?_
        have := Finset.mem_range.mp hb
        exact homogeneous_grade b x r (by omega)
      rw [h0, deriv_zero]
    · intro b hb
      refine homogeneous_deriv D Γ (homogeneous_grade b x) r ?_
      have := Finset.mem_range.mp hb
      omega

/-! ### Metric compatibility -/

theorem ip_dot (hg : g.IsSymm) (v w : Fin n → R) : ip g v w = v ⬝ᵥ g.mulVec w := by
  rw [ip, associated_vec hg, dotProduct]
  refine Finset.sum_congr rfl fun i _ => ?_
  rw [Matrix.mulVec, dotProduct, Finset.mul_sum]
  exact Finset.sum_congr rfl fun j _ => by ring

theorem dvec_eq (D : Derivation ℤ R R) (Γ : Matrix (Fin n) (Fin n) R) (v : Fin n → R) :
    dvec D Γ v = (fun j => D (v j)) + Γ.mulVec v := rfl

variable {D Γ}

theorem compatible_iff : Compatible g D Γ ↔ g.map D = Γ.transpose * g + g * Γ := by
  constructor
  · intro h
    ext i j
    simp [Matrix.add_apply, Matrix.mul_apply, h i j]
  · intro h i j
    have := congrFun (congrFun h i) j
    simpa [Matrix.add_apply, Matrix.mul_apply] using this

theorem D_dot (D : Derivation ℤ R R) (v w : Fin n → R) :
    D (v ⬝ᵥ w) = (fun i => D (v i)) ⬝ᵥ w + v ⬝ᵥ fun i => D (w i) := by
  simp only [dotProduct, map_sum, Derivation.leibniz, smul_eq_mul, ← Finset.sum_add_distrib]
  exact Finset.sum_congr rfl fun i _ => by ring

theorem D_mulVec (D : Derivation ℤ R R) (M : Matrix (Fin n) (Fin n) R) (w : Fin n → R) :
    (fun i => D (M.mulVec w i)) = (M.map D).mulVec w + M.mulVec fun i => D (w i) := by
  funext i
  simp only [Matrix.mulVec, Pi.add_apply]
  exact D_dot D _ _

theorem ip_deriv (hg : g.IsSymm) (hc : Compatible g D Γ) (v w : Fin n → R) :
    D (ip g v w) = ip g (dvec D Γ v) w + ip g v (dvec D Γ w) := by
  rw [compatible_iff] at hc
  rw [ip_dot hg, ip_dot hg, ip_dot hg, D_dot, D_mulVec, hc, dvec_eq, dvec_eq, add_dotProduct,
    Matrix.mulVec_add, dotProduct_add, dotProduct_add, Matrix.add_mulVec, dotProduct_add,
    ← Matrix.mulVec_mulVec, ← Matrix.mulVec_mulVec, Matrix.dotProduct_mulVec v Γ.transpose,
    Matrix.vecMul_transpose]
  abel

theorem deriv_con (hg : g.IsSymm) (hc : Compatible g D Γ) (v : Fin n → R) (x : Cl g) :
    deriv g D Γ (con g v x) = con g (dvec D Γ v) x + con g v (deriv g D Γ x) := by
  classical
  induction x using blade_induction g with
  | h0 => simp [deriv_zero]
  | hadd a b ha hb => rw [map_add, deriv_add, ha, hb, map_add, deriv_add, map_add]; abel
  | hsm c l hl =>
    have key : ∀ L : List (Fin n → R), deriv g D Γ (con g v (wedgeL g L)) =
        con g (dvec D Γ v) (wedgeL g L) + con g v (deriv g D Γ (wedgeL g L)) := by
      intro L
      induction L with
      | nil => simp [wedgeL_nil, deriv_one, deriv_zero]
      | cons w L ih =>
        rw [deriv_wedgeL_cons, map_add, wedgeL_cons, con_wedge_vec, con_wedge_vec, con_wedge_vec,
          con_wedge_vec, deriv_sub, deriv_smul, deriv_wedge, deriv_vec, ih, ip_deriv hg hc, add_smul,
          wedge_add]
        abel
    rw [map_smul, deriv_smul, blade_eq_wedgeL, key, deriv_smul, map_add, map_smul, map_smul, map_smul,
      smul_add]
    abel

/-- The product rule for the geometric product. -/
theorem deriv_mul (hg : g.IsSymm) (hc : Compatible g D Γ) (x y : Cl g) :
    deriv g D Γ (x * y) = deriv g D Γ x * y + x * deriv g D Γ y := by
  have hv : ∀ (v : Fin n → R) (y : Cl g),
      deriv g D Γ (vec g v * y) = vec g (dvec D Γ v) * y + vec g v * deriv g D Γ y := by
    intro v y
    rw [vec_mul, deriv_add, deriv_con hg hc, deriv_wedge, deriv_vec, vec_mul, vec_mul]
    abel
  induction x using CliffordAlgebra.left_induction generalizing y with
  | algebraMap c =>
    rw [deriv_algebraMap, ← Algebra.smul_def, ← Algebra.smul_def, ← Algebra.smul_def, deriv_smul]
  | add a b ha hb => rw [add_mul, deriv_add, ha, hb, deriv_add, add_mul, add_mul]; abel
  | ι_mul x v ih =>
    have e : ι (Q g) v = vec g v := rfl
    rw [e, mul_assoc, hv, ih, hv, add_mul, mul_add, mul_assoc, mul_assoc, mul_assoc, add_assoc]

/-- The derivative of a constant metric's geometric products of basis vectors. -/
theorem deriv_base (hg : g.IsSymm) (hc : Compatible g D 0) (l : List (Fin n)) :
    deriv g D 0 (base g l) = 0 := by
  induction l with
  | nil => simp [base, deriv_one]
  | cons i l ih =>
    have e : base g (i :: l) = vec g (Pi.single i 1) * base g l := by simp [base, Spec.e, vec]
    rw [e, deriv_mul hg hc, ih, deriv_vec]
    have : dvec D 0 (Pi.single i (1 : R)) = 0 := by
      funext j; simp [dvec, Pi.single_apply, apply_ite D]
    simp [this, vec]

theorem deriv_gradedProduct (hg : g.IsSymm) (hc : Compatible g D Γ) (f : ℕ → ℕ → Option ℕ)
    (x y : Cl g) : deriv g D Γ (gradedProduct g f x y) =
      gradedProduct g f (deriv g D Γ x) y + gradedProduct g f x (deriv g D Γ y) := by
  simp only [gradedProduct, ← Finset.sum_add_distrib, deriv_sum]
  refine Finset.sum_congr rfl fun r _ => Finset.sum_congr rfl fun s _ => ?_
  cases f r s with
  | none => simp [deriv_zero]
  | some t => simp only [deriv_grade, deriv_mul hg hc, map_add]

end Spec
