import Verif.Spec.Frame
import Verif.Proofs.Subs
import Verif.Proofs.Isometry

/-! A family of vectors induces a homomorphism from the Clifford algebra of its Gram matrix, which
respects blades, grades and all products. -/

set_option linter.unusedSectionVars false

namespace Spec
open CliffordAlgebra GA
variable {n m : ℕ} {R : Type*} [CommRing R]

/-- A homomorphism between Clifford algebras that maps vectors to vectors linearly. -/
structure Emb (h : Matrix (Fin m) (Fin m) R) (g : Matrix (Fin n) (Fin n) R) where
  lin : (Fin m → R) →ₗ[R] (Fin n → R)
  hom : Cl h →ₐ[R] Cl g
  vec : ∀ v, hom (Spec.vec h v) = Spec.vec g (lin v)

/-- The Gram matrix of vectors given by their components. -/
def gramOf (g : Matrix (Fin n) (Fin n) R) (f : Fin m → Fin n → R) : Matrix (Fin m) (Fin m) R :=
  Matrix.of fun i j => ∑ k, ∑ l, g k l * f i k * f j l

/-- The linear map with given values on the basis vectors. -/
def combLin (f : Fin m → Fin n → R) : (Fin m → R) →ₗ[R] (Fin n → R) :=
  Matrix.mulVecLin (Matrix.of fun k i => f i k)

theorem combLin_apply (f : Fin m → Fin n → R) (v : Fin m → R) (k : Fin n) :
    combLin f v k = ∑ i, f i k * v i := by
  simp [combLin, Matrix.mulVec, dotProduct]

theorem combLin_single (f : Fin m → Fin n → R) (i : Fin m) : combLin f (Pi.single i 1) = f i := by
  funext k
  rw [combLin_apply, Finset.sum_eq_single i]
  · simp
  · intro j _ hj; simp [hj]
  · simp

theorem gramOf_eq (g : Matrix (Fin n) (Fin n) R) (f : Fin m → Fin n → R) :
    gramOf g f = (Matrix.of fun k i => f i k).transpose * g * (Matrix.of fun k i => f i k) := by
  ext i j
  simp only [gramOf, Matrix.of_apply, Matrix.mul_apply, Matrix.transpose_apply, Finset.sum_mul]
  rw [Finset.sum_comm]
  exact Finset.sum_congr rfl fun l _ => Finset.sum_congr rfl fun k _ => by ring

theorem Q_combLin (g : Matrix (Fin n) (Fin n) R) (f : Fin m → Fin n → R) (v : Fin m → R) :
    Q g (combLin f v) = Q (gramOf g f) v := by
  rw [gramOf_eq, Q, Q, ← Matrix.toBilin'_comp]
  rfl

/-- The homomorphism of a family of vectors. -/
noncomputable def emb (g : Matrix (Fin n) (Fin n) R) (f : Fin m → Fin n → R) : Emb (gramOf g f) g where
  lin := combLin f
  hom := CliffordAlgebra.map
    ({ toLinearMap := combLin f, map_app' := Q_combLin g f } : Q (gramOf g f) →qᵢ Q g)
  vec _ := CliffordAlgebra.map_apply_ι _ _

namespace Emb
variable {h : Matrix (Fin m) (Fin m) R} {g : Matrix (Fin n) (Fin n) R} (Ψ : Emb h g)

theorem involute (x : Cl h) :
    Ψ.hom (CliffordAlgebra.involute x) = CliffordAlgebra.involute (Ψ.hom x) := by
  have : Ψ.hom.comp CliffordAlgebra.involute = (CliffordAlgebra.involute (Q := Q g)).comp Ψ.hom := by
    apply CliffordAlgebra.hom_ext
    ext i
    simp only [LinearMap.coe_comp, Function.comp_apply, AlgHom.toLinearMap_apply,
      AlgHom.comp_apply, involute_ι, map_neg]
    have h := Ψ.vec (LinearMap.single R (fun _ => R) i 1)
    rw [Spec.vec] at h
    rw [h, Spec.vec, involute_ι]
  exact DFunLike.congr_fun this x

theorem reverse (x : Cl h) :
    Ψ.hom (CliffordAlgebra.reverse x) = CliffordAlgebra.reverse (Ψ.hom x) := by
  induction x using CliffordAlgebra.induction with
  | algebraMap c => simp
  | ι v =>
    have h := Ψ.vec v
    rw [Spec.vec] at h
    rw [reverse_ι, h, Spec.vec, reverse_ι]
  | mul x y hx hy => rw [reverse.map_mul, map_mul, hx, hy, map_mul, reverse.map_mul]
  | add x y hx hy => simp only [map_add, hx, hy]

variable [Invertible (2 : R)]

theorem vec_wedge (v : Fin m → R) (x : Cl h) :
    Ψ.hom (Spec.wedge h (Spec.vec h v) x) = Spec.wedge g (Spec.vec g (Ψ.lin v)) (Ψ.hom x) := by
  apply two_cancel (R := R)
  rw [← map_smul, two_smul_wedge_vec, two_smul_wedge_vec, map_add, map_mul, map_mul, Ψ.vec, Ψ.involute]

theorem wedgeL (L : List (Fin m → R)) : Ψ.hom (Spec.wedgeL h L) = Spec.wedgeL g (L.map Ψ.lin) := by
  induction L with
  | nil => simp
  | cons v L ih => rw [wedgeL_cons, Ψ.vec_wedge, ih, List.map_cons, wedgeL_cons]

theorem blade (l : List (Fin m)) :
    Ψ.hom (Spec.blade h l) = Spec.wedgeL g (l.map fun i => Ψ.lin (Pi.single i 1)) := by
  rw [blade_eq_wedgeL, Ψ.wedgeL, List.map_map]; rfl

theorem grade (r : ℕ) (x : Cl h) : Ψ.hom (Spec.grade h r x) = Spec.grade g r (Ψ.hom x) := by
  induction x using blade_induction h with
  | h0 => simp
  | hadd x y hx hy => rw [map_add, map_add, hx, hy, map_add, map_add]
  | hsm c l _ =>
    rw [map_smul, map_smul, map_smul, map_smul, grade_blade, Ψ.blade]
    have hh := homogeneous_wedgeL (g := g) (l.map fun i => Ψ.lin (Pi.single i 1))
    rw [List.length_map] at hh
    split_ifs with hl
    · rw [← hl, hh.grade_eq, Ψ.blade]
    · rw [hh r (Ne.symm hl), map_zero]

theorem wedge (x y : Cl h) :
    Ψ.hom (Spec.wedge h x y) = Spec.wedge g (Ψ.hom x) (Ψ.hom y) := by
  induction x using blade_induction h with
  | h0 => simp [zero_wedge]
  | hadd x x' hx hy => rw [add_wedge, map_add, hx, hy, map_add, add_wedge]
  | hsm c l _ =>
    rw [smul_wedge, map_smul, map_smul, smul_wedge]
    congr 1
    rw [blade_eq_wedgeL]
    generalize l.map _ = L
    induction L with
    | nil => simp [one_wedge]
    | cons v L ih =>
      rw [wedgeL_cons, wedge_assoc, Ψ.vec_wedge, ih, Ψ.vec_wedge, wedge_assoc]

theorem gradedProduct (f : ℕ → ℕ → Option ℕ) (x y : Cl h) :
    Ψ.hom (Spec.gradedProduct h f x y) = Spec.gradedProduct g f (Ψ.hom x) (Ψ.hom y) := by
  have hr : ∀ {N : ℕ} (k : Matrix (Fin N) (Fin N) R) (M : ℕ) (hM : N + 1 ≤ M) (x y : Cl k),
      Spec.gradedProduct k f x y = ∑ r ∈ Finset.range M, ∑ s ∈ Finset.range M,
        match f r s with
        | none => 0
        | some t => Spec.grade k t (Spec.grade k r x * Spec.grade k s y) := by
    intro N k M hM x y
    rw [Spec.gradedProduct]
    have hsub : Finset.range (N + 1) ⊆ Finset.range M := Finset.range_mono hM
    refine Finset.sum_subset_zero_on_sdiff hsub (fun r hr => Finset.sum_eq_zero fun s _ => ?_)
      fun r _ => Finset.sum_subset_zero_on_sdiff hsub (fun s hs => ?_) fun _ _ => rfl
    · simp only [Finset.mem_sdiff, Finset.mem_range] at hr
      cases f r s with
      | none => rfl
      | some t => simp only []; rw [grade_gt (by omega) x, zero_mul, map_zero]
    · simp only [Finset.mem_sdiff, Finset.mem_range] at hs
      cases f r s with
      | none => rfl
      | some t => simp only []; rw [grade_gt (by omega) y, mul_zero, map_zero]
  rw [hr h (max (m + 1) (n + 1)) (le_max_left _ _), hr g (max (m + 1) (n + 1)) (le_max_right _ _), map_sum]
  refine Finset.sum_congr rfl fun r _ => ?_
  rw [map_sum]
  refine Finset.sum_congr rfl fun s _ => ?_
  cases f r s with
  | none => simp
  | some t => simp only []; rw [Ψ.grade, map_mul, Ψ.grade, Ψ.grade]

/-- If the vectors have a left inverse, the homomorphism is injective. -/
theorem injective {L : (Fin n → R) →ₗ[R] (Fin m → R)} (hL : ∀ v, L (Ψ.lin v) = v) :
    Function.Injective Ψ.hom := by
  have hx : ∀ x, toExt g (Ψ.hom x) = ExteriorAlgebra.map Ψ.lin (toExt h x) := by
    intro x
    induction x using blade_induction h with
    | h0 => simp
    | hadd x y hx hy => simp only [map_add, hx, hy]
    | hsm c l _ =>
      rw [map_smul, map_smul, map_smul, map_smul, blade_eq_wedgeL]
      congr 1
      generalize l.map _ = L
      induction L with
      | nil => rw [wedgeL_nil, map_one, toExt_one, toExt_one, map_one]
      | cons v L ih =>
        rw [wedgeL_cons, Ψ.vec_wedge, Spec.wedge, Spec.wedge, LinearEquiv.apply_symm_apply,
          LinearEquiv.apply_symm_apply, map_mul, ih, toExt_vec, toExt_vec, ExteriorAlgebra.map_apply_ι]
  intro x y hxy
  have h1 := congrArg (fun z => ExteriorAlgebra.map L (toExt g z)) hxy
  simp only [hx] at h1
  have h2 : ∀ z, ExteriorAlgebra.map L (ExteriorAlgebra.map Ψ.lin z) = z := by
    intro z
    rw [← AlgHom.comp_apply, ExteriorAlgebra.map_comp_map,
      show L.comp Ψ.lin = LinearMap.id from LinearMap.ext hL, ExteriorAlgebra.map_id]
    rfl
  rw [h2, h2] at h1
  exact (toExt h).injective h1

end Emb
end Spec

namespace GA
open Spec (Emb)
variable {n m : ℕ} {R : Type*} [CommRing R] [DecidableEq R] [Invertible (2 : R)]
  {h : Matrix (Fin m) (Fin m) R} {g : Matrix (Fin n) (Fin n) R}

/-- The library's Gram matrix of vectors. -/
theorem gram_vectors (hs : g.IsSymm) (f : Fin m → Fin n → R) :
    gram g (fun i => Mv.vector (f i)) = Spec.gramOf g f := by
  ext i j
  rcases subsingleton_or_nontrivial R with hR | hR
  · exact Subsingleton.elim _ _
  have hr := Rep.dot hs (Rep.vector (g := g) (f i)) (Rep.vector (f j))
  have h1 := Spec.hestenesDot_vec hs (f i) (f j)
  have h2 := hr.congr h1
  have h3 := h2.scalar_of (Spec.homogeneous_algebraMap (g := g) _).grade_eq
  rw [gram, Spec.gramOf, Matrix.of_apply, Matrix.of_apply]
  exact h3

theorem gramOf_symm (hs : g.IsSymm) (f : Fin m → Fin n → R) : (Spec.gramOf g f).IsSymm := by
  rw [Spec.gramOf_eq]
  ext i j
  rw [Matrix.transpose_mul, Matrix.transpose_mul, Matrix.transpose_transpose, hs, Matrix.mul_assoc]

theorem frameBlade_rep (hs : g.IsSymm) (f : Fin m → Fin n → R) (l : List (Fin m)) :
    Rep g (frameBlade g (fun i => Mv.vector (f i)) l) (Spec.wedgeL g (l.map f)) := by
  have : ∀ (l : List (Fin m)) (A : Mv R n) (L : List (Fin n → R)), Rep g A (Spec.wedgeL g L) →
      Rep g (l.foldl (fun X i => X.wedge g (Mv.vector (f i))) A) (Spec.wedgeL g (L ++ l.map f)) := by
    intro l
    induction l with
    | nil => intro A L hA; simpa using hA
    | cons i l ih =>
      intro A L hA
      have h1 := ih _ (L ++ [f i]) ((Rep.wedge hs hA (Rep.vector (f i))).congr (by
        rw [Spec.wedgeL_append, Spec.wedgeL_cons, Spec.wedgeL_nil, Spec.wedge_one]))
      rw [List.append_assoc, List.singleton_append] at h1
      exact h1
  exact this l (Mv.scalarMv 1) [] ((Rep.scalarMv 1).congr (map_one _))

theorem rewrite_rep (hs : g.IsSymm) (f : Fin m → Fin n → R) {A : Mv R m} {x : Spec.Cl (Spec.gramOf g f)}
    (hA : Rep (Spec.gramOf g f) A x) :
    Rep g (A.rewriteIn g fun i => Mv.vector (f i)) ((Spec.emb g f).hom x) := by
  have key : ∀ (E : Expr R m), Valid E → ∀ (X : Mv R n) (y : Spec.Cl g), Rep g X y →
      Rep g (E.foldl (fun X t => X.add g ((match t.2 with
        | .blade l => frameBlade g (fun i => Mv.vector (f i)) l
        | _ => Mv.ofExpr errorE).smul t.1)) X)
        (y + (Spec.emb g f).hom (den (Spec.gramOf g f) E)) := by
    intro E
    induction E with
    | nil => intro _ X y hX; exact hX.congr (by simp [den])
    | cons t E ih =>
      intro hE X y hX
      obtain ⟨l, hl, _⟩ := hE t (List.mem_cons_self ..)
      rw [List.foldl_cons]
      have h1 : Rep g (X.add g ((match t.2 with
        | .blade l => frameBlade g (fun i => Mv.vector (f i)) l
        | _ => Mv.ofExpr errorE).smul t.1)) (y + t.1 • (Spec.emb g f).hom (Spec.blade _ l)) := by
        rw [hl]
        refine Rep.add hs hX (Rep.smul _ ((frameBlade_rep hs f l).congr ?_))
        rw [(Spec.emb g f).blade]
        congr 2
        funext i
        exact (Spec.combLin_single f i).symm
      refine (ih (fun u hu => hE u (List.mem_cons_of_mem _ hu)) _ _ h1).congr ?_
      rw [den_eq_lin, den_eq_lin, lin_cons, map_add, map_smul, hl, add_assoc]
      rfl
  refine (key A.obj hA.valid Mv.zero 0 Rep.zero).congr ?_
  rw [hA.den, zero_add]

theorem scalar_emb (Ψ : Emb h g) {A : Mv R m} {B : Mv R n} {x : Spec.Cl h} (hA : Rep h A x)
    (hB : Rep g B (Ψ.hom x)) : B.scalar = A.scalar := by
  rcases subsingleton_or_nontrivial R with hR | hR
  · exact Subsingleton.elim _ _
  · refine hB.scalar_of ?_
    rw [← Ψ.grade, ← hA.scalar, AlgHom.commutes]

/-- A calculation in both algebras: the meaning of one is the image of the meaning of the other. -/
theorem calc_emb (Ψ : Emb h g) (hs : g.IsSymm) (hs' : h.IsSymm) {a : ℕ → Mv R m} {b : ℕ → Mv R n}
    {x : ℕ → Spec.Cl h} (ha : ∀ i, Rep h (a i) (x i)) (hb : ∀ i, Rep g (b i) (Ψ.hom (x i)))
    (p : Calc R) :
    Rep h (p.run h a) (p.value h x) ∧ Rep g (p.run g b) (Ψ.hom (p.value h x)) := by
  refine ⟨calc_value hs' ha p, (calc_value hs hb p).congr ?_⟩
  clear ha hb
  induction p with
  | var i => rfl
  | const c => exact (AlgHom.commutes _ _).symm
  | add p q hp hq => simp only [Calc.value, hp, hq, map_add]
  | sub p q hp hq => simp only [Calc.value, hp, hq, map_sub]
  | neg p hp => simp only [Calc.value, hp, map_neg]
  | mul p q hp hq => simp only [Calc.value, hp, hq, map_mul]
  | wedge p q hp hq => simp only [Calc.value, hp, hq, Ψ.wedge]
  | dot p q hp hq => simp only [Calc.value, hp, hq, Spec.hestenesDot, Ψ.gradedProduct]
  | left p q hp hq => simp only [Calc.value, hp, hq, Spec.leftContraction, Ψ.gradedProduct]
  | right p q hp hq => simp only [Calc.value, hp, hq, Spec.rightContraction, Ψ.gradedProduct]
  | anti p q hp hq => simp only [Calc.value, hp, hq, map_mul, map_add, map_smul]
  | comm p q hp hq => simp only [Calc.value, hp, hq, map_mul, map_sub, map_smul]
  | pow p k hp => simp only [Calc.value, hp, map_pow]
  | grade p r hp => simp only [Calc.value, hp, Ψ.grade]
  | even p hp => simp only [Calc.value, hp, map_add, map_smul, Ψ.involute]
  | odd p hp => simp only [Calc.value, hp, map_sub, map_smul, Ψ.involute]
  | rev p hp => simp only [Calc.value, hp, Ψ.reverse]
  | gInvol p hp => simp only [Calc.value, hp, Ψ.involute]
  | ccon p hp => simp only [Calc.value, hp, Ψ.reverse, Ψ.involute]
  | scaled p q hp hq => simp only [Calc.value, hp, hq, map_mul, Ψ.grade]
  | sp p q hp hq => simp only [Calc.value, hp, hq, map_mul, Ψ.grade]
  | qform p hp => simp only [Calc.value, hp, map_mul, Ψ.grade, Ψ.reverse]

end GA
