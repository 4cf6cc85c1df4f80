import Verif.Props.C42
import Verif.Props.C60
import Verif.Props.C21Inverse

/-!
# C122: curvature

`curvature X i j A` is `A.diff(x_j).diff(x_i) - A.diff(x_i).diff(x_j)`: the difference of the two
orders of taking the derivatives of a multivector field by the coordinates `i` and `j`.
`X = Fields.ofMetric D g0 N conn` is the algebra constructed with coordinates `Fin n` and metric tensor
`g0` (normalised if `N = some e_norm`); the tangent vector of coordinate `k` is
`Mv.vector (Pi.single k (scaleOf N k))`, the `k`-th basis vector times its norm.
-/

set_option linter.unusedSectionVars false
set_option maxRecDepth 10000

namespace GA
variable {n : ℕ} {K : Type*} [Field K] [DecidableEq K] [Invertible (2 : K)]

/-- `A.diff(x_j).diff(x_i) - A.diff(x_i).diff(x_j)`. -/
def curvature (X : Fields (Fin n) K n) (i j : Fin n) (A : Mv K n) : Mv K n :=
  ((A.diffN X j 1).diffN X i 1).sub X.g ((A.diffN X i 1).diffN X j 1)

section algebra
variable {g0 : Matrix (Fin n) (Fin n) K} {D : Fin n → Derivation ℤ K K} {N : Option (Fin n → K)}
  {conn : Option (Fin n → Fin n → Expr K n)}

/-- The curvature of elements of the Clifford algebra. -/
noncomputable def Spec.curv (g : Matrix (Fin n) (Fin n) K) (D : Fin n → Derivation ℤ K K)
    (Γ : Fin n → Matrix (Fin n) (Fin n) K) (i j : Fin n) (x : Spec.Cl g) : Spec.Cl g :=
  Spec.deriv g (D i) (Γ i) (Spec.deriv g (D j) (Γ j) x) -
    Spec.deriv g (D j) (Γ j) (Spec.deriv g (D i) (Γ i) x)

theorem curvature_rep {Γ : Fin n → Matrix (Fin n) (Fin n) K}
    (hs : g0.IsSymm) (hc : IsConnection (currentMetric N g0) conn Γ) (i j : Fin n) {A : Mv K n}
    {x : Spec.Cl (currentMetric N g0)} (hA : Rep (currentMetric N g0) A x) :
    Rep (currentMetric N g0) (curvature (Fields.ofMetric (fun i => D i) g0 N conn) i j A)
      (Spec.curv (currentMetric N g0) D Γ i j x) := by
  have hsc := currentMetric_symm hs N
  have hd : ∀ (i : Fin n) {A : Mv K n} {x : Spec.Cl (currentMetric N g0)}, Rep (currentMetric N g0) A x →
      Rep (currentMetric N g0) (A.diffN (Fields.ofMetric (fun i => D i) g0 N conn) i 1)
        (Spec.deriv (currentMetric N g0) (D i) (Γ i) x) := fun i _ _ hA =>
    diffN_rep (X := Fields.ofMetric (fun i => D i) g0 N conn) hsc (fun _ => rfl) (fun _ => rfl) hc i 1 hA
  exact Rep.sub hsc (hd i (hd j hA)) (hd j (hd i hA))

section spec
variable {g : Matrix (Fin n) (Fin n) K} {Γ : Fin n → Matrix (Fin n) (Fin n) K}

theorem Spec.curv_add (i j : Fin n) (x y : Spec.Cl g) :
    Spec.curv g D Γ i j (x + y) = Spec.curv g D Γ i j x + Spec.curv g D Γ i j y := by
  simp only [Spec.curv, Spec.deriv_add]; abel

theorem Spec.curv_smul (hD : ∀ i j f, D i (D j f) = D j (D i f)) (i j : Fin n) (f : K) (x : Spec.Cl g) :
    Spec.curv g D Γ i j (f • x) = f • Spec.curv g D Γ i j x := by
  simp only [Spec.curv, Spec.deriv_add, Spec.deriv_smul, smul_sub, hD i j f]; abel

theorem Spec.curv_opS (hs : g.IsSymm) (hc : ∀ i, Spec.Compatible g (D i) (Γ i)) (op : ProdOp) (i j : Fin n)
    (x y : Spec.Cl g) : Spec.curv g D Γ i j (opS g op x y) =
      opS g op (Spec.curv g D Γ i j x) y + opS g op x (Spec.curv g D Γ i j y) := by
  have hn : ∀ a b : Spec.Cl g, opS g op (-a) b = - opS g op a b := fun a b => by
    rw [← neg_one_smul K a, opS_smul_left, neg_one_smul]
  have hn' : ∀ a b : Spec.Cl g, opS g op a (-b) = - opS g op a b := fun a b => by
    rw [← neg_one_smul K b, opS_smul_right, neg_one_smul]
  simp only [Spec.curv, opS_deriv hs (hc i), opS_deriv hs (hc j), Spec.deriv_add, sub_eq_add_neg,
    opS_add_left, opS_add_right, hn, hn']
  abel

theorem Spec.curv_algebraMap (hD : ∀ i j f, D i (D j f) = D j (D i f)) (i j : Fin n) (f : K) :
    Spec.curv g D Γ i j (algebraMap K _ f) = 0 := by
  simp only [Spec.curv, Spec.deriv_algebraMap, hD i j f, sub_self]

theorem Spec.curv_grade (i j : Fin n) (r : ℕ) (x : Spec.Cl g) :
    Spec.curv g D Γ i j (Spec.grade g r x) = Spec.grade g r (Spec.curv g D Γ i j x) := by
  simp only [Spec.curv, Spec.deriv_grade, map_sub]

/-- The curvature of a vector. -/
noncomputable def Spec.curvVec (D : Fin n → Derivation ℤ K K) (Γ : Fin n → Matrix (Fin n) (Fin n) K)
    (i j : Fin n) (v : Fin n → K) : Fin n → K :=
  Spec.dvec (D i) (Γ i) (Spec.dvec (D j) (Γ j) v) - Spec.dvec (D j) (Γ j) (Spec.dvec (D i) (Γ i) v)

theorem Spec.curv_vec (i j : Fin n) (v : Fin n → K) :
    Spec.curv g D Γ i j (Spec.vec g v) = Spec.vec g (Spec.curvVec D Γ i j v) := by
  simp only [Spec.curv, Spec.deriv_vec, Spec.curvVec]
  exact (map_sub _ _ _).symm

theorem Spec.curv_bianchi {t : Fin n → Fin n → K}
    (ht : ∀ i j, Spec.dvec (D i) (Γ i) (t j) = Spec.dvec (D j) (Γ j) (t i)) (i j k : Fin n) :
    Spec.curv g D Γ i j (Spec.vec g (t k)) + Spec.curv g D Γ j k (Spec.vec g (t i)) +
      Spec.curv g D Γ k i (Spec.vec g (t j)) = 0 := by
  simp only [Spec.curv, Spec.deriv_vec, ht j k, ht i j, ht k i]
  abel

theorem Spec.curvVec_skew (hs : g.IsSymm) (hc : ∀ i, Spec.Compatible g (D i) (Γ i))
    (hD : ∀ i j f, D i (D j f) = D j (D i f)) (i j : Fin n) (a b : Fin n → K) :
    Spec.ip g (Spec.curvVec D Γ i j a) b = - Spec.ip g (Spec.curvVec D Γ i j b) a := by
  have := Spec.curv_opS (D := D) (Γ := Γ) hs hc .inner i j (Spec.vec g a) (Spec.vec g b)
  simp only [opS] at this
  rw [Spec.hestenesDot_vec_ip, Spec.curv_algebraMap hD, Spec.curv_vec, Spec.curv_vec,
    Spec.hestenesDot_vec_ip, Spec.hestenesDot_vec_ip, ← map_add] at this
  have h0 := algebraMap_inj g ((map_zero _).trans this)
  rw [Spec.ip_comm (Spec.curvVec D Γ i j b) a]
  exact eq_neg_of_add_eq_zero_left h0.symm

theorem Spec.ip_pairs {t : Fin n → Fin n → K} (hs : g.IsSymm)
    (hc : ∀ i, Spec.Compatible g (D i) (Γ i)) (hD : ∀ i j f, D i (D j f) = D j (D i f))
    (ht : ∀ i j, Spec.dvec (D i) (Γ i) (t j) = Spec.dvec (D j) (Γ j) (t i)) (i j k l : Fin n) :
    Spec.ip g (Spec.curvVec D Γ i j (t k)) (t l) = Spec.ip g (Spec.curvVec D Γ k l (t i)) (t j) := by
  have hadd : ∀ u v w : Fin n → K, Spec.ip g (u + v) w = Spec.ip g u w + Spec.ip g v w := fun u v w => by
    rw [Spec.ip_comm, Spec.ip, map_add, ← Spec.ip, ← Spec.ip, Spec.ip_comm w u, Spec.ip_comm w v]
  have hz : ∀ w : Fin n → K, Spec.ip g 0 w = 0 := fun w => by
    rw [Spec.ip_comm, Spec.ip, map_zero]
  have hb : ∀ i j k l, Spec.ip g (Spec.curvVec D Γ i j (t k)) (t l) +
      Spec.ip g (Spec.curvVec D Γ j k (t i)) (t l) + Spec.ip g (Spec.curvVec D Γ k i (t j)) (t l) = 0 := by
    intro i j k l
    have e : Spec.curvVec D Γ i j (t k) + Spec.curvVec D Γ j k (t i) + Spec.curvVec D Γ k i (t j) = 0 := by
      simp only [Spec.curvVec, ht j k, ht i j, ht k i]; abel
    rw [← hadd, ← hadd, e, hz]
  have hk := fun i j k l => Spec.curvVec_skew hs hc hD i j (t k) (t l)
  have hij : ∀ i j k l, Spec.ip g (Spec.curvVec D Γ i j (t k)) (t l) =
      - Spec.ip g (Spec.curvVec D Γ j i (t k)) (t l) := by
    intro i j k l
    have e : Spec.curvVec D Γ i j (t k) + Spec.curvVec D Γ j i (t k) = 0 := by
      simp only [Spec.curvVec]; abel
    have := hadd (Spec.curvVec D Γ i j (t k)) (Spec.curvVec D Γ j i (t k)) (t l)
    rw [e, hz] at this
    exact eq_neg_of_add_eq_zero_left this.symm
  generalize hR : (fun i j k l => Spec.ip g (Spec.curvVec D Γ i j (t k)) (t l)) = R at *
  have hR' : ∀ i j k l, Spec.ip g (Spec.curvVec D Γ i j (t k)) (t l) = R i j k l :=
    fun i j k l => by rw [← hR]
  simp only [hR'] at hb hk hij ⊢
  have h2 : (2 : K) ≠ 0 := (isUnit_of_invertible (2 : K)).ne_zero
  have key : 2 * (R i j k l - R k l i j) = 0 := by
    have b1 := hb i j k l
    have b2 := hb j k l i
    have b3 := hb k l i j
    have b4 := hb l i j k
    have e1 := hk j k l i
    have e2 := hk k l j i
    have e3 := hk i j l k
    have e4 := hij l i j k
    have e5 := hij l i k j
    have e6 := hk i l k j
    have e7 := hij k i j l
    have e8 := hk i k l j
    have e9 := hij l j k i
    have e10 := hk j l k i
    linear_combination b1 + b2 - b3 - b4 - e1 - e2 + e3 + e4 + e5 - e6 - e7 + e8 - e9 + e10
  exact sub_eq_zero.mp ((mul_eq_zero.mp key).resolve_left h2)

end spec

variable (hs : g0.IsSymm)
  (hN : ∀ N', N = some N' → ∀ i, N' i ^ 2 = g0 i i ∨ N' i ^ 2 = - g0 i i)
  (h : connOf (fun i => D i) g0 N = some conn) (hD : ∀ i j f, D i (D j f) = D j (D i f))

include hs hN h

/-- C122: curvature is linear over the scalar fields, although derivatives are not. -/
theorem C122_linear (hD : ∀ i j f, D i (D j f) = D j (D i f)) (i j : Fin n) (f : K) {A B : Mv K n}
    (hA : A.WF (currentMetric N g0)) (hA' : A.isBladeRep = true)
    (hB : B.WF (currentMetric N g0)) (hB' : B.isBladeRep = true) :
    (curvature (Fields.ofMetric (fun i => D i) g0 N conn) i j ((A.smul f).add (currentMetric N g0) B)).eq
      (currentMetric N g0)
      (((curvature (Fields.ofMetric (fun i => D i) g0 N conn) i j A).smul f).add (currentMetric N g0)
        (curvature (Fields.ofMetric (fun i => D i) g0 N conn) i j B)) = true := by
  have hsc := currentMetric_symm hs N
  obtain ⟨Γ, hc, hcomp⟩ := connOf_spec hs D hN h
  have rA := Rep.of_wf hA hA'
  have rB := Rep.of_wf hB hB'
  rw [(curvature_rep hs hc i j (Rep.add hsc (rA.smul f) rB)).eq_iff hsc
    (Rep.add hsc ((curvature_rep hs hc i j rA).smul f) (curvature_rep hs hc i j rB)),
    Spec.curv_add, Spec.curv_smul hD]

/-- C122: the curvature of a scalar field is zero. -/
theorem C122_scalar (hD : ∀ i j f, D i (D j f) = D j (D i f)) (i j : Fin n) (f : K) :
    (curvature (Fields.ofMetric (fun i => D i) g0 N conn) i j (Mv.scalarMv f)).eq (currentMetric N g0)
      Mv.zero = true := by
  have hsc := currentMetric_symm hs N
  obtain ⟨Γ, hc, hcomp⟩ := connOf_spec hs D hN h
  rw [(curvature_rep hs hc i j (Rep.scalarMv f)).eq_iff hsc Rep.zero, Spec.curv_algebraMap hD]

/-- C122: the product rule of curvature, for `*`, `^`, `|`, `<` and `>`. -/
theorem C122_product (op : ProdOp) (i j : Fin n) {A B : Mv K n}
    (hA : A.WF (currentMetric N g0)) (hA' : A.isBladeRep = true)
    (hB : B.WF (currentMetric N g0)) (hB' : B.isBladeRep = true) :
    (curvature (Fields.ofMetric (fun i => D i) g0 N conn) i j (Mv.mulOp (currentMetric N g0) op A B)).eq
      (currentMetric N g0)
      ((Mv.mulOp (currentMetric N g0) op (curvature (Fields.ofMetric (fun i => D i) g0 N conn) i j A) B).add
        (currentMetric N g0)
        (Mv.mulOp (currentMetric N g0) op A (curvature (Fields.ofMetric (fun i => D i) g0 N conn) i j B))) =
      true := by
  have hsc := currentMetric_symm hs N
  obtain ⟨Γ, hc, hcomp⟩ := connOf_spec hs D hN h
  have rA := Rep.of_wf hA hA'
  have rB := Rep.of_wf hB hB'
  rw [(curvature_rep hs hc i j (mulOp_rep hsc op rA rB)).eq_iff hsc
    (Rep.add hsc (mulOp_rep hsc op (curvature_rep hs hc i j rA) rB)
      (mulOp_rep hsc op rA (curvature_rep hs hc i j rB))), Spec.curv_opS hsc hcomp]

/-- C122: curvature keeps grades. -/
theorem C122_grade (i j : Fin n) (r : ℕ) {A : Mv K n}
    (hA : A.WF (currentMetric N g0)) (hA' : A.isBladeRep = true) :
    (curvature (Fields.ofMetric (fun i => D i) g0 N conn) i j (A.getGrade r)).eq (currentMetric N g0)
      ((curvature (Fields.ofMetric (fun i => D i) g0 N conn) i j A).getGrade r) = true := by
  have hsc := currentMetric_symm hs N
  obtain ⟨Γ, hc, hcomp⟩ := connOf_spec hs D hN h
  have rA := Rep.of_wf hA hA'
  rw [(curvature_rep hs hc i j (rA.getGrade r)).eq_iff hsc ((curvature_rep hs hc i j rA).getGrade r),
    Spec.curv_grade]

/-- C122: curvature is skew in its two coordinates. -/
theorem C122_swap (i j : Fin n) {A : Mv K n}
    (hA : A.WF (currentMetric N g0)) (hA' : A.isBladeRep = true) :
    (curvature (Fields.ofMetric (fun i => D i) g0 N conn) i j A).eq (currentMetric N g0)
      (curvature (Fields.ofMetric (fun i => D i) g0 N conn) j i A).neg = true := by
  have hsc := currentMetric_symm hs N
  obtain ⟨Γ, hc, hcomp⟩ := connOf_spec hs D hN h
  have rA := Rep.of_wf hA hA'
  rw [(curvature_rep hs hc i j rA).eq_iff hsc (curvature_rep hs hc j i rA).neg]
  simp only [Spec.curv, neg_sub]

/-- C122: curvature is a skew transformation of vectors: `R(a) | b = - (a | R(b))`. -/
theorem C122_skew (hD : ∀ i j f, D i (D j f) = D j (D i f)) (i j : Fin n) (a b : Fin n → K) :
    ((curvature (Fields.ofMetric (fun i => D i) g0 N conn) i j (Mv.vector a)).dot (currentMetric N g0)
      (Mv.vector b)).eq (currentMetric N g0)
      ((Mv.vector a).dot (currentMetric N g0)
        (curvature (Fields.ofMetric (fun i => D i) g0 N conn) i j (Mv.vector b))).neg = true := by
  have hsc := currentMetric_symm hs N
  obtain ⟨Γ, hc, hcomp⟩ := connOf_spec hs D hN h
  have ra := Rep.vector (g := currentMetric N g0) a
  have rb := Rep.vector (g := currentMetric N g0) b
  rw [(Rep.dot hsc (curvature_rep hs hc i j ra) rb).eq_iff hsc
    (Rep.dot hsc ra (curvature_rep hs hc i j rb)).neg]
  have := Spec.curv_opS (D := D) (Γ := Γ) hsc hcomp .inner i j (Spec.vec (currentMetric N g0) a)
    (Spec.vec (currentMetric N g0) b)
  simp only [opS] at this
  rw [Spec.hestenesDot_vec_ip, Spec.curv_algebraMap hD] at this
  exact eq_neg_of_add_eq_zero_left this.symm

/-- C122: the second Bianchi identity. -/
theorem C122_bianchi_second (i j k : Fin n) {A : Mv K n}
    (hA : A.WF (currentMetric N g0)) (hA' : A.isBladeRep = true) :
    let X := Fields.ofMetric (fun i => D i) g0 N conn
    let term := fun i j k => ((curvature X j k A).diffN X i 1).sub (currentMetric N g0)
      (curvature X j k (A.diffN X i 1))
    (((term i j k).add (currentMetric N g0) (term j k i)).add (currentMetric N g0) (term k i j)).eq
      (currentMetric N g0) Mv.zero = true := by
  have hsc := currentMetric_symm hs N
  obtain ⟨Γ, hc, hcomp⟩ := connOf_spec hs D hN h
  have rA := Rep.of_wf hA hA'
  intro X term
  have hd : ∀ (i : Fin n) {A : Mv K n} {x : Spec.Cl (currentMetric N g0)}, Rep (currentMetric N g0) A x →
      Rep (currentMetric N g0) (A.diffN X i 1) (Spec.deriv (currentMetric N g0) (D i) (Γ i) x) :=
    fun i _ _ hA => diffN_rep (X := X) hsc (fun _ => rfl) (fun _ => rfl) hc i 1 hA
  have ht : ∀ i j k, Rep (currentMetric N g0) (term i j k) _ := fun i j k =>
    Rep.sub hsc (hd i (curvature_rep hs hc j k rA)) (curvature_rep hs hc j k (hd i rA))
  rw [(Rep.add hsc (Rep.add hsc (ht i j k) (ht j k i)) (ht k i j)).eq_iff hsc Rep.zero]
  simp only [Spec.curv, Spec.deriv_sub]
  abel

variable {l : List (Mv K n)} (hO : N.isSome → isOrtho g0 = true) (hl : gradVecs g0 N = some l)

include hO hl

/-- C122: the first Bianchi identity for the tangent vectors of the coordinates. -/
theorem C122_bianchi (i j k : Fin n) :
    (((curvature (Fields.ofMetric (fun i => D i) g0 N conn) i j
        (Mv.vector (Pi.single k (scaleOf N k)))).add (currentMetric N g0)
      (curvature (Fields.ofMetric (fun i => D i) g0 N conn) j k
        (Mv.vector (Pi.single i (scaleOf N i))))).add (currentMetric N g0)
      (curvature (Fields.ofMetric (fun i => D i) g0 N conn) k i
        (Mv.vector (Pi.single j (scaleOf N j))))).eq (currentMetric N g0) Mv.zero = true := by
  have hsc := currentMetric_symm hs N
  obtain ⟨Γ, hc, hcomp, ht⟩ := connOf_torsion hs D hN hl hO h
  rw [(Rep.add hsc (Rep.add hsc (curvature_rep hs hc i j (Rep.vector _))
    (curvature_rep hs hc j k (Rep.vector _))) (curvature_rep hs hc k i (Rep.vector _))).eq_iff hsc Rep.zero]
  exact Spec.curv_bianchi ht i j k

/-- C122: the symmetry of the two pairs of arguments of the curvature tensor
`R_ijkl = R_ij(t_k) | t_l`, for the tangent vectors `t_k` of the coordinates. -/
theorem C122_pairs (hD : ∀ i j f, D i (D j f) = D j (D i f)) (i j k m : Fin n) :
    ((curvature (Fields.ofMetric (fun i => D i) g0 N conn) i j
        (Mv.vector (Pi.single k (scaleOf N k)))).dot (currentMetric N g0)
      (Mv.vector (Pi.single m (scaleOf N m)))).eq (currentMetric N g0)
      ((curvature (Fields.ofMetric (fun i => D i) g0 N conn) k m
        (Mv.vector (Pi.single i (scaleOf N i)))).dot (currentMetric N g0)
      (Mv.vector (Pi.single j (scaleOf N j)))) = true := by
  have hsc := currentMetric_symm hs N
  obtain ⟨Γ, hc, hcomp, ht⟩ := connOf_torsion hs D hN hl hO h
  rw [(Rep.dot hsc (curvature_rep hs hc i j (Rep.vector _)) (Rep.vector _)).eq_iff hsc
    (Rep.dot hsc (curvature_rep hs hc k m (Rep.vector _)) (Rep.vector _))]
  simp only [Spec.curv_vec, Spec.hestenesDot_vec_ip]
  rw [Spec.ip_pairs hsc hcomp hD ht]

end algebra

/-- C122: in an algebra that is not normalised, the components of the curvature of a basis vector are
`∂_i Γ_jk^l - ∂_j Γ_ik^l + Γ_jk^m Γ_im^l - Γ_ik^m Γ_jm^l`, with the results of
`Christoffel_symbols(mode=2)`. -/
theorem C122_components {g0 : Matrix (Fin n) (Fin n) K} {D : Fin n → Derivation ℤ K K} (hs : g0.IsSymm)
    {conn : Option (Fin n → Fin n → Expr K n)} (h : connOf (fun i => D i) g0 none = some conn)
    {G H : Fin n → Fin n → Fin n → K} (h1 : christoffelSymbols (fun i => D i) g0 none 1 = some (some G))
    (h2 : christoffelSymbols (fun i => D i) g0 none 2 = some (some H)) (i j k : Fin n) :
    (curvature (Fields.ofMetric (fun i => D i) g0 none conn) i j (Mv.ofExpr (bladeE [k]))).eq g0
      (Mv.vector fun l => D i (H j k l) - D j (H i k l) +
        ∑ m, (H j k m * H i m l - H i k m * H j m l)) = true := by
  obtain ⟨Γ, hc, -⟩ := connOf_spec hs D (by simp) h
  have hf : connectFlg (fun i => D i) g0 = true := by
    by_contra hf
    rw [Bool.not_eq_true] at hf
    rw [christoffelSymbols, if_pos hf] at h1
    simp at h1
  rw [connOf, if_pos hf, Option.map_eq_some_iff] at h
  obtain ⟨de', hde, rfl⟩ := h
  have hΓ : ∀ i j k, Γ i k j = H i j k := by
    intro i j k
    have hd : Valid (de' i j) ∧ den g0 (de' i j) = Spec.vec g0 fun k => Γ i k j := hc i j
    have e := (C44_derivatives hs D h1 h2 hde i j).1
    rw [(Rep.ofExpr hd.1).eq_iff hs (Rep.vector _), hd.2] at e
    exact congrFun (vec_inj _ e) k
  have r := curvature_rep (D := D) hs hc i j (basis_rep k)
  refine (r.eq_iff hs (Rep.vector _)).mpr ?_
  rw [Spec.curv_vec]
  refine congrArg (Spec.vec g0) ?_
  funext l
  have e : ∀ i, Spec.dvec (D i) (Γ i) (Pi.single k 1) = H i k := by
    intro i
    funext l
    simp [Spec.dvec, Pi.single_apply, apply_ite (D i), hΓ]
  simp only [Spec.curvVec, e, Pi.sub_apply, Spec.dvec, hΓ, Finset.sum_sub_distrib]
  have e1 : ∀ i j, ∑ m, H i m l * H j k m = ∑ m, H j k m * H i m l := fun i j =>
    Finset.sum_congr rfl fun m _ => mul_comm _ _
  rw [e1, e1]
  ring

/-! ### The hypotheses are met, and curvature need not vanish -/

namespace Ex

/-- The metric `diag(1, r)`. -/
noncomputable def bent : Matrix (Fin 2) (Fin 2) (Fun 2) := Matrix.diagonal ![1, coord 0]

theorem bent_symm : bent.IsSymm := Matrix.isSymm_diagonal _

theorem bent_ortho : isOrtho bent = true := by
  rw [isOrtho_iff]
  exact fun i j hij => Matrix.diagonal_apply_ne _ (ne_of_lt hij)

theorem bent_d (i j k : Fin 2) : partialD k (bent i j) = if i = 1 ∧ j = 1 ∧ k = 0 then 1 else 0 := by
  fin_cases i <;> fin_cases j <;> simp [bent, partialD_coord]

theorem bent_conn : ∃ d, connOf (fun i => partialD i) bent none = some (some d) := by
  obtain ⟨rb, hrb⟩ := rBasis_isSome (g := currentMetric none bent) bent_ortho fun i => by
    have := coord_ne_zero (n := 2) 0
    fin_cases i <;> simp [currentMetric, bent, this]
  refine ⟨deEntry (fun i => partialD i) bent none rb, ?_⟩
  have hf : connectFlg (fun i => partialD i) bent = true := by
    by_contra h
    rw [Bool.not_eq_true, connectFlg_false] at h
    have := h 1 1 0
    rw [bent_d, if_pos ⟨rfl, rfl, rfl⟩] at this
    exact one_ne_zero this
  rw [connOf, if_pos hf, de, if_neg (by simp [bent_ortho]), if_neg (by simp), hrb]
  simp [bent_ortho]

theorem bent_grad : ∃ l, gradVecs bent none = some l :=
  Option.isSome_iff_exists.mp (C60_exists bent_symm
    (by simp [bent, Matrix.det_diagonal, coord_ne_zero]) (by simp) (by simp))

/-- C122: a metric with curvature: `diag(1, r)`. -/
theorem bent_curved {conn : Option (Fin 2 → Fin 2 → Expr (Fun 2) 2)}
    (h : connOf (fun i => partialD i) bent none = some conn) :
    (curvature (Fields.ofMetric (fun i => partialD i) bent none conn) 0 1 (Mv.vector (Pi.single 1 1))).eq
      bent Mv.zero = false := by
  obtain ⟨l, hl⟩ := bent_grad
  obtain ⟨Γ, hc, hcomp, ht⟩ := connOf_torsion bent_symm partialD (by simp) hl (by simp) h
  rw [← Bool.not_eq_true]
  intro h0
  have h1 := ((curvature_rep (D := partialD) bent_symm hc 0 1 (Rep.vector (Pi.single 1 1))).eq_iff
    (currentMetric_symm bent_symm none) Rep.zero).mp h0
  rw [Spec.curv_vec] at h1
  have hz : Spec.vec (currentMetric none bent) 0 = 0 := map_zero _
  have h2 := congrFun (vec_inj _ (h1.trans hz.symm)) 0
  have hb : currentMetric none bent = bent := rfl
  have c := fun i j k => hcomp i j k
  simp only [hb, bent_d] at c
  have t := fun i j k => congrFun (ht i j) k
  have c000 := c 0 0 0
  have c011 := c 0 1 1
  have c111 := c 1 1 1
  have c101 := c 1 0 1
  have c100 := c 1 0 0
  have t0 := t 0 1 0
  have t1 := t 0 1 1
  simp [Spec.dvec, Spec.curvVec, Fin.sum_univ_two, bent, scaleOf, Pi.single_apply]
    at c000 c011 c111 c101 c100 t0 t1 h2
  have two : (2 : Fun 2) ≠ 0 := two_ne_zero
  have e0 : Γ 0 0 0 = 0 := (mul_eq_zero.mp (by linear_combination -c000 : (2 : Fun 2) * Γ 0 0 0 = 0)).resolve_left two
  have e1 : Γ 1 0 0 = 0 := (mul_eq_zero.mp (by linear_combination -c100 : (2 : Fun 2) * Γ 1 0 0 = 0)).resolve_left two
  have e2 : Γ 0 0 1 = 0 := t0.trans e1
  have e3 : 2 * Γ 1 0 1 = -1 := by
    rw [t1] at c011
    linear_combination -2 * c101 + c011
  have e4 : partialD 0 (Γ 1 0 1) = 0 := by
    have := congrArg (partialD 0) e3
    rw [two_mul, map_add, map_neg, Derivation.map_one_eq_zero, neg_zero, ← two_mul] at this
    exact (mul_eq_zero.mp this).resolve_left two
  rw [e0, e1, e2, e4, map_zero] at h2
  have e5 : Γ 1 0 1 * Γ 0 1 1 = 0 := by linear_combination -h2
  exact one_ne_zero (α := Fun 2) (by linear_combination c011 - 4 * coord 0 * e5 + 2 * Γ 0 1 1 * coord 0 * e3)

/-- The hypotheses of C122 are met. -/
example : ∃ conn l, connOf (fun i => partialD i) bent none = some conn ∧ gradVecs bent none = some l ∧
    (∀ i j f, partialD (n := 2) i (partialD j f) = partialD j (partialD i f)) ∧
    (curvature (Fields.ofMetric (fun i => partialD i) bent none conn) 0 1 (Mv.vector (Pi.single 1 1))).eq
      bent Mv.zero = false := by
  obtain ⟨d, hd⟩ := bent_conn
  obtain ⟨l, hl⟩ := bent_grad
  exact ⟨_, l, hd, hl, partialD_comm, bent_curved hd⟩

/-- The hypotheses of `C122_components` are met. -/
example : ∃ G H, christoffelSymbols (fun i => partialD i) bent none 1 = some (some G) ∧
    christoffelSymbols (fun i => partialD i) bent none 2 = some (some H) := by
  have hf : connectFlg (fun i => partialD i) bent ≠ false := by
    intro h
    rw [connectFlg_false] at h
    have := h 1 1 0
    rw [bent_d, if_pos ⟨rfl, rfl, rfl⟩] at this
    exact one_ne_zero this
  obtain ⟨gi, hgi⟩ := (C22_defined (g := currentMetric none bent) bent_symm).mpr
    (by simp [currentMetric, bent, Matrix.det_diagonal, coord_ne_zero])
  refine ⟨_, fun i j k => ∑ l, gamma1 (fun i => partialD i) bent i j l * gi l k,
    by rw [christoffelSymbols, if_neg hf, if_pos rfl], ?_⟩
  rw [christoffelSymbols, if_neg hf, if_neg (by norm_num), if_pos rfl, hgi]
  rfl

end Ex
end GA
