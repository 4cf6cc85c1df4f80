import Verif.Proofs.Frame
import Verif.Props.C45
import Verif.Props.C85

/-!
# C90: calculations do not depend on the basis

`f 0, …, f (m-1)` are vectors of the algebra of the metric `g`; they may be dependent, and there may be
more or fewer than `n`.  `h` is the metric tensor of the algebra that has them as basis vectors, the
matrix of their inner products (`gram`).  `A.rewriteIn g F` writes a multivector `A` of the new algebra in
the old one by replacing every basis vector by the vector it stands for (`Spec/Frame`).  `p.run` is the
result of the calculation `p` (`Spec/Program`).
-/

set_option linter.unusedSectionVars false
set_option maxRecDepth 10000

namespace GA
variable {n m : ℕ} {R : Type*} [CommRing R] [DecidableEq R] [Invertible (2 : R)]
  {g : Matrix (Fin n) (Fin n) R} {f : Fin m → Fin n → R} {h : Matrix (Fin m) (Fin m) R}
  {a : ℕ → Mv R m}

/-- C90: the matrix of inner products is symmetric, so the new algebra can be made. -/
theorem C90_symmetric (hs : g.IsSymm) (f : Fin m → Fin n → R) :
    (gram g fun i => Mv.vector (f i)).IsSymm := by
  rw [gram_vectors hs]
  exact gramOf_symm hs f

/-- C90: it does not matter whether a calculation is done in the new algebra and the result is rewritten
in the old one, or the given multivectors are rewritten and the calculation is done in the old one. -/
theorem C90_calculation (hs : g.IsSymm) (hh : h = gram g fun i => Mv.vector (f i))
    (ha : ∀ i, (a i).WF h) (hb : ∀ i, (a i).isBladeRep = true) (p : Calc R) :
    ((p.run h a).rewriteIn g fun i => Mv.vector (f i)).eq g
      (p.run g fun i => (a i).rewriteIn g fun i => Mv.vector (f i)) = true := by
  obtain rfl : h = Spec.gramOf g f := hh.trans (gram_vectors hs f)
  have hr := fun i => Rep.of_wf (ha i) (hb i)
  obtain ⟨h1, h2⟩ := calc_emb (Spec.emb g f) hs (gramOf_symm hs f) hr (fun i => rewrite_rep hs f (hr i)) p
  exact (Rep.eq_iff hs (rewrite_rep hs f h1) h2).mpr rfl

/-- C90: the two results have the same terms. -/
theorem C90_terms (hs : g.IsSymm) (hh : h = gram g fun i => Mv.vector (f i))
    (ha : ∀ i, (a i).WF h) (hb : ∀ i, (a i).isBladeRep = true) (p : Calc R) :
    ((p.run h a).rewriteIn g fun i => Mv.vector (f i)).obj.Perm
      (p.run g fun i => (a i).rewriteIn g fun i => Mv.vector (f i)).obj := by
  obtain rfl : h = Spec.gramOf g f := hh.trans (gram_vectors hs f)
  have hr := fun i => Rep.of_wf (ha i) (hb i)
  obtain ⟨h1, h2⟩ := calc_emb (Spec.emb g f) hs (gramOf_symm hs f) hr (fun i => rewrite_rep hs f (hr i)) p
  exact perm_of_val (rewrite_rep hs f h1) h2

/-- C90: scalar results are the same number in both algebras. -/
theorem C90_scalar (hs : g.IsSymm) (hh : h = gram g fun i => Mv.vector (f i))
    (ha : ∀ i, (a i).WF h) (hb : ∀ i, (a i).isBladeRep = true) (p : Calc R) :
    (p.run g fun i => (a i).rewriteIn g fun i => Mv.vector (f i)).scalar = (p.run h a).scalar := by
  obtain rfl : h = Spec.gramOf g f := hh.trans (gram_vectors hs f)
  have hr := fun i => Rep.of_wf (ha i) (hb i)
  obtain ⟨h1, h2⟩ := calc_emb (Spec.emb g f) hs (gramOf_symm hs f) hr (fun i => rewrite_rep hs f (hr i)) p
  exact scalar_emb _ h1 h2

/-- C90: an equation that holds in the new algebra holds in the old one. -/
theorem C90_equation (hs : g.IsSymm) (hh : h = gram g fun i => Mv.vector (f i))
    (ha : ∀ i, (a i).WF h) (hb : ∀ i, (a i).isBladeRep = true) (p q : Calc R)
    (he : (p.run h a).eq h (q.run h a) = true) :
    (p.run g fun i => (a i).rewriteIn g fun i => Mv.vector (f i)).eq g
      (q.run g fun i => (a i).rewriteIn g fun i => Mv.vector (f i)) = true := by
  obtain rfl : h = Spec.gramOf g f := hh.trans (gram_vectors hs f)
  have hr := fun i => Rep.of_wf (ha i) (hb i)
  obtain ⟨h1, h2⟩ := calc_emb (Spec.emb g f) hs (gramOf_symm hs f) hr (fun i => rewrite_rep hs f (hr i)) p
  obtain ⟨h3, h4⟩ := calc_emb (Spec.emb g f) hs (gramOf_symm hs f) hr (fun i => rewrite_rep hs f (hr i)) q
  refine (Rep.eq_iff hs h2 h4).mpr ?_
  rw [(Rep.eq_iff (gramOf_symm hs f) h1 h3).mp he]

/-- C90: if the coordinates of a combination of the vectors can be recovered (`L` is a left inverse of
their matrix), then an equation holds in the new algebra exactly if it holds in the old one. -/
theorem C90_equation_iff (hs : g.IsSymm) (hh : h = gram g fun i => Mv.vector (f i))
    (ha : ∀ i, (a i).WF h) (hb : ∀ i, (a i).isBladeRep = true) (p q : Calc R)
    {L : Matrix (Fin m) (Fin n) R} (hL : L * (Matrix.of f).transpose = 1) :
    (p.run h a).eq h (q.run h a) =
      (p.run g fun i => (a i).rewriteIn g fun i => Mv.vector (f i)).eq g
        (q.run g fun i => (a i).rewriteIn g fun i => Mv.vector (f i)) := by
  refine Bool.eq_iff_iff.mpr ⟨C90_equation hs hh ha hb p q, fun he => ?_⟩
  obtain rfl : h = Spec.gramOf g f := hh.trans (gram_vectors hs f)
  have hr := fun i => Rep.of_wf (ha i) (hb i)
  obtain ⟨h1, h2⟩ := calc_emb (Spec.emb g f) hs (gramOf_symm hs f) hr (fun i => rewrite_rep hs f (hr i)) p
  obtain ⟨h3, h4⟩ := calc_emb (Spec.emb g f) hs (gramOf_symm hs f) hr (fun i => rewrite_rep hs f (hr i)) q
  refine (Rep.eq_iff (gramOf_symm hs f) h1 h3).mpr ?_
  refine (Spec.emb g f).injective (L := L.mulVecLin) (fun v => ?_) ((Rep.eq_iff hs h2 h4).mp he)
  change L.mulVec (Spec.combLin f v) = v
  have : Spec.combLin f v = (Matrix.of f).transpose.mulVec v := by
    funext k
    rw [Spec.combLin_apply, Matrix.mulVec, dotProduct]
    rfl
  rw [this, Matrix.mulVec_mulVec, hL, Matrix.one_mulVec]

/-- C90: reordering the basis vectors, leaving some out or repeating some: basis vector `i` of the new
algebra is basis vector `s i` of the old one.  The metric tensor has the rows and columns selected. -/
theorem C90_selected_metric (hs : g.IsSymm) (s : Fin m → Fin n) :
    gram g (fun i => Mv.vector (Pi.single (s i) 1)) = g.submatrix s s := by
  rw [gram_vectors hs, Spec.gramOf_eq]
  ext i j
  simp [Matrix.mul_apply, Pi.single_apply]

/-- C90: the algebra with normalised basis vectors, made with `norm=True` from the numbers `N i`, is the
algebra of the vectors `e_i / N i`. -/
theorem C90_normalised_metric {K : Type*} [Field K] [DecidableEq K] [Invertible (2 : K)]
    {g : Matrix (Fin n) (Fin n) K} (hs : g.IsSymm) (N : Fin n → K) :
    gram g (fun i => Mv.vector (Pi.single i (N i)⁻¹)) = normMetric N g := by
  rw [gram_vectors hs, Spec.gramOf_eq]
  ext i j
  rw [normMetric]
  simp [Matrix.mul_apply, Pi.single_apply]
  ring

/-- C90: the algebra of a submanifold is the algebra of its tangent vectors in the base algebra, whose
components are the derivatives of the coordinates of the embedding; the metric tensor of the base algebra
is evaluated on the submanifold. -/
theorem C90_submanifold_metric {V : Type*} {D : V → R → R} {sub1 : V → R → R → R} (hs : g.IsSymm)
    {c : List V} {us : List R} {coords : Fin m → V} {gs : Matrix (Fin m) (Fin m) R}
    (hg : smMetric D sub1 g (some c) (.functions us) coords = .ok gs) :
    gs = gram (g.map (subsList sub1 (c.zip us)))
      fun i => Mv.vector fun k : Fin n => D (coords i) (us.getD k 0) := by
  have hs' : (g.map (subsList sub1 (c.zip us))).IsSymm := by
    ext i j
    change subsList sub1 _ (g j i) = subsList sub1 _ (g i j)
    rw [hs.apply i j]
  rw [gram_vectors hs', Spec.gramOf_eq]
  ext i j
  have := C45_pullback hg (Pi.single i 1) (Pi.single j 1)
  simp only [Pi.single_apply, mul_ite, mul_one, mul_zero, ite_mul, one_mul, zero_mul,
    Finset.sum_ite_eq', Finset.mem_univ, if_true] at this
  rw [this, Matrix.mul_apply, Finset.sum_comm]
  refine Finset.sum_congr rfl fun l _ => ?_
  rw [Matrix.mul_apply, Finset.sum_mul]
  rfl

/-- C90: a calculation on a submanifold can be done in the base algebra: replace every basis vector by the
tangent vector it stands for. -/
theorem C90_submanifold {V : Type*} {D : V → R → R} {sub1 : V → R → R → R} (hs : g.IsSymm)
    {c : List V} {us : List R} {coords : Fin m → V} {gs : Matrix (Fin m) (Fin m) R}
    (hg : smMetric D sub1 g (some c) (.functions us) coords = .ok gs)
    (ha : ∀ i, (a i).WF gs) (hb : ∀ i, (a i).isBladeRep = true) (p : Calc R) :
    let T : Fin m → Mv R n := fun i => Mv.vector fun k : Fin n => D (coords i) (us.getD k 0)
    let g' := g.map (subsList sub1 (c.zip us))
    ((p.run gs a).rewriteIn g' T).eq g' (p.run g' fun i => (a i).rewriteIn g' T) = true := by
  refine C90_calculation ?_ (C90_submanifold_metric hs hg) ha hb p
  ext i j
  change subsList sub1 _ (g j i) = subsList sub1 _ (g i j)
  rw [hs.apply i j]

namespace Ex

def gMink : Matrix (Fin 2) (Fin 2) ℚ := !![1, 0; 0, -1]
theorem gMink_symm : gMink.IsSymm := by ext i j; fin_cases i <;> fin_cases j <;> rfl
/-- Two null vectors of the Minkowski plane. -/
def fNull : Fin 2 → Fin 2 → ℚ := ![![1, 1], ![1, -1]]
/-- Three vectors of the Minkowski plane, so they are dependent. -/
def fThree : Fin 3 → Fin 2 → ℚ := ![![1, 1], ![1, -1], ![0, 2]]

/-- The terms of the given multivectors `2 + 3 e0 - e0^e1` and `5 e1 + e0^e1`. -/
def eNull (i : ℕ) : Expr ℚ 2 :=
  if i = 0 then [(2, .blade []), (3, .blade [0]), (-1, .blade [0, 1])]
  else [(5, .blade [1]), (1, .blade [0, 1])]
theorem eNull_valid (i : ℕ) : Valid (eNull i) := by
  rw [eNull]
  split_ifs
  · intro t ht
    simp only [List.mem_cons, List.not_mem_nil, or_false] at ht
    rcases ht with rfl | rfl | rfl
    exacts [⟨[], rfl, by decide⟩, ⟨[0], rfl, by decide⟩, ⟨[0, 1], rfl, by decide⟩]
  · intro t ht
    simp only [List.mem_cons, List.not_mem_nil, or_false] at ht
    rcases ht with rfl | rfl
    exacts [⟨[1], rfl, by decide⟩, ⟨[0, 1], rfl, by decide⟩]
def aNull (i : ℕ) : Mv ℚ 2 := Mv.ofExpr (eNull i)
theorem aNull_wf (h : Matrix (Fin 2) (Fin 2) ℚ) (i : ℕ) : (aNull i).WF h := (ofExpr_valid (eNull_valid i)).1
theorem aNull_blade (i : ℕ) : (aNull i).isBladeRep = true := (ofExpr_valid (g := gMink) (eNull_valid i)).2

/-- `A * B + (A | B) - A.qform()` -/
def pNull : Calc ℚ :=
  .sub (.add (.mul (.var 0) (.var 1)) (.dot (.var 0) (.var 1))) (.qform (.var 0))

/-- The terms `e2` and `e0 - e1` of the algebra of the three vectors. -/
def eThree (i : ℕ) : Expr ℚ 3 :=
  if i = 0 then [(1, .blade [2])] else [(1, .blade [0]), (-1, .blade [1])]
theorem eThree_valid (i : ℕ) : Valid (eThree i) := by
  rw [eThree]
  split_ifs
  · intro t ht
    simp only [List.mem_cons, List.not_mem_nil, or_false] at ht
    subst ht
    exact ⟨[2], rfl, by decide⟩
  · intro t ht
    simp only [List.mem_cons, List.not_mem_nil, or_false] at ht
    rcases ht with rfl | rfl
    exacts [⟨[0], rfl, by decide⟩, ⟨[1], rfl, by decide⟩]
def aThree (i : ℕ) : Mv ℚ 3 := Mv.ofExpr (eThree i)

end Ex

/-- The new metric has zeros on the diagonal: the new basis is oblique although the old one is
orthogonal, so the library calculates in another way. -/
example : gram Ex.gMink (fun i => Mv.vector (Ex.fNull i)) = !![0, 2; 2, 0] ∧
    isOrtho Ex.gMink = true ∧ isOrtho (!![0, 2; 2, 0] : Matrix (Fin 2) (Fin 2) ℚ) = false := by
  decide +kernel
example : (((Ex.pNull.run !![0, 2; 2, 0] Ex.aNull).rewriteIn Ex.gMink fun i => Mv.vector (Ex.fNull i)).eq
    Ex.gMink (Ex.pNull.run Ex.gMink fun i => (Ex.aNull i).rewriteIn Ex.gMink
      fun i => Mv.vector (Ex.fNull i))) = true :=
  C90_calculation Ex.gMink_symm (by decide +kernel) (Ex.aNull_wf _) Ex.aNull_blade Ex.pNull
/-- The result in both algebras. -/
example : (Ex.pNull.run !![0, 2; 2, 0] Ex.aNull).bladeCoefs = [52, -12, 30, 17] ∧
    (Ex.pNull.run Ex.gMink fun i => (Ex.aNull i).rewriteIn Ex.gMink
      fun i => Mv.vector (Ex.fNull i)).bladeCoefs = [52, 18, -42, -34] := by
  decide +kernel
/-- The null vectors have a left inverse. -/
example : (!![1/2, 1/2; 1/2, -1/2] : Matrix (Fin 2) (Fin 2) ℚ) * (Matrix.of Ex.fNull).transpose = 1 := by
  decide +kernel
/-- A calculation whose value depends on the metric. -/
example : (Ex.pNull.run Ex.gMink Ex.aNull).eq Ex.gMink (Ex.pNull.run !![0, 2; 2, 0] Ex.aNull) = false := by
  decide +kernel

/-- C90: for dependent vectors, an equation that holds in the old algebra may fail in the new one, so the
left inverse is needed: `e2` and `e0 - e1` stand for the same vector. -/
theorem C90_dependent : ∃ (f : Fin 3 → Fin 2 → ℚ) (a : ℕ → Mv ℚ 3),
    (∀ i, (a i).WF (gram Ex.gMink fun i => Mv.vector (f i))) ∧ (∀ i, (a i).isBladeRep = true) ∧
    (a 0).eq (gram Ex.gMink fun i => Mv.vector (f i)) (a 1) = false ∧
    ((a 0).rewriteIn Ex.gMink fun i => Mv.vector (f i)).eq Ex.gMink
      ((a 1).rewriteIn Ex.gMink fun i => Mv.vector (f i)) = true :=
  ⟨Ex.fThree, Ex.aThree, fun i => (ofExpr_valid (Ex.eThree_valid i)).1,
    fun i => (ofExpr_valid (g := 0) (Ex.eThree_valid i)).2, by decide +kernel, by decide +kernel⟩

/-- A submanifold that can be constructed: the paraboloid `(u, v) ↦ (u, v, u² + v²)`. -/
example : ∃ gs, smMetric (fun x : ℕ => MvPolynomial.pderiv x) polySub
    (1 : Matrix (Fin 3) (Fin 3) (MvPolynomial ℕ ℚ)) (some [0, 1, 2])
    (.functions [.X 3, .X 4, .X 3 ^ 2 + .X 4 ^ 2]) (![3, 4] : Fin 2 → ℕ) = .ok gs :=
  (C45_accepts _).mpr ⟨_, rfl, rfl, rfl⟩

end GA
