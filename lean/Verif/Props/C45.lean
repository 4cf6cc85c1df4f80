import Verif.Model.Sm
import Verif.Props.C60
import Mathlib.Algebra.MvPolynomial.Monad
import Mathlib.Algebra.MvPolynomial.PDeriv
import Mathlib.LinearAlgebra.Matrix.Notation

/-!
# C45: the metric of a submanifold

`smMetric D sub1 g cb u coords` models the metric tensor of `Sm(u, coords, ga=…)` where `g` and `cb`
are the metric tensor and the coordinates of the base algebra.  With a list of functions `u` of the
right length it is `ok`, and the entries of the metric are pulled back with the Jacobian
`J k i = D (coords i) (u k)` from the metric tensor in which the coordinates have been replaced.
-/

set_option linter.unusedSectionVars false
set_option maxRecDepth 10000

namespace GA
section ring
variable {n m : ℕ} {V K : Type*} [CommRing K]
  {D : V → K → K} {sub1 : V → K → K → K} {g : Matrix (Fin n) (Fin n) K}
  {cb : Option (List V)} {coords : Fin m → V}

theorem foldl_fin_sum (f : Fin n → K) (a : K) :
    (List.finRange n).foldl (fun s k => s + f k) a = a + ∑ k, f k := by
  have : ∀ (l : List (Fin n)) (a : K), l.foldl (fun s k => s + f k) a = a + (l.map f).sum := by
    intro l
    induction l with
    | nil => simp
    | cons i l ih => intro a; rw [List.foldl_cons, ih, List.map_cons, List.sum_cons, add_assoc]
  rw [this, ← List.ofFn_eq_map, List.sum_ofFn]

theorem smEntry_eq (cb : List V) (u : List K) (i j : Fin m) :
    smEntry D sub1 g cb u coords i j = ∑ k : Fin n, ∑ l : Fin n,
      dxdu D u coords k i * dxdu D u coords l j * subsList sub1 (cb.zip u) (g k l) := by
  rw [smEntry]
  have h : ∀ (k : Fin n) (s : K), (List.finRange n).foldl (fun s l =>
      s + dxdu D u coords k i * dxdu D u coords l j * subsList sub1 (cb.zip u) (g k l)) s =
      s + ∑ l : Fin n, dxdu D u coords k i * dxdu D u coords l j *
        subsList sub1 (cb.zip u) (g k l) := fun k s => foldl_fin_sum _ s
  rw [show (fun (s : K) (k : Fin n) => (List.finRange n).foldl (fun s l =>
      s + dxdu D u coords k i * dxdu D u coords l j * subsList sub1 (cb.zip u) (g k l)) s) =
      fun s k => s + ∑ l : Fin n, dxdu D u coords k i * dxdu D u coords l j *
        subsList sub1 (cb.zip u) (g k l) from funext fun s => funext fun k => h k s,
    foldl_fin_sum, zero_add]

theorem smMetric_some {c : List V} {us : List K} : smMetric D sub1 g (some c) (.functions us) coords =
    if us.length ≠ n then .error .dimension
    else .ok (Matrix.of (smEntry D sub1 g c us coords)) := rfl

/-- C45: the construction succeeds exactly for a list of `n` functions over a base algebra with
coordinates. -/
theorem C45_accepts (u : SmMap K n) :
    (∃ gs, smMetric D sub1 g cb u coords = .ok gs) ↔
      ∃ us, u = .functions us ∧ us.length = n ∧ cb.isSome := by
  constructor
  · rintro ⟨gs, h⟩
    cases u with
    | vector A => simp [smMetric] at h
    | functions us =>
      cases cb with
      | none =>
        exfalso
        unfold smMetric at h
        dsimp only at h
        split_ifs at h
      | some c =>
        rw [smMetric_some] at h
        split_ifs at h with hl
        exact ⟨us, rfl, by simpa using hl, rfl⟩
  · rintro ⟨us, rfl, hl, hc⟩
    obtain ⟨c, rfl⟩ := Option.isSome_iff_exists.mp hc
    exact ⟨_, by rw [smMetric_some, if_neg (by simpa using hl)]⟩

/-- C45: a list of the wrong length is a `ValueError`; a vector valued map, although documented,
always raises. -/
theorem C45_wrong_length (us : List K) (h : us.length ≠ n) :
    smMetric D sub1 g cb (.functions us) coords = .error .dimension := by
  unfold smMetric; dsimp only; rw [if_pos h]

/-- The documented second form of the argument never works. -/
theorem C45_vector_map_counterexample (A : Mv K n) :
    smMetric D sub1 g cb (.vector A) coords = .error .unboundG := rfl

/-- C45: `g_sub(a, b) = g(J a, J b)`, for all component vectors `a` and `b`, where in the base metric
`g` the coordinates are replaced by the map. -/
theorem C45_pullback {c : List V} {us : List K} {gs : Matrix (Fin m) (Fin m) K}
    (h : smMetric D sub1 g (some c) (.functions us) coords = .ok gs) (a b : Fin m → K) :
    ∑ i, ∑ j, a i * gs i j * b j =
      ∑ k : Fin n, ∑ l : Fin n, (∑ i, D (coords i) (us.getD k 0) * a i) *
        subsList sub1 (c.zip us) (g k l) * (∑ j, D (coords j) (us.getD l 0) * b j) := by
  rw [smMetric_some] at h
  split_ifs at h with hl
  have e := Except.ok.inj h
  subst e
  simp only [Matrix.of_apply, smEntry_eq, dxdu]
  have : ∀ i j : Fin m, a i * (∑ k : Fin n, ∑ l : Fin n, D (coords i) (us.getD k 0) *
      D (coords j) (us.getD l 0) * subsList sub1 (c.zip us) (g k l)) * b j =
      ∑ k : Fin n, ∑ l : Fin n, (D (coords i) (us.getD k 0) * a i) *
        subsList sub1 (c.zip us) (g k l) * (D (coords j) (us.getD l 0) * b j) := by
    intro i j
    rw [Finset.mul_sum, Finset.sum_mul]
    refine Finset.sum_congr rfl fun k _ => ?_
    rw [Finset.mul_sum, Finset.sum_mul]
    exact Finset.sum_congr rfl fun l _ => by ring
  simp only [this]
  have h2 : ∀ k l : Fin n, (∑ i, D (coords i) (us.getD k 0) * a i) *
        subsList sub1 (c.zip us) (g k l) * (∑ j, D (coords j) (us.getD l 0) * b j) =
      ∑ i, ∑ j, (D (coords i) (us.getD k 0) * a i) *
        subsList sub1 (c.zip us) (g k l) * (D (coords j) (us.getD l 0) * b j) := by
    intro k l
    rw [Finset.sum_mul, Finset.sum_mul]
    refine Finset.sum_congr rfl fun i _ => ?_
    rw [Finset.mul_sum]
  simp only [h2]
  -- the four sums commute
  calc ∑ i, ∑ j, ∑ k, ∑ l, _ = ∑ i, ∑ k, ∑ j, ∑ l, _ :=
        Finset.sum_congr rfl fun i _ => Finset.sum_comm
    _ = ∑ k, ∑ i, ∑ j, ∑ l, _ := Finset.sum_comm
    _ = ∑ k, ∑ i, ∑ l, ∑ j, _ :=
        Finset.sum_congr rfl fun k _ => Finset.sum_congr rfl fun i _ => Finset.sum_comm
    _ = ∑ k, ∑ l, ∑ i, ∑ j, _ := Finset.sum_congr rfl fun k _ => Finset.sum_comm

/-- C45: the metric of a submanifold is symmetric when the metric of the base is. -/
theorem C45_symmetric (hs : g.IsSymm) {u : SmMap K n} {gs : Matrix (Fin m) (Fin m) K}
    (h : smMetric D sub1 g cb u coords = .ok gs) : gs.IsSymm := by
  obtain ⟨us, rfl, hl, hc⟩ := (C45_accepts u).mp ⟨gs, h⟩
  obtain ⟨c, rfl⟩ := Option.isSome_iff_exists.mp hc
  rw [smMetric_some] at h
  rw [if_neg (by simpa using hl)] at h
  have e := Except.ok.inj h
  subst e
  ext i j
  rw [Matrix.transpose_apply, Matrix.of_apply, Matrix.of_apply, smEntry_eq, smEntry_eq, Finset.sum_comm]
  refine Finset.sum_congr rfl fun k _ => Finset.sum_congr rfl fun l _ => ?_
  rw [← hs.apply k l]
  ring

/-- C45: at every point (a ring homomorphism `ev` to an ordered field evaluates the expressions) at
which the base metric is positive definite and the Jacobian injective, the metric of the submanifold is
positive definite. -/
theorem C45_positive {F : Type*} [Field F] [LinearOrder F] [IsStrictOrderedRing F] (ev : K →+* F)
    {c : List V} {us : List K} {gs : Matrix (Fin m) (Fin m) K}
    (h : smMetric D sub1 g (some c) (.functions us) coords = .ok gs)
    (hg : ∀ x : Fin n → F, x ≠ 0 →
      0 < ∑ k, ∑ l, x k * ev (subsList sub1 (c.zip us) (g k l)) * x l)
    (hJ : ∀ a : Fin m → F, (∀ k : Fin n, ∑ i, ev (D (coords i) (us.getD k 0)) * a i = 0) → a = 0)
    (a : Fin m → F) (ha : a ≠ 0) : 0 < ∑ i, ∑ j, a i * ev (gs i j) * a j := by
  have hne : (fun k : Fin n => ∑ i, ev (D (coords i) (us.getD k 0)) * a i) ≠ 0 :=
    fun h0 => ha (hJ a fun k => congrFun h0 k)
  refine lt_of_lt_of_eq (hg _ hne) ?_
  -- the pull-back over `F`
  rw [smMetric_some] at h
  split_ifs at h with hl
  have hl' : us.length = n := by simpa using hl
  have e := Except.ok.inj h
  have he : ∀ i j, ev (gs i j) = ∑ k : Fin n, ∑ l : Fin n, ev (D (coords i) (us.getD k 0)) *
      ev (D (coords j) (us.getD l 0)) * ev (subsList sub1 (c.zip us) (g k l)) := by
    intro i j
    rw [← e, Matrix.of_apply, smEntry_eq, map_sum]
    refine Finset.sum_congr rfl fun k _ => ?_
    rw [map_sum]
    exact Finset.sum_congr rfl fun l _ => by rw [map_mul, map_mul]; rfl
  simp only [he, Finset.mul_sum, Finset.sum_mul]
  have hcomm : ∀ f : Fin m → Fin m → Fin n → Fin n → F,
      ∑ i, ∑ j, ∑ k, ∑ l, f i j k l = ∑ k, ∑ l, ∑ i, ∑ j, f i j k l := by
    intro f
    calc ∑ i, ∑ j, ∑ k, ∑ l, f i j k l = ∑ i, ∑ k, ∑ j, ∑ l, f i j k l :=
          Finset.sum_congr rfl fun i _ => Finset.sum_comm
      _ = ∑ k, ∑ i, ∑ j, ∑ l, f i j k l := Finset.sum_comm
      _ = ∑ k, ∑ i, ∑ l, ∑ j, f i j k l :=
          Finset.sum_congr rfl fun k _ => Finset.sum_congr rfl fun i _ => Finset.sum_comm
      _ = ∑ k, ∑ l, ∑ i, ∑ j, f i j k l := Finset.sum_congr rfl fun k _ => Finset.sum_comm
  rw [hcomm]
  refine Finset.sum_congr rfl fun k _ => Finset.sum_congr rfl fun l _ => ?_
  rw [Finset.sum_comm]
  refine Finset.sum_congr rfl fun i _ => Finset.sum_congr rfl fun j _ => ?_
  ring

end ring

section mv
variable {n m : ℕ} {V K : Type*} [CommRing K] [DecidableEq K] [Invertible (2 : K)] [Nontrivial K]
  {D : V → K → K} {sub1 : V → K → K → K} {g : Matrix (Fin n) (Fin n) K} {coords : Fin m → V}

/-- C45 in terms of multivectors: the inner product `a|b` of vectors of the submanifold is the inner
product of their images under the Jacobian. -/
theorem C45_inner_product (hs : g.IsSymm) {c : List V} {us : List K} {gs : Matrix (Fin m) (Fin m) K}
    (h : smMetric D sub1 g (some c) (.functions us) coords = .ok gs) (a b : Fin m → K) :
    let J : (Fin m → K) → Fin n → K := fun a k => ∑ i, D (coords i) (us.getD k 0) * a i
    let g' : Matrix (Fin n) (Fin n) K := g.map (subsList sub1 (c.zip us))
    ((Mv.vector a).dot gs (Mv.vector b)).scalar =
      ((Mv.vector (J a)).dot g' (Mv.vector (J b))).scalar := by
  intro J g'
  have hg' : g'.IsSymm := by
    ext i j
    change subsList sub1 _ (g j i) = subsList sub1 _ (g i j)
    rw [hs.apply i j]
  have key : ∀ {r : ℕ} {G : Matrix (Fin r) (Fin r) K} (hG : G.IsSymm) (x y : Fin r → K),
      ((Mv.vector x).dot G (Mv.vector y)).scalar = ∑ i, ∑ j, x i * G i j * y j := by
    intro r G hG x y
    refine (Rep.dot hG (Rep.vector x) (Rep.vector y)).scalar_of ?_
    rw [Spec.hestenesDot_vec_ip, grade_zero_algebraMap, Spec.ip_dot hG]
    congr 1
    rw [dotProduct]
    refine Finset.sum_congr rfl fun i _ => ?_
    rw [Matrix.mulVec, dotProduct, Finset.mul_sum]
    exact Finset.sum_congr rfl fun j _ => by ring
  rw [key (C45_symmetric hs h), key hg', C45_pullback h]
  rfl

end mv

/-! ### Polynomials: the substitution of the coordinates -/

section poly
open MvPolynomial
variable {n m : ℕ} {V R : Type*} [CommRing R] [DecidableEq V]

/-- `e.subs(x, v)` on polynomials. -/
noncomputable def polySub (x : V) (v e : MvPolynomial V R) : MvPolynomial V R :=
  bind₁ (Function.update X x v) e

/-- The map `u` as a substitution: coordinate `c k` of the base becomes `u k`. -/
noncomputable def mapSubst (c : Fin n → V) (u : Fin n → MvPolynomial V R) : V → MvPolynomial V R :=
  fun x => if h : ∃ k, c k = x then u h.choose else X x

theorem subsList_poly (pairs : List (V × MvPolynomial V R)) (hn : (pairs.map Prod.fst).Nodup)
    (hd : ∀ p ∈ pairs, ∀ q ∈ pairs, q.1 ∉ p.2.vars) (s : V → MvPolynomial V R)
    (hs : ∀ p ∈ pairs, s p.1 = p.2) (hs' : ∀ x, x ∉ pairs.map Prod.fst → s x = X x)
    (e : MvPolynomial V R) : subsList polySub pairs e = bind₁ s e := by
  induction pairs generalizing s e with
  | nil =>
    have : s = X := by funext x; exact hs' x (by simp)
    rw [this]
    simp [subsList]
  | cons p ps ih =>
    rw [List.map_cons, List.nodup_cons] at hn
    have h1 := ih hn.2 (fun q hq r hr => hd q (by simp [hq]) r (by simp [hr]))
      (fun x => if x = p.1 then X x else s x)
      (fun q hq => by
        rw [if_neg]
        · exact hs q (by simp [hq])
        · rintro h; exact hn.1 (List.mem_map.mpr ⟨q, hq, h⟩))
      (fun x hx => by
        split_ifs with h
        · rfl
        · exact hs' x (by simp [h]; simpa using hx))
    have h2 : subsList polySub (p :: ps) e = subsList polySub ps (polySub p.1 p.2 e) := rfl
    rw [h2, h1, polySub, bind₁_bind₁]
    congr 2
    funext x
    by_cases hx : x = p.1
    · subst hx
      rw [Function.update_self, hs p (by simp)]
      conv_rhs => rw [show p.2 = bind₁ X p.2 by simp]
      refine eval₂Hom_congr' rfl (fun y hy _ => ?_) rfl
      split_ifs with h
      · rfl
      · refine hs' y fun hy' => ?_
        obtain ⟨q, hq, rfl⟩ := List.mem_map.mp hy'
        exact hd p (by simp) q hq hy
    · rw [Function.update_of_ne hx, bind₁_X_right, if_neg hx]

/-- C45 for polynomial maps: when no function of the map contains a coordinate of the base, the base
metric is evaluated at the point of the map.  Missing for the full claim: maps that contain
coordinates of the base, for which it is false (`C45_shared_coordinates_counterexample`). -/
theorem C45_point_partial {c : Fin n → V} (hc : Function.Injective c)
    {u : Fin n → MvPolynomial V R} (hd : ∀ k l, c l ∉ (u k).vars) (e : MvPolynomial V R) :
    subsList polySub ((List.ofFn c).zip (List.ofFn u)) e = bind₁ (mapSubst c u) e := by
  have hz : (List.ofFn c).zip (List.ofFn u) = List.ofFn fun k => (c k, u k) := by
    refine List.ext_getElem (by simp) fun i h1 h2 => by simp
  rw [hz]
  have hch : ∀ k, mapSubst c u (c k) = u k := by
    intro k
    have h : ∃ j, c j = c k := ⟨k, rfl⟩
    rw [mapSubst, dif_pos h]
    congr 1
    exact hc h.choose_spec
  refine subsList_poly _ ?_ ?_ _ ?_ ?_ e
  · rw [List.map_ofFn]
    exact List.nodup_ofFn.mpr hc
  · intro p hp q hq
    obtain ⟨k, rfl⟩ := List.mem_ofFn.mp hp
    obtain ⟨l, rfl⟩ := List.mem_ofFn.mp hq
    exact hd k l
  · intro p hp
    obtain ⟨k, rfl⟩ := List.mem_ofFn.mp hp
    exact hch k
  · intro x hx
    rw [mapSubst, dif_neg]
    rintro ⟨k, rfl⟩
    refine hx ?_
    rw [List.map_ofFn]
    exact List.mem_ofFn.mpr ⟨k, rfl⟩


end poly

namespace Ex
open MvPolynomial

/-- A base algebra with coordinates `X 0, X 1, X 2` and metric `diag(1, (X 0)², 1)` … -/
noncomputable def smG : Matrix (Fin 3) (Fin 3) (MvPolynomial ℕ ℚ) :=
  !![1, 0, 0; 0, X 0 ^ 2, 0; 0, 0, 1]

/-- … and a surface with coordinates `X 3, X 4`. -/
noncomputable def smU : List (MvPolynomial ℕ ℚ) := [X 3, X 4, X 3 ^ 2 + X 4 ^ 2]

theorem smSubs : subsList polySub (([0, 1, 2] : List ℕ).zip smU) (X 0 ^ 2) = X 3 ^ 2 := by
  simp [subsList, polySub, smU, Function.update]

theorem sm_zero (v e : MvPolynomial ℕ ℚ) (x : ℕ) (he : e = 0 ∨ e = 1) : polySub x v e = e := by
  rcases he with rfl | rfl <;> simp [polySub]

theorem smSubs_const (e : MvPolynomial ℕ ℚ) (he : e = 0 ∨ e = 1) :
    subsList polySub (([0, 1, 2] : List ℕ).zip smU) e = e := by
  rcases he with rfl | rfl <;> simp [subsList, polySub, smU]

/-- The hypothesis of the theorems of this file is met: here is the metric of the surface. -/
theorem smExample : smMetric (fun x => pderiv x) polySub smG (some [0, 1, 2]) (.functions smU)
    ![3, 4] = .ok !![1 + 4 * X 3 ^ 2, 4 * X 3 * X 4; 4 * X 3 * X 4, X 3 ^ 2 + 4 * X 4 ^ 2] := by
  rw [smMetric_some, if_neg (by simp [smU])]
  congr 1
  have e := smSubs
  have e0 := smSubs_const 0 (.inl rfl)
  have e1 := smSubs_const 1 (.inr rfl)
  have hg : ∀ k l, subsList polySub (([0, 1, 2] : List ℕ).zip smU) (smG k l) =
      (!![1, 0, 0; 0, X 3 ^ 2, 0; 0, 0, 1] : Matrix (Fin 3) (Fin 3) (MvPolynomial ℕ ℚ)) k l := by
    intro k l
    fin_cases k <;> fin_cases l <;> simp [smG, e, e0, e1]
  ext1 i j
  rw [Matrix.of_apply, smEntry_eq]
  simp only [hg, dxdu]
  fin_cases i <;> fin_cases j <;>
    simp [Fin.sum_univ_succ, smU, pderiv_X, Derivation.leibniz_pow] <;> ring

/-- The point `X 3 = 1, X 4 = 2` and the positivity hypotheses of `C45_positive`. -/
example : ∃ ev : MvPolynomial ℕ ℚ →+* ℚ,
    (∀ x : Fin 3 → ℚ, x ≠ 0 → 0 < ∑ k, ∑ l, x k *
      ev (subsList polySub (([0, 1, 2] : List ℕ).zip smU) (smG k l)) * x l) ∧
    (∀ a : Fin 2 → ℚ, (∀ k : Fin 3, ∑ i, ev (pderiv (![3, 4] i) (smU.getD k 0)) * a i = 0) → a = 0) := by
  refine ⟨(eval (fun _ => 1)), ?_, ?_⟩
  · intro x hx
    have e := smSubs
    have e0 := smSubs_const 0 (.inl rfl)
    have e1 := smSubs_const 1 (.inr rfl)
    have h : ∑ k, ∑ l, x k * (eval (fun _ => (1 : ℚ)))
        (subsList polySub (([0, 1, 2] : List ℕ).zip smU) (smG k l)) * x l =
        x 0 * x 0 + x 1 * x 1 + x 2 * x 2 := by
      simp [Fin.sum_univ_succ, smG, e, e0, e1]
      ring
    rw [h]
    by_contra hle
    have h0 : x 0 = 0 := by nlinarith [mul_self_nonneg (x 0), mul_self_nonneg (x 1), mul_self_nonneg (x 2)]
    have h1 : x 1 = 0 := by nlinarith [mul_self_nonneg (x 0), mul_self_nonneg (x 1), mul_self_nonneg (x 2)]
    have h2 : x 2 = 0 := by nlinarith [mul_self_nonneg (x 0), mul_self_nonneg (x 1), mul_self_nonneg (x 2)]
    exact hx (by ext i; fin_cases i <;> simp [h0, h1, h2])
  · intro a h
    have h0 := h 0
    have h1 := h 1
    simp [Fin.sum_univ_succ, smU, pderiv_X, Pi.single_apply] at h0 h1
    ext i
    fin_cases i
    · exact h0
    · exact h1

/-- The hypothesis of `C45_point_partial`: the functions of `smU` do not contain `X 0, X 1, X 2`. -/
example : Function.Injective (![0, 1, 2] : Fin 3 → ℕ) ∧
    ∀ k l : Fin 3, (![0, 1, 2] : Fin 3 → ℕ) l ∉
      ((![X 3, X 4, X 3 ^ 2 + X 4 ^ 2] : Fin 3 → MvPolynomial ℕ ℚ) k).vars := by
  constructor
  · decide
  · intro k l h
    have : ((![X 3, X 4, X 3 ^ 2 + X 4 ^ 2] : Fin 3 → MvPolynomial ℕ ℚ) k).vars ⊆ {3, 4} := by
      fin_cases k
      · simp [vars_X]
      · simp [vars_X]
      · refine (vars_add_subset _ _).trans (Finset.union_subset ?_ ?_)
        · exact (vars_pow _ _).trans (by simp [vars_X])
        · exact (vars_pow _ _).trans (by simp [vars_X])
    have := this h
    fin_cases l <;> simp at this

end Ex

/-- C45 fails when the map contains coordinates of the base: for the base metric `diag(1, x²)` and the
map `(x, y) ↦ (y, x)` the first entry of the metric is `x²` and not `y²`, the value of the base metric
at the image point. -/
theorem C45_shared_coordinates_counterexample :
    ∃ (g : Matrix (Fin 2) (Fin 2) (MvPolynomial (Fin 2) ℚ)) (u : Fin 2 → MvPolynomial (Fin 2) ℚ)
      (gs : Matrix (Fin 2) (Fin 2) (MvPolynomial (Fin 2) ℚ)), g.IsSymm ∧
      smMetric (fun x => MvPolynomial.pderiv x) polySub g (some [0, 1]) (.functions (List.ofFn u)) id =
        .ok gs ∧
      gs 0 0 ≠ ∑ k : Fin 2, ∑ l : Fin 2, MvPolynomial.pderiv 0 (u k) * MvPolynomial.pderiv 0 (u l) *
        MvPolynomial.bind₁ (mapSubst id u) (g k l) := by
  open MvPolynomial in
  let g : Matrix (Fin 2) (Fin 2) (MvPolynomial (Fin 2) ℚ) := !![1, 0; 0, X 0 ^ 2]
  refine ⟨g, ![X 1, X 0], Matrix.of (smEntry (fun x => pderiv x) polySub g [0, 1]
    (List.ofFn ![X 1, X 0]) id), ?_, ?_, ?_⟩
  · exact Matrix.IsSymm.ext fun i j => by fin_cases i <;> fin_cases j <;> rfl
  · rw [smMetric_some, if_neg (by simp)]
  · rw [Matrix.of_apply, smEntry_eq]
    have hm : mapSubst (R := ℚ) id ![X 1, X 0] (0 : Fin 2) = X 1 := by
      have h : ∃ k : Fin 2, id k = 0 := ⟨0, rfl⟩
      have h' : h.choose = 0 := h.choose_spec
      rw [mapSubst, dif_pos h, h']
      rfl
    simp [g, Fin.sum_univ_succ, dxdu, pderiv_X, hm, subsList, polySub,
      Function.update]
    intro h
    have := congrArg (eval ![0, 1]) h
    simp at this

section vpds
variable {n : ℕ} {K : Type*} [Field K] [DecidableEq K] [Invertible (2 : K)]

/-- C60, C45: on an algebra that can be constructed, `Sm.vpds()` builds the operators of
`Ga.grads()`. -/
theorem C60_vpds {g0 : Matrix (Fin n) (Fin n) K} {N : Option (Fin n → K)}
    (hO : N.isSome → isOrtho g0 = true) : vpdsVecs g0 N = gradVecs g0 N := by
  rw [vpdsVecs, gradVecs]
  congr 1
  funext r
  cases N with
  | none => simp
  | some M =>
    have ho := hO rfl
    have hoc : isOrtho (currentMetric (some M) g0) = true := by
      rw [isOrtho_iff] at ho ⊢
      intro i j hij
      simp [currentMetric, normMetric, ho i j hij]
    rw [if_pos hoc]
    rfl

end vpds

end GA
