import Verif.Proofs.Contract
import Verif.Proofs.Flags
import Verif.Model.Pseudo

/-! The pseudoscalar, reciprocal vectors, duals. -/

set_option linter.unusedSectionVars false

namespace Spec
open GA CliffordAlgebra
variable {n : ℕ} {R : Type*} [CommRing R] [Invertible (2 : R)]
  {g : Matrix (Fin n) (Fin n) R}

theorem blade_eq_wedgeL (l : List (Fin n)) :
    blade g l = wedgeL g (l.map fun i => Pi.single i (1 : R)) := by
  induction l with
  | nil => simp
  | cons i l ih => rw [blade_cons, ih, List.map_cons, wedgeL_cons, e]

theorem sum_wedge {ι : Type*} (s : Finset ι) (x : Cl g) (f : ι → Cl g) :
    wedge g (∑ i ∈ s, f i) x = ∑ i ∈ s, wedge g (f i) x := by
  classical
  induction s using Finset.induction_on with
  | empty => simp [zero_wedge]
  | insert a s ha ih => rw [Finset.sum_insert ha, Finset.sum_insert ha, add_wedge, ih]

/-- The pseudoscalar `e_1 ∧ ... ∧ e_n`. -/
noncomputable def pseudo (g : Matrix (Fin n) (Fin n) R) : Cl g := blade g (List.finRange n)

theorem wedge_pseudo (v : Fin n → R) : wedge g (vec g v) (pseudo g) = 0 := by
  rw [vec_eq_sum, sum_wedge]
  refine Finset.sum_eq_zero fun i _ => ?_
  rw [smul_wedge, e, pseudo, blade_eq_wedgeL, wedge_wedgeL_mem, smul_zero]
  exact List.mem_map.mpr ⟨i, List.mem_finRange i, rfl⟩

theorem homogeneous_pseudo : Homogeneous g n (pseudo g) := by
  have := homogeneous_blade (g := g) (List.finRange n)
  rwa [List.length_finRange] at this

theorem grade_mul_pseudo {r : ℕ} {x : Cl g} (hx : Homogeneous g r x) :
    Homogeneous g (n - r) (x * pseudo g) := by
  rw [← hx.grade_eq]
  clear hx
  induction x using blade_induction g with
  | h0 => rw [map_zero, zero_mul]; exact homogeneous_zero _
  | hadd x y hx hy => rw [map_add, add_mul]; exact hx.add hy
  | hsm c l hl =>
    rw [map_smul, grade_blade, smul_mul_assoc]
    refine Homogeneous.smul c ?_
    split_ifs with h
    · rw [blade_eq_wedgeL, wedgeL_mul fun v _ => wedge_pseudo v]
      refine homogeneous_conL _ ?_
      rw [List.length_map, h]
      have := length_le_of_lt hl
      rw [show n - r + r = n by omega]
      exact homogeneous_pseudo
    · rw [zero_mul]; exact homogeneous_zero _

theorem homogeneous_reverse {r : ℕ} {x : Cl g} (hx : Homogeneous g r x) :
    Homogeneous g r (reverse x) ∧ reverse x = (-1 : R) ^ (r * (r - 1) / 2) • x := by
  have key : ∀ x : Cl g, reverse (grade g r x) = (-1 : R) ^ (r * (r - 1) / 2) • grade g r x := by
    intro x
    induction x using blade_induction g with
    | h0 => simp
    | hadd x y hx hy => rw [map_add, map_add, hx, hy, smul_add]
    | hsm c l hl =>
      rw [map_smul, map_smul, grade_blade]
      split_ifs with h
      · rw [reverse_blade, h, smul_comm]
      · simp
  have h2 := key x
  rw [hx.grade_eq] at h2
  exact ⟨h2 ▸ hx.smul _, h2⟩

theorem homogeneous_involute {r : ℕ} {x : Cl g} (hx : Homogeneous g r x) :
    involute x = (-1 : R) ^ r • x := by
  have key : ∀ x : Cl g, involute (grade g r x) = (-1 : R) ^ r • grade g r x := by
    intro x
    induction x using blade_induction g with
    | h0 => simp
    | hadd x y hx hy => rw [map_add, map_add, hx, hy, smul_add]
    | hsm c l hl =>
      rw [map_smul, map_smul, grade_blade]
      split_ifs with h
      · rw [involute_blade, h, smul_comm]
      · simp
  have h2 := key x
  rwa [hx.grade_eq] at h2

theorem grade_pseudo_mul {r : ℕ} {x : Cl g} (hx : Homogeneous g r x) :
    Homogeneous g (n - r) (pseudo g * x) := by
  have h1 := grade_mul_pseudo (homogeneous_reverse hx).1
  have h2 := (homogeneous_reverse h1).1
  rw [reverse.map_mul, reverse_reverse, (homogeneous_reverse homogeneous_pseudo).2,
    smul_mul_assoc] at h2
  have h3 := h2.smul ((-1 : R) ^ (n * (n - 1) / 2))
  rwa [smul_smul, ← mul_pow, neg_one_mul, neg_neg, one_pow, one_smul] at h3

theorem pseudo_eq_ofFn : pseudo g = wedgeL g (List.ofFn fun i : Fin n => Pi.single i (1 : R)) := by
  rw [pseudo, blade_eq_wedgeL, List.ofFn_eq_map]

/-- `E² = (-1)^(n(n-1)/2) det g`. -/
theorem pseudo_sq (hs : g.IsSymm) :
    pseudo g * pseudo g = algebraMap R _ ((-1) ^ (n * (n - 1) / 2) * g.det) := by
  rw [pseudo_eq_ofFn, wedgeL_sq, conL_wedgeL]
  congr 3
  ext i j
  rw [Matrix.of_apply]
  exact associated_single g (fun i j => hs.apply j i) i j

/-! ### Vectors as elements of grade one -/

theorem homogeneous_one {x : Cl g} (hx : Homogeneous g 1 x) : ∃ u, x = vec g u := by
  have key : ∀ x : Cl g, ∃ u, grade g 1 x = vec g u := by
    intro x
    induction x using blade_induction g with
    | h0 => exact ⟨0, by simp [vec]⟩
    | hadd x y hx hy =>
      obtain ⟨u, hu⟩ := hx
      obtain ⟨v, hv⟩ := hy
      exact ⟨u + v, by rw [map_add, hu, hv, vec_add]⟩
    | hsm c l hl =>
      rw [map_smul, grade_blade]
      split_ifs with h
      · obtain ⟨i, rfl⟩ := List.length_eq_one_iff.mp h
        exact ⟨c • Pi.single i 1, by rw [blade_singleton, vec_smul, e]⟩
      · exact ⟨0, by simp [vec]⟩
  obtain ⟨u, hu⟩ := key x
  exact ⟨u, by rw [← hu, hx.grade_eq]⟩

theorem hestenesDot_vec_ip (v w : Fin n → R) :
    hestenesDot g (vec g v) (vec g w) = algebraMap R _ (ip g v w) := by
  classical
  rw [hestenesDot, gradedProduct_homogeneous _ (homogeneous_vec v) (homogeneous_vec w)]
  simp only [one_ne_zero, or_self, if_false, max_self, min_self, Nat.sub_self]
  rw [vec_mul, con_vec, map_add, grade_zero_algebraMap,
    homogeneous_wedge (homogeneous_vec v) (homogeneous_vec w) 0 (by norm_num), add_zero]

theorem hestenesDot_grade_one {x : Cl g} (hx : Homogeneous g 1 x) (v : Fin n → R) :
    hestenesDot g x (vec g v) = con g v x := by
  obtain ⟨u, rfl⟩ := homogeneous_one hx
  rw [hestenesDot_vec_ip, con_vec, ip_comm]

/-! ### Reciprocal frames -/

/-- `(-1)^j (v_0 ∧ .. v̂_j .. ∧ v_(k-1)) E` -/
noncomputable def recip (g : Matrix (Fin n) (Fin n) R) (L : List (Fin n → R)) (j : ℕ) : Cl g :=
  (-1 : R) ^ j • (wedgeL g (L.eraseIdx j) * wedgeL g L)

theorem recip_eq (L : List (Fin n → R)) (j : ℕ) :
    recip g L j = (-1 : R) ^ j • conL g (L.eraseIdx j) (wedgeL g L) := by
  rw [recip, wedgeL_mul]
  exact fun v hv => wedge_wedgeL_mem (List.mem_of_mem_eraseIdx hv)

theorem recip_homogeneous {L : List (Fin n → R)} {j : ℕ} (hj : j < L.length) :
    Homogeneous g 1 (recip g L j) := by
  rw [recip_eq]
  refine (homogeneous_conL _ ?_).smul _
  rw [List.length_eraseIdx, if_pos hj, show 1 + (L.length - 1) = L.length by omega]
  exact homogeneous_wedgeL L

theorem con_recip {L : List (Fin n → R)} {i j : ℕ} (hi : i < L.length) (hj : j < L.length) :
    con g L[i] (recip g L j) = if i = j then wedgeL g L * wedgeL g L else 0 := by
  rw [recip_eq, map_smul]
  split_ifs with h
  · subst h
    have hL : L = L.take i ++ L[i] :: L.drop (i + 1) := by simp
    rw [wedgeL_sq]
    have e1 : L.eraseIdx i = L.take i ++ L.drop (i + 1) := List.eraseIdx_eq_take_drop_succ L i
    have e2 : conL g L (wedgeL g L) =
        conL g (L.take i) (con g L[i] (conL g (L.drop (i + 1)) (wedgeL g L))) := by
      have : ∀ x, conL g L x = conL g (L.take i ++ L[i] :: L.drop (i + 1)) x := fun x => by rw [← hL]
      rw [this, conL_append, conL_cons]
    rw [e1, conL_append, con_conL, e2, List.length_take_of_le hi.le, smul_smul, ← mul_pow]
    simp
  · rw [con_conL_mem, smul_zero]
    rw [List.mem_eraseIdx_iff_getElem]
    exact ⟨i, hi, h, rfl⟩

end Spec

namespace GA
open CliffordAlgebra
variable {n : ℕ} {R : Type*} [CommRing R] [DecidableEq R] [Invertible (2 : R)]
  {g : Matrix (Fin n) (Fin n) R}

theorem combinations_self {α : Type*} (l : List α) : combinations l.length l = [l] := by
  have h1 : combinations l.length l ≠ [] := by
    intro h
    have := length_combinations l.length l
    rw [h] at this; simp at this
  have h2 := length_combinations l.length l
  rw [Nat.choose_self, List.length_eq_one_iff] at h2
  obtain ⟨m, hm⟩ := h2
  have := (mem_combinations (k := l.length) (xs := l) (l := m)).mp (by rw [hm]; simp)
  rw [hm, this.1.eq_of_length this.2]

theorem flat_blades_last : (flat (blades n)).getLastD .error = .blade (List.finRange n) := by
  have h1 : indexes n = ((List.range n).map fun i => combinations i (List.finRange n)) ++
      [[List.finRange n]] := by
    rw [indexes, List.range_succ, List.map_append]
    have := combinations_self (List.finRange n)
    rw [List.length_finRange] at this
    simp [this]
  rw [flat_blades, h1, flat, List.flatten_append]
  simp [mkBlade]

theorem finRange_lt : (List.finRange n).Pairwise (· < ·) := List.pairwise_lt_finRange n

theorem pseudoE_obj : (pseudoE : Mv R n) = Mv.ofExpr (bladeE (List.finRange n)) := by
  rw [pseudoE, flat_blades_last, bladeE]

theorem pseudoE_rep : Rep g (pseudoE : Mv R n) (Spec.pseudo g) := by
  rw [pseudoE_obj]
  have := Rep.ofExpr (g := g) (valid_bladeE (R := R) (finRange_lt (n := n)))
  rwa [den_bladeE] at this

theorem eSq_eq [Nontrivial R] (hs : g.IsSymm) : eSq g = (-1) ^ (n * (n - 1) / 2) * g.det :=
  (Rep.mul hs pseudoE_rep pseudoE_rep).scalar_of (by
    rw [Spec.pseudo_sq hs, grade_zero_algebraMap])

theorem eSq_val [Nontrivial R] (hs : g.IsSymm) :
    Spec.pseudo g * Spec.pseudo g = algebraMap R _ (eSq g) := by
  rw [eSq_eq hs, Spec.pseudo_sq hs]

/-- The combinations of all but one element, in reverse order. -/
theorem combinations_pred {α : Type*} (l : List α) (m : ℕ) (h : l.length = m + 1) :
    (combinations m l).reverse = (List.range (m + 1)).map fun j => l.eraseIdx j := by
  induction l generalizing m with
  | nil => simp at h
  | cons x xs ih =>
    cases m with
    | zero =>
      obtain rfl : xs = [] := by simpa using h
      simp [combinations]
    | succ m =>
      have hx : xs.length = m + 1 := by simpa using h
      rw [combinations, ← hx, combinations_self, List.reverse_append, List.reverse_singleton,
        ← List.map_reverse, ih m hx, hx, List.range_succ_eq_map (n := m + 1), List.map_map,
        List.map_cons, List.map_map]
      rfl

/-- The `j`-th vector of the non-orthogonal reciprocal basis. -/
theorem rBasisNonOrtho_eq (hn : 0 < n) :
    (rBasisNonOrtho g).length = n ∧ ∀ j : Fin n, (rBasisNonOrtho g).getD j errorE =
      expand (baseToBladeRep g (mul g (smulE ((-1) ^ (j : ℕ))
        (bladeToBaseRep g [(1, .blade ((List.finRange n).eraseIdx j))])) (pseudoE : Mv R n).obj)) := by
  have h1 : ((blades n).getD (n - 1) []).reverse =
      (List.range n).map fun j => Sym.blade ((List.finRange n).eraseIdx j) := by
    have h2 : (indexes n)[n - 1]? = some (combinations (n - 1) (List.finRange n)) := by
      rw [indexes, List.getElem?_map, List.getElem?_range (by omega)]; rfl
    rw [blades, List.getD_eq_getElem?_getD, List.getElem?_map, h2]
    simp only [Option.map_some, Option.getD_some]
    rw [← List.map_reverse, combinations_pred _ (n - 1) (by rw [List.length_finRange]; omega),
      show n - 1 + 1 = n by omega, List.map_map]
    rfl
  rw [rBasisNonOrtho, h1]
  constructor
  · simp
  · intro j
    rw [List.getD_eq_getElem?_getD, List.getElem?_map, List.getElem?_zipIdx, List.getElem?_map,
      List.getElem?_range j.2]
    simp only [Option.map_some, Option.getD_some, Nat.zero_add]
    have : (if (j : ℕ) % 2 = 0 then (1 : R) else -1) = (-1) ^ (j : ℕ) := by
      split_ifs with h
      · rw [(Nat.even_iff.mpr h).neg_one_pow]
      · rw [(Nat.odd_iff.mpr (by omega)).neg_one_pow]
    rw [this]

/-- Coordinates of the basis vectors. -/
abbrev basisL (R : Type*) [CommRing R] (n : ℕ) : List (Fin n → R) :=
  (List.finRange n).map fun i => Pi.single i (1 : R)

theorem rBasisNonOrtho_spec (hs : g.IsSymm) (ho : isOrtho g = false) (j : Fin n) :
    Valid ((rBasisNonOrtho g).getD j errorE) ∧
    den g ((rBasisNonOrtho g).getD j errorE) = Spec.recip g (basisL R n) j := by
  have hn : 0 < n := j.pos
  rw [(rBasisNonOrtho_eq hn).2 j]
  have hl : ((List.finRange n).eraseIdx j).Pairwise (· < ·) :=
    finRange_lt.sublist (List.eraseIdx_sublist _ _)
  have ho' : ¬ isOrtho g = true := by simp [ho]
  rw [bladeToBaseRep, baseToBladeRep, if_neg ho', if_neg ho']
  obtain ⟨a1, a2⟩ := toBase_spec g hs (A := [(1, Sym.blade ((List.finRange n).eraseIdx j))])
    (by intro t ht; rw [List.mem_singleton.mp ht]; exact Or.inl ⟨_, rfl, hl⟩)
  have hm : ∀ s : Sym n, IsAny s → MulSym g s := fun s h => by rw [MulSym, if_neg ho']; exact h
  obtain ⟨b1, b2⟩ := mul_spec g hs
    (A := smulE ((-1) ^ (j : ℕ)) (ncSubs (expand [(1, Sym.blade ((List.finRange n).eraseIdx j))])
      (bladeExpansionDict g))) (B := (pseudoE : Mv R n).obj)
    ((a1.mono fun s h => hm s (Or.inr h)).smulE _)
    (pseudoE_rep (g := g)).wf.mulSym
  obtain ⟨c1, c2⟩ := toBlade_spec g hs (b1.syms.mono fun _ h => Or.inl h)
  refine ⟨(Valid.of c1).expand, ?_⟩
  rw [den_expand, c2, b2, den_smulE, a2, pseudoE_rep.den, Spec.recip]
  have : den g [((1 : R), Sym.blade ((List.finRange n).eraseIdx j))] =
      Spec.wedgeL g ((basisL R n).eraseIdx j) := by
    rw [List.eraseIdx_map, ← Spec.blade_eq_wedgeL]
    exact den_bladeE g _
  rw [this, Spec.pseudo, Spec.blade_eq_wedgeL, smul_mul_assoc]

theorem con_recip_basis (hs : g.IsSymm) [Nontrivial R] (i j : Fin n) :
    Spec.con g (Pi.single i 1) (Spec.recip g (basisL R n) j) =
      algebraMap R _ (if i = j then eSq g else 0) := by
  have hi : (i : ℕ) < (basisL R n).length := by simp
  have hj : (j : ℕ) < (basisL R n).length := by simp
  have := Spec.con_recip (g := g) hi hj
  have e1 : (basisL R n)[(i : ℕ)] = Pi.single i 1 := by simp
  rw [e1] at this
  rw [this, ← Spec.blade_eq_wedgeL, ← Spec.pseudo, eSq_val hs]
  by_cases h : i = j
  · simp [h]
  · simp [h, Fin.val_inj]

theorem recip_basis_homogeneous (j : Fin n) :
    Spec.Homogeneous g 1 (Spec.recip g (basisL R n) j) := Spec.recip_homogeneous (by simp)

theorem func_id_rep {A : Mv R n} {x : Spec.Cl g} (h : Rep g A x) : Rep g A.trigsimp x := by
  have h1 : Valid (linearExpand A.obj) := h.valid.syms.linearExpand isBl_one
  have := Rep.ofExpr (g := g) h1
  rw [den_linearExpand, h.den] at this
  have e1 : ((linearExpand A.obj).map fun t => (id t.1, t.2)) = linearExpand A.obj := by simp
  rw [Mv.trigsimp, Mv.func, e1]
  exact this

theorem wedgeAll_spec (hs : g.IsSymm) {basis : List (Mv R n)} {L : List (Fin n → R)}
    (h : List.Forall₂ (fun A v => Rep g A (Spec.vec g v)) basis L) :
    Rep g (wedgeAll g basis) (Spec.wedgeL g L) := by
  have key : ∀ (X : Mv R n) (x : Spec.Cl g), Rep g X x →
      Rep g (basis.foldl (fun X b => (X.wedge g b).trigsimp) X) (Spec.wedge g x (Spec.wedgeL g L)) := by
    induction h with
    | nil => intro X x hX; rw [Spec.wedgeL_nil, Spec.wedge_one]; exact hX
    | cons hb _ ih =>
      intro X x hX
      rw [Spec.wedgeL_cons, ← Spec.wedge_assoc]
      exact ih _ _ (func_id_rep (Rep.wedge hs hX hb))
  have := key _ _ (Rep.scalarMv 1)
  rwa [map_one, Spec.one_wedge] at this

end GA
