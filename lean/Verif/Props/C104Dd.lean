import Verif.Props.C104
import Verif.Props.C64
import Verif.Props.C64Cderiv

/-!
# C104, the derivative `dd` of a multilinear function in a direction
-/

set_option linter.unusedSectionVars false
set_option maxRecDepth 10000

namespace GA
open MvPolynomial
variable {n : ℕ} {K : Type*} [Field K] [DecidableEq K] [Invertible (2 : K)]
  {g : Matrix (Fin n) (Fin n) K}

theorem slotPDiff_scalar (D : Fin n → K → K) (k : Fin n) (p : SlotPoly K n) :
    Rep (liftG g) (slotPDiff g none D k (Mv.scalarMv p)) (algebraMap _ _ (slotDiff (D k) p)) := by
  have h1 : (Mv.scalarMv p : Mv (SlotPoly K n) n).obj = if p = 0 then [] else [(p, .blade [])] := by
    have h2 : gatherE (scalarE p : Expr (SlotPoly K n) n) = [(p, .blade [])] := by
      simp [gatherE, scalarE, addTerm]
    simp only [Mv.scalarMv, Mv.ofExpr, expand, h2]
    by_cases h0 : p = 0 <;> simp [h0]
  rw [slotPDiff, h1]
  have hv : Valid (if p = 0 then ([] : Expr (SlotPoly K n) n) else [(p, .blade [])]) := by
    intro t ht
    split_ifs at ht with h0
    · simp at ht
    · simp only [List.mem_singleton] at ht
      subst ht
      exact ⟨[], rfl, List.Pairwise.nil⟩
  have hv' : Valid ((if p = 0 then ([] : Expr (SlotPoly K n) n) else [(p, .blade [])]).map fun t =>
      (slotDiff (D k) t.1, t.2)) := by
    intro t ht
    obtain ⟨t', ht', rfl⟩ := List.mem_map.mp ht
    exact hv t' ht'
  refine (Rep.ofExpr hv'.expand).congr ?_
  rw [den_expand]
  split_ifs with h0
  · subst h0
    simp [slotDiff, den]
  · rw [List.map_singleton]
    exact den_scalarE _ _

theorem slotAgrad_scalar (hs : g.IsSymm) (D : Fin n → K → K) {vecs : List (Mv K n)} (hlen : vecs.length = n)
    {s : Fin n → K} {u : Fin n → Fin n → K} (hu : ∀ k : Fin n, Rep g (vecs.getD k Mv.zero) (Spec.vec g (u k)) ∧
      ∀ i, Spec.ip g (Pi.single i 1) (u k) = if i = k then s k else 0) (r : ℕ) (p : SlotPoly K n) :
    Rep (liftG g) (slotAgrad g none D vecs (slotVec K n r) (Mv.scalarMv p))
      (algebraMap _ _ (∑ k, X (r, k) * C (s k) * slotDiff (D k) p)) := by
  rw [slotAgrad, zip_finRange hlen, List.map_map]
  have key : ∀ (l : List (Fin n)) (B : Mv (SlotPoly K n) n) (y : SlotPoly K n), Rep (liftG g) B (algebraMap _ _ y) →
      Rep (liftG g) ((l.map fun k : Fin n => Mv.smul
        ((slotVec K n r).dot (liftG g) (liftMv (vecs.getD k Mv.zero))).scalar
        (slotPDiff g none D k (Mv.scalarMv p))).foldl (Mv.add (liftG g)) B)
        (algebraMap _ _ (y + (l.map fun k => X (r, k) * C (s k) * slotDiff (D k) p).sum)) := by
    intro l
    induction l with
    | nil => intro B y hB; simpa using hB
    | cons k l ih =>
      intro B y hB
      rw [List.map_cons, List.foldl_cons, slotVec_dot hs (hu k).1 (hu k).2]
      have h1 := (slotPDiff_scalar (g := g) D k p).smul (X (r, k) * C (s k))
      have h2 := hB.add (liftG_symm hs) h1
      rw [Algebra.smul_def, ← map_mul, ← map_add] at h2
      refine (ih _ _ h2).congr ?_
      rw [List.map_cons, List.sum_cons, add_assoc]
  refine (key (List.finRange n) _ 0 (Rep.scalarMv 0)).congr ?_
  rw [zero_add, ← Fin.sum_univ_def]

theorem slotDiff_slots (D : Derivation ℤ K K) {T : Mlt K n} {F : (ℕ → Fin n → K) → K} (hT : T.Means F) :
    ∀ ik ∈ (slotDiff D T.fvalue).vars, ik.1 < T.nargs := by
  rw [mem_supported_slots, slotDiff]
  refine sum_mem fun m hm => ?_
  rw [mem_supported]
  intro ik hik
  refine hT.slots ik ?_
  have h1 : ik ∈ m.support := by
    by_cases h0 : D (MvPolynomial.coeff m T.fvalue) = 0
    · simp [h0] at hik
    · simpa [vars_monomial h0] using hik
  exact mem_vars_iff_mem_support ik |>.mpr ⟨m, hm, h1⟩

theorem eval_slotDiff_means (D : Derivation ℤ K K) {T : Mlt K n} {F : (ℕ → Fin n → K) → K} (hT : T.Means F)
    {v : ℕ → Fin n → K} (hv : ∀ i < T.nargs, ∀ j, D (v i j) = 0) :
    eval (fun ik => v ik.1 ik.2) (slotDiff D T.fvalue) = D (F v) := by
  have hc : F v = F fun i => if i < T.nargs then v i else 0 := hT.congr fun i hi => by simp [hi]
  have hsup := slotDiff_slots D hT
  have he : eval (fun ik => v ik.1 ik.2) (slotDiff D T.fvalue) =
      eval (fun ik => (if ik.1 < T.nargs then v ik.1 else 0) ik.2) (slotDiff D T.fvalue) :=
    eval₂Hom_congr' rfl (fun ik hik _ => by rw [if_pos (hsup ik hik)]) rfl
  rw [he, eval_slotDiff, hc, ← hT.value]
  intro ik
  split_ifs with hi
  · exact hv ik.1 hi ik.2
  · simp

/-- C104, the derivative in a direction: `T.dd()` is a multilinear function with one more argument `w`, and its value is the
derivative of `T` in the direction `w` when the other arguments are constant; in every algebra, with `norm=True` by the
coordinates divided by the lengths of the basis vectors. -/
theorem C104_dd (hs : g.IsSymm) (D : Fin n → Derivation ℤ K K) {N : Option (Fin n → K)}
    (ho : N.isSome → isOrtho g = true) {vecs : List (Mv K n)} (hl : gradVecs g N = some vecs) {T : Mlt K n}
    {F : (ℕ → Fin n → K) → K} (hT : T.Means F) :
    (T.dd (fun i => D i) (currentMetric N g) vecs).nargs = T.nargs + 1 ∧
    ∃ G, (T.dd (fun i => D i) (currentMetric N g) vecs).Means (currentMetric N g) G ∧
      ∀ v : ℕ → Fin n → K, (∀ i < T.nargs, ∀ j k, D k (v i j) = 0) →
        G v = algebraMap K _ (∑ k, v T.nargs k * (scaleOf N k)⁻¹ * D k (F v)) := by
  obtain ⟨hlen, -, u, hu⟩ := gradVecs_rep hs ho hl
  have hsc := currentMetric_symm hs N
  have r := slotAgrad_scalar hsc (fun i => D i) hlen hu T.nargs T.fvalue
  have h1 : T.dd (fun i => D i) (currentMetric N g) vecs = ⟨T.nargs + 1, .mv (slotAgrad (currentMetric N g) none
      (fun i => D i) vecs (slotVec K n T.nargs) (Mv.scalarMv T.fvalue)), none⟩ := by
    rw [Mlt.dd, MltM.ofValue, if_neg]
    intro h
    obtain ⟨h0, h2⟩ := (isVector_iff (liftG_symm hsc) r.wf).mp h
    rw [r.val] at h0 h2
    have h3 := h2 0 (by decide)
    rw [grade_zero_algebraMap] at h3
    exact h0 h3
  have h2 : ∀ v : ℕ → Fin n → K, valueAt (currentMetric N g) v (.mv (slotAgrad (currentMetric N g) none
      (fun i => D i) vecs (slotVec K n T.nargs) (Mv.scalarMv T.fvalue))) = algebraMap K _ (∑ k, v T.nargs k *
        (scaleOf N k)⁻¹ * eval (fun ik => v ik.1 ik.2) (slotDiff (D k) T.fvalue)) := fun v => by
    obtain ⟨ψ, hψ⟩ := exists_changeTo (eval fun ik : ℕ × Fin n => v ik.1 ik.2) (liftG_eval (g := currentMetric N g) _)
    rw [valueAt, (hψ.subs r).val, hψ.scalar, map_sum]
    congr 1
    refine Finset.sum_congr rfl fun k _ => ?_
    rw [map_mul, map_mul, eval_X, eval_C]
  rw [h1]
  refine ⟨rfl, _, ⟨⟨r.wf, r.flag⟩, fun v v' hvv => ?_, h2, fun f hf => by cases hf⟩, fun v hv => ?_⟩
  · dsimp only at hvv ⊢
    congr 1
    refine Finset.sum_congr rfl fun k _ => ?_
    rw [hvv T.nargs (by omega)]
    congr 1
    exact eval₂Hom_congr' rfl (fun ik hik _ => by rw [hvv ik.1 (by have := slotDiff_slots (D k) hT ik hik; omega)]) rfl
  · congr 1
    refine Finset.sum_congr rfl fun k _ => ?_
    rw [eval_slotDiff_means (D k) hT fun i hi j => hv i hi j k]

/-- `T(a) = x_0 * a_0` has at `a = 2 e_0 + 2 e_1` the derivative `2 w_0` in the direction `w`. -/
example (w : Fin 2 → Ex.Fun 2) : ∃ l, gradVecs (1 : Matrix (Fin 2) (Fin 2) (Ex.Fun 2)) none = some l ∧
    ∃ G, ((Mlt.ofExpr 1 (C (Ex.coord 0) * X (0, 0)) : Mlt (Ex.Fun 2) 2).dd (fun i => Ex.partialD i) 1 l).Means 1 G ∧
      G (fun i j => if i = 0 then 2 else w j) = algebraMap _ _ (w 0 * 2) := by
  have hs : (1 : Matrix (Fin 2) (Fin 2) (Ex.Fun 2)).IsSymm := Matrix.isSymm_one
  obtain ⟨l, hl⟩ := Option.isSome_iff_exists.mp
    (C60_exists (N := none) hs (by simp) (by simp) (by simp))
  have hm : (Mlt.ofExpr 1 (C (Ex.coord 0) * X (0, 0)) : Mlt (Ex.Fun 2) 2).Means fun v => Ex.coord 0 * v 0 0 := by
    refine ⟨fun ik hik => ?_, fun v => by simp [Mlt.ofExpr], fun f hf => by cases hf⟩
    have h := vars_mul _ _ hik
    rw [vars_C, Finset.empty_union, vars_X, Finset.mem_singleton] at h
    rw [h]; decide
  obtain ⟨-, G, hG, h⟩ := C104_dd (N := none) hs Ex.partialD (by simp) hl hm
  have hq : ∀ k : Fin 2, Ex.partialD k (2 : Ex.Fun 2) = 0 := fun k => by
    rw [show (2 : Ex.Fun 2) = ((2 : ℕ) : Ex.Fun 2) by norm_num]; exact Derivation.map_natCast _ _
  refine ⟨l, hl, G, hG, ?_⟩
  rw [h]
  · congr 1
    simp [Mlt.ofExpr, scaleOf, Ex.partialD_coord, hq]
  · intro i hi j k
    have : i = 0 := by simpa [Mlt.ofExpr] using hi
    simp only [this, if_true]
    exact hq k

end GA
