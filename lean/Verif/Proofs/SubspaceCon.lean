import Verif.Proofs.Subspace
import Verif.Proofs.InnerLaws
import Mathlib.LinearAlgebra.Dual.Lemmas

/-! Contractions of blades and the subspaces they stand for. -/

set_option linter.unusedSectionVars false

namespace Spec
open CliffordAlgebra Submodule
variable {n : ℕ} {K : Type*} [Field K] [Invertible (2 : K)] {g : Matrix (Fin n) (Fin n) K}
  {W W' : Submodule K (Fin n → K)} {x y : Cl g}

theorem ip_add_right (v w w' : Fin n → K) : ip g v (w + w') = ip g v w + ip g v w' := map_add _ _ _
theorem ip_smul_right (v : Fin n → K) (c : K) (w : Fin n → K) : ip g v (c • w) = c * ip g v w := map_smul _ _ _
theorem ip_sub_right (v w w' : Fin n → K) : ip g v (w - w') = ip g v w - ip g v w' := map_sub _ _ _

/-- Contracting a blade by a vector that is not orthogonal to its subspace. -/
theorem BladeOf.con (hs : g.IsSymm) (h : BladeOf g W x) {v : Fin n → K} (hv : con g v x ≠ 0) :
    BladeOf g (W ⊓ perp g (span K {v})) (Spec.con g v x) := by
  obtain ⟨u, hu, huv⟩ : ∃ u ∈ W, ip g v u ≠ 0 := by
    by_contra h0
    push Not at h0
    exact hv ((h.con_eq_zero v).mpr h0)
  have hp : ∀ w, w ∈ perp g (span K {v}) ↔ ip g v w = 0 := by
    intro w
    rw [mem_perp hs]
    constructor
    · intro h
      rw [ip_comm, h v (mem_span_singleton_self v)]
    · intro h z hz
      obtain ⟨c, rfl⟩ := mem_span_singleton.mp hz
      rw [ip_smul_right, ip_comm, h, mul_zero]
  obtain ⟨L, hL, hspan⟩ := exists_bladeOf (g := g) (W ⊓ perp g (span K {v}))
  have hLv : ∀ w ∈ L, ip g v w = 0 := fun w hw => (hp w).mp (mem_inf.mp (hspan ▸ mem_spanL hw)).2
  have huL : wedgeL g (u :: L) ≠ 0 := wedgeL_cons_ne_zero.mpr ⟨fun h1 => huv ((hp u).mp (mem_inf.mp (hspan ▸ h1)).2), hL⟩
  have hW : spanL (u :: L) = W := by
    rw [spanL_cons, hspan]
    refine le_antisymm (sup_le ((span_singleton_le_iff_mem u W).mpr hu) inf_le_left) fun w hw => ?_
    have e : w = (ip g v w / ip g v u) • u + (w - (ip g v w / ip g v u) • u) := by abel
    rw [e]
    refine add_mem (mem_sup_left (smul_mem _ _ (mem_span_singleton_self u))) (mem_sup_right (mem_inf.mpr ⟨?_, ?_⟩))
    · exact sub_mem hw (smul_mem _ _ hu)
    · rw [hp, ip_sub_right, ip_smul_right, div_mul_cancel₀ _ huv, sub_self]
  obtain ⟨c, hc, rfl⟩ := (h.unique ⟨1, u :: L, one_ne_zero, huL, (one_smul _ _).symm, hW⟩).mp rfl
  have hz : Spec.con g v (wedgeL g L) = 0 :=
    cof_wedgeL_zero (d := QuadraticMap.associated (R := K) (Q g) v) hLv
  refine ⟨c * ip g v u, L, mul_ne_zero hc huv, hL, ?_, hspan⟩
  rw [map_smul, wedgeL_cons, con_wedge_vec, hz, wedge_zero, sub_zero, smul_smul]

/-- A vector orthogonal to all vectors of `W'` that are orthogonal to `W` differs from a vector of `W` by a vector that is
orthogonal to `W'`. -/
theorem exists_sub_perp (hs : g.IsSymm) (L : List (Fin n → K)) {v : Fin n → K}
    (h : ∀ w ∈ W' ⊓ perp g (spanL L), ip g v w = 0) : ∃ s ∈ spanL L, v - s ∈ perp g W' := by
  let Φ : (Fin n → K) →ₗ[K] Module.Dual K W' := W'.subtype.dualMap ∘ₗ QuadraticMap.associated (R := K) (Q g)
  have hΦ : ∀ z (w : W'), Φ z w = ip g z w := fun _ _ => rfl
  have h1 : Φ v ∈ span K (Set.range fun i : Fin L.length => Φ L[i]) := by
    refine mem_span_of_iInf_ker_le_ker fun w hw => ?_
    rw [LinearMap.mem_ker, hΦ]
    refine h w (mem_inf.mpr ⟨w.2, ?_⟩)
    rw [mem_perp hs]
    intro z hz
    refine span_induction (p := fun z _ => ip g w z = 0) ?_ ?_ ?_ ?_ hz
    · intro z hz
      obtain ⟨i, hi, rfl⟩ := List.getElem_of_mem hz
      have := (Submodule.mem_iInf _).mp hw ⟨i, hi⟩
      rw [LinearMap.mem_ker, hΦ] at this
      rw [ip_comm]
      exact this
    · exact map_zero _
    · intro a b _ _ ha hb
      rw [ip_add_right, ha, hb, add_zero]
    · intro c a _ ha
      rw [ip_smul_right, ha, mul_zero]
  obtain ⟨c, hc⟩ := (mem_span_range_iff_exists_fun K).mp h1
  refine ⟨∑ i : Fin L.length, c i • L[i], sum_mem fun i _ => smul_mem _ _ (mem_spanL (List.getElem_mem _)), ?_⟩
  rw [mem_perp hs]
  intro w hw
  have h2 : Φ (v - ∑ i : Fin L.length, c i • L[i]) = 0 := by
    rw [map_sub, map_sum, ← hc]
    simp
  have := congrArg (fun f : Module.Dual K W' => f ⟨w, hw⟩) h2
  exact this

theorem lc_wedgeL_bladeOf (hs : g.IsSymm) {L : List (Fin n → K)} (hL : wedgeL g L ≠ 0) (h : BladeOf g W' y) :
    (leftContraction g (wedgeL g L) y ≠ 0 ↔ Disjoint (spanL L) (perp g W')) ∧
    (Disjoint (spanL L) (perp g W') → BladeOf g (W' ⊓ perp g (spanL L)) (leftContraction g (wedgeL g L) y)) := by
  induction L with
  | nil =>
    have h0 : spanL ([] : List (Fin n → K)) = ⊥ := by simp [spanL]
    have h1 : perp g (⊥ : Submodule K (Fin n → K)) = ⊤ := by
      rw [eq_top_iff]
      intro v _
      rw [mem_perp hs]
      intro w hw
      rw [(mem_bot K).mp hw]
      exact map_zero _
    rw [wedgeL_nil, lc_one, h0, h1, inf_top_eq]
    exact ⟨iff_of_true h.ne_zero disjoint_bot_left, fun _ => h⟩
  | cons v L ih =>
    obtain ⟨hv, hL'⟩ := wedgeL_cons_ne_zero.mp hL
    obtain ⟨k1, k2⟩ := ih hL'
    rw [wedgeL_cons, lc_wedge_vec]
    have hle : spanL L ≤ spanL (v :: L) := by rw [spanL_cons]; exact le_sup_right
    have hvm : v ∈ spanL (v :: L) := mem_spanL (by simp)
    have key : Disjoint (spanL (v :: L)) (perp g W') → Spec.con g v (leftContraction g (wedgeL g L) y) ≠ 0 := by
      intro hd h0
      obtain ⟨s, hs1, hs2⟩ := exists_sub_perp hs L (((k2 (hd.mono_left hle)).con_eq_zero v).mp h0)
      have := (Submodule.disjoint_def.mp hd) _ (sub_mem hvm (hle hs1)) hs2
      exact hv (by rw [sub_eq_zero.mp this]; exact hs1)
    refine ⟨⟨fun h0 => ?_, key⟩, fun hd => ?_⟩
    · have hz : leftContraction g (wedgeL g L) y ≠ 0 := fun e => h0 (by rw [e, map_zero])
      have hd := k1.mp hz
      rw [Submodule.disjoint_def]
      intro w hw hw'
      rw [spanL_cons] at hw
      obtain ⟨a', ha', s, hs', rfl⟩ := mem_sup.mp hw
      obtain ⟨a, rfl⟩ := mem_span_singleton.mp ha'
      by_cases ha : a = 0
      · rw [ha, zero_smul, zero_add] at hw' ⊢
        exact (Submodule.disjoint_def.mp hd) s hs' hw'
      · refine absurd (((k2 hd).con_eq_zero v).mpr fun u hu => ?_) h0
        obtain ⟨hu1, hu2⟩ := mem_inf.mp hu
        have e1 := (mem_perp hs _).mp hw' u hu1
        have e2 := (mem_perp hs _).mp hu2 s hs'
        rw [ip_comm, ip_add_right, ip_smul_right, e2, add_zero] at e1
        rw [ip_comm]
        exact (mul_eq_zero.mp e1).resolve_left ha
    · have := (k2 (hd.mono_left hle)).con hs (key hd)
      rwa [inf_assoc, ← perp_sup hs, sup_comm, ← spanL_cons] at this

/-- The contraction of blades: zero exactly if a vector of the first subspace other than zero is orthogonal to the second
one, and otherwise the part of the second one that is orthogonal to the first one. -/
theorem BladeOf.lc (hs : g.IsSymm) (h : BladeOf g W x) (h' : BladeOf g W' y) :
    (leftContraction g x y ≠ 0 ↔ Disjoint W (perp g W')) ∧
    (Disjoint W (perp g W') → BladeOf g (W' ⊓ perp g W) (leftContraction g x y)) := by
  obtain ⟨c, L, hc, hL, rfl, rfl⟩ := h
  obtain ⟨k1, k2⟩ := lc_wedgeL_bladeOf hs hL h'
  rw [lc_smul_left]
  exact ⟨(not_congr (smul_eq_zero_iff_right hc)).trans k1, fun hd => (k2 hd).smul hc⟩

end Spec
