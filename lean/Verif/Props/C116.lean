import Verif.Props.C23
import Verif.Props.C24
import Verif.Props.C25
import Verif.Props.C73

/-!
# C116: division, powers and the inverses by different functions

`Mv.inv` models `A.inv()`, `Mv.hitzerInverse` and `Mv.shirokovInverse` model `A.hitzer_inverse()` and
`A.shirokov_inverse()`, `Mv.zpow` models `A**k`, and `divide` models `x / y`.
-/

set_option linter.unusedSectionVars false
set_option maxRecDepth 10000

namespace GA

section field
variable {n : ℕ} {K : Type*} [Field K] [DecidableEq K] [Invertible (2 : K)]
  {g : Matrix (Fin n) (Fin n) K}

/-- `B` is an inverse of `A` in the arithmetic of the program. -/
def IsInverse (g : Matrix (Fin n) (Fin n) K) (A B : Mv K n) : Prop :=
  (A.mul g B).eq g (Mv.scalarMv 1) = true ∧ (B.mul g A).eq g (Mv.scalarMv 1) = true

/-- `B` is what one of the expressions `A.inv()`, `A.hitzer_inverse()`, `A.shirokov_inverse()`, `A**-1` and `1/A` gives. -/
inductive GivesInverse (g : Matrix (Fin n) (Fin n) K) (A B : Mv K n) : Prop
  | inv : A.inv g = some B → GivesInverse g A B
  | hitzer : A.hitzerInverse g = .ok B → GivesInverse g A B
  | shirokov : A.shirokovInverse g = .ok B → GivesInverse g A B
  | power : A.zpow g (-1) = some B → GivesInverse g A B
  | quotient : divide g (.scalar 1) (.mv A) = some B → GivesInverse g A B

theorem isInverse_iff (hs : g.IsSymm) {A B : Mv K n} (hA : A.WF g) (hB : B.WF g) :
    IsInverse g A B ↔ A.val g * B.val g = 1 ∧ B.val g * A.val g = 1 := by
  have m1 := mul_spec' hs hA hB
  have m2 := mul_spec' hs hB hA
  have o := scalarMv_spec (g := g) 1
  rw [IsInverse, eq_spec hs m1.1 o.1, eq_spec hs m2.1 o.1, m1.2, m2.2, o.2.2, map_one]

theorem isUnit_of_exists (hs : g.IsSymm) {A : Mv K n} (hA : A.WF g)
    (h : ∃ B : Mv K n, B.WF g ∧ (A.mul g B).eq g (Mv.scalarMv 1) = true) : IsUnit (A.val g) := by
  obtain ⟨B, hB, h⟩ := h
  have m1 := mul_spec' hs hA hB
  have o := scalarMv_spec (g := g) 1
  rw [eq_spec hs m1.1 o.1, m1.2, o.2.2, map_one] at h
  exact isUnit_iff_exists.mpr ⟨_, h, Spec.mul_eq_one_symm h⟩

theorem inv_isSome_iff (hs : g.IsSymm) {A : Mv K n} (hA : A.WF g) : (∃ B, A.inv g = some B) ↔
    IsUnit (A.val g) ∧ ∃ c, A.val g = algebraMap K _ c ∨ A.val g * A.val g = algebraMap K _ c ∨
      A.val g * CliffordAlgebra.reverse (A.val g) = algebraMap K _ c := by
  have hr := rev_spec hs hA
  have hm := mul_spec' hs hA hr.1
  have hm2 := mul_spec' hs hA hA
  have i1 := isScalar_iff hs hA
  have i2 := isScalar_iff hs hm2.1
  have i3 := isScalar_iff hs hm.1
  rw [hm2.2] at i2
  rw [hm.2, hr.2.2] at i3
  constructor
  · rintro ⟨B, h⟩
    obtain ⟨-, h1, h2⟩ := inv_spec hs hA h
    refine ⟨isUnit_iff_exists.mpr ⟨_, h1, h2⟩, ?_⟩
    by_contra hc
    push Not at hc
    rw [Mv.inv] at h
    dsimp only at h
    rw [if_neg (fun h' => ?_), if_neg (fun h' => ?_), if_neg (fun h' => ?_)] at h
    · cases h
    · obtain ⟨c, h'⟩ := i3.mp h'
      exact (hc c).2.2 h'
    · obtain ⟨c, h'⟩ := i2.mp h'
      exact (hc c).2.1 h'
    · obtain ⟨c, h'⟩ := i1.mp h'
      exact (hc c).1 h'
  · rintro ⟨hu, hc⟩
    have h0 : ∀ {c : K}, IsUnit (algebraMap K (Spec.Cl g) c) → c ≠ 0 := by
      rintro c h rfl
      rw [map_zero, isUnit_zero_iff] at h
      exact zero_ne_one (algebraMap_inj g (by rw [map_zero, map_one, h]))
    rw [Mv.inv]
    dsimp only
    split_ifs with h1 h2 h2 h3 h3 h4
    · obtain ⟨d, hd⟩ := i1.mp h1
      rw [scalarPart_of_val hA hd] at h2
      exact absurd h2 (h0 (hd ▸ hu))
    · exact ⟨_, rfl⟩
    · obtain ⟨d, hd⟩ := i2.mp h2
      rw [scalarPart_of_val hm2.1 (hm2.2.trans hd)] at h3
      exact absurd h3 (h0 (hd ▸ hu.mul hu))
    · exact ⟨_, rfl⟩
    · obtain ⟨d, hd⟩ := i3.mp h3
      rw [scalarPart_of_val hm.1 ((hm.2.trans (by rw [hr.2.2])).trans hd)] at h4
      exact absurd h4 (h0 (hd ▸ hu.mul (by
        obtain ⟨y, hy, hy'⟩ := isUnit_iff_exists.mp hu
        refine isUnit_iff_exists.mpr ⟨CliffordAlgebra.reverse y, ?_, ?_⟩
        · rw [← CliffordAlgebra.reverse.map_mul, hy', CliffordAlgebra.reverse.map_one]
        · rw [← CliffordAlgebra.reverse.map_mul, hy, CliffordAlgebra.reverse.map_one])))
    · exact ⟨_, rfl⟩
    · obtain ⟨c, hc | hc | hc⟩ := hc
      · exact absurd (i1.mpr ⟨c, hc⟩) h1
      · exact absurd (i2.mpr ⟨c, hc⟩) h2
      · exact absurd (i3.mpr ⟨c, hc⟩) h3

/-- C116: `A.inv()` returns exactly if `A` has an inverse and `A`, `A*A` or `A*A.rev()` is a scalar. -/
theorem C116_inv_iff (hs : g.IsSymm) {A : Mv K n} (hA : A.WF g) : (∃ B, A.inv g = some B) ↔
    (∃ B : Mv K n, B.WF g ∧ (A.mul g B).eq g (Mv.scalarMv 1) = true) ∧
      ∃ c, A.eq g (Mv.scalarMv c) = true ∨ (A.mul g A).eq g (Mv.scalarMv c) = true ∨
        (A.mul g (A.rev g)).eq g (Mv.scalarMv c) = true := by
  have hr := rev_spec hs hA
  have hm := mul_spec' hs hA hr.1
  have hm2 := mul_spec' hs hA hA
  have e : ∀ c, (A.eq g (Mv.scalarMv c) = true ∨ (A.mul g A).eq g (Mv.scalarMv c) = true ∨
        (A.mul g (A.rev g)).eq g (Mv.scalarMv c) = true) ↔ (A.val g = algebraMap K _ c ∨
        A.val g * A.val g = algebraMap K _ c ∨ A.val g * CliffordAlgebra.reverse (A.val g) = algebraMap K _ c) := by
    intro c
    have o := scalarMv_spec (g := g) c
    rw [eq_spec hs hA o.1, eq_spec hs hm2.1 o.1, eq_spec hs hm.1 o.1, hm2.2, hm.2, hr.2.2, o.2.2]
  simp only [e]
  rw [inv_isSome_iff hs hA]
  constructor
  · rintro ⟨h1, h2⟩
    obtain ⟨B, h⟩ := (inv_isSome_iff hs hA).mpr ⟨h1, h2⟩
    obtain ⟨h3, h4, h5⟩ := inv_spec hs hA h
    exact ⟨⟨B, h3, (C23_inverse hs hA h).1⟩, h2⟩
  · rintro ⟨h1, h2⟩
    exact ⟨isUnit_of_exists hs hA h1, h2⟩

theorem gives_spec [CharZero K] (hs : g.IsSymm) {A B : Mv K n} (hA : A.WF g) (hb : A.isBladeRep = true)
    (h : GivesInverse g A B) : B.WF g ∧ A.val g * B.val g = 1 ∧ B.val g * A.val g = 1 := by
  cases h with
  | inv h => exact inv_spec hs hA h
  | hitzer h =>
    by_cases hn : n ≤ 5
    · exact (C24_hitzer hs hn hA hb).1 B h
    · rw [C24_not_implemented (by omega)] at h
      cases h
  | shirokov h =>
    by_cases hn : 0 < n
    · exact (C25_shirokov_partial hs hn hA hb).1 B h
    · obtain rfl : n = 0 := by omega
      by_cases h0 : A.scalar = 0
      · have : List.range' 1 (2 ^ ((0 + 1) / 2) - 1) = [] := rfl
        rw [Mv.shirokovInverse] at h
        dsimp only at h
        rw [this, List.foldl_nil, if_pos h0] at h
        cases h
      · rw [C25_dimension_zero_counterexample g A h0] at h
        cases h
  | power h =>
    rw [Mv.zpow, if_pos (by decide)] at h
    have p := pow_spec hs hA 1
    obtain ⟨h1, h2, h3⟩ := inv_spec hs p.1 h
    have e : (A.pow g (-(-1 : ℤ)).toNat).val g = A.val g := by
      have := (pow_spec hs hA 1).2
      rw [pow_one] at this
      exact this
    exact ⟨h1, e ▸ h2, e ▸ h3⟩
  | quotient h =>
    obtain ⟨I, hI, rfl⟩ := Option.map_eq_some_iff.mp h
    obtain ⟨h1, h2, h3⟩ := inv_spec hs hA hI
    have o := scalarMv_spec (g := g) (n := n) (1 : K)
    have h4 := mul_spec' hs o.1 h1
    refine ⟨h4.1, ?_, ?_⟩
    · rw [h4.2, o.2.2, map_one, one_mul, h2]
    · rw [h4.2, o.2.2, map_one, one_mul, h3]

/-- C116: whatever two of these expressions give is equal, and is an inverse. -/
theorem C116_agree [CharZero K] (hs : g.IsSymm) {A B C : Mv K n} (hA : A.WF g) (hb : A.isBladeRep = true)
    (h : GivesInverse g A B) (h' : GivesInverse g A C) : IsInverse g A B ∧ B.eq g C = true := by
  obtain ⟨h1, h2, h3⟩ := gives_spec hs hA hb h
  obtain ⟨k1, k2, k3⟩ := gives_spec hs hA hb h'
  refine ⟨(isInverse_iff hs hA h1).mpr ⟨h2, h3⟩, (eq_spec hs h1 k1).mpr ?_⟩
  exact left_inv_eq_right_inv h3 k2

/-- C116: if one of them returns, `A.shirokov_inverse()` does, except in dimension 0, and `A.hitzer_inverse()` does in at
most five dimensions. -/
theorem C116_others_return [CharZero K] (hs : g.IsSymm) {A B : Mv K n} (hA : A.WF g) (hb : A.isBladeRep = true)
    (h : GivesInverse g A B) : (0 < n → ∃ C, A.shirokovInverse g = .ok C) ∧ (n ≤ 5 → ∃ C, A.hitzerInverse g = .ok C) := by
  obtain ⟨h1, h2, h3⟩ := gives_spec hs hA hb h
  have hu : IsUnit (A.val g) := isUnit_iff_exists.mpr ⟨_, h2, h3⟩
  exact ⟨fun hn => (C25_shirokov_partial hs hn hA hb).2.1 hu, fun hn => (C24_hitzer hs hn hA hb).2.1 hu⟩

/-- C116: an inverse of a product is the product of the inverses in the opposite order, and an inverse of the reverse is
the reverse of the inverse. -/
theorem C116_products [CharZero K] (hs : g.IsSymm) {A B A' B' C' R' : Mv K n} (hA : A.WF g) (hB : B.WF g)
    (ha : A.isBladeRep = true) (hb : B.isBladeRep = true)
    (h1 : GivesInverse g A A') (h2 : GivesInverse g B B') (h3 : GivesInverse g (A.mul g B) C')
    (h4 : GivesInverse g (A.rev g) R') : C'.eq g (B'.mul g A') = true ∧ R'.eq g (A'.rev g) = true := by
  obtain ⟨a1, a2, a3⟩ := gives_spec hs hA ha h1
  obtain ⟨b1, b2, b3⟩ := gives_spec hs hB hb h2
  have m := mul_spec' hs hA hB
  have m' := mul_spec' hs b1 a1
  have r := rev_spec hs hA
  have r' := rev_spec hs a1
  obtain ⟨c1, c2, c3⟩ := gives_spec hs m.1 ((Rep.of_wf hA ha).mul hs (Rep.of_wf hB hb)).flag h3
  obtain ⟨d1, d2, d3⟩ := gives_spec hs r.1 r.2.1 h4
  rw [m.2] at c2 c3
  rw [r.2.2] at d2 d3
  rw [eq_spec hs c1 m'.1, eq_spec hs d1 r'.1, m'.2, r'.2.2]
  constructor
  · refine left_inv_eq_right_inv c3 ?_
    rw [mul_assoc, ← mul_assoc (B.val g), b2, one_mul, a2]
  · refine left_inv_eq_right_inv d3 ?_
    rw [← CliffordAlgebra.reverse.map_mul, a3, CliffordAlgebra.reverse.map_one]

/-- C116: `x / y` is the only multivector that gives `x` when it is multiplied by `y` from the right. -/
theorem C116_divide_unique (hs : g.IsSymm) {x y : Operand K n} (hx : x.toMv.WF g) (hy : y.toMv.WF g)
    {q : Mv K n} (h : divide g x y = some q) {z : Mv K n} (hz : z.WF g) (h' : (z.mul g y.toMv).eq g x.toMv = true) :
    z.eq g q = true := by
  obtain ⟨h1, h2⟩ := C73_divide hs hx hy h
  have m := mul_spec' hs h1 hy
  have m' := mul_spec' hs hz hy
  rw [eq_spec hs m.1 hx, m.2] at h2
  rw [eq_spec hs m'.1 hx, m'.2] at h'
  have hu : IsUnit (y.toMv.val g) := by
    have key : ∀ {B I : Mv K n}, B.WF g → B.inv g = some I → IsUnit (B.val g) := fun hB hI => by
      obtain ⟨-, h2, h3⟩ := inv_spec hs hB hI
      exact isUnit_iff_exists.mpr ⟨_, h2, h3⟩
    cases y with
    | mv B =>
      cases x with
      | scalar c =>
        obtain ⟨I, hI, -⟩ := Option.map_eq_some_iff.mp h
        exact key hy hI
      | mv A =>
        obtain ⟨I, hI, -⟩ := Option.map_eq_some_iff.mp h
        exact key hy hI
    | scalar d =>
      cases x with
      | scalar c => exact absurd h (by simp [divide])
      | mv A =>
        have h' : A.divScalar d = some q := h
        rw [Mv.divScalar] at h'
        split_ifs at h' with hd
        show IsUnit ((Mv.scalarMv d : Mv K n).val g)
        rw [(scalarMv_spec (g := g) (n := n) d).2.2]
        exact (isUnit_iff_ne_zero.mpr hd).map _
  rw [eq_spec hs hz h1]
  exact hu.mul_right_cancel (h'.trans h2.symm)

/-! ### Powers -/

theorem zpow_unit (hs : g.IsSymm) {A X : Mv K n} (hA : A.WF g) {k : ℤ} (h : A.zpow g k = some X) :
    X.WF g ∧ (k < 0 → IsUnit (A.val g)) ∧ ((0 ≤ k → X.val g = A.val g ^ k.toNat)) ∧
      ∀ u : (Spec.Cl g)ˣ, u = A.val g → X.val g = ↑(u ^ k) := by
  rw [Mv.zpow] at h
  split_ifs at h with hk
  · have p := pow_spec hs hA (-k).toNat
    obtain ⟨h1, h2, h3⟩ := inv_spec hs p.1 h
    rw [p.2] at h2 h3
    refine ⟨h1, fun _ => ?_, fun h => absurd hk (by omega), fun u hu => ?_⟩
    · have : IsUnit (A.val g ^ (-k).toNat) := isUnit_iff_exists.mpr ⟨_, h2, h3⟩
      exact (isUnit_pow_iff (by omega)).mp this
    · rw [← hu] at h3
      refine left_inv_eq_right_inv h3 ?_
      rw [← Units.val_pow_eq_pow_val, ← Units.val_mul, ← zpow_natCast, ← zpow_add]
      rw [Int.toNat_of_nonneg (by omega)]
      simp
  · cases h
    have p := pow_spec hs hA k.toNat
    refine ⟨p.1, fun h => absurd h hk, fun _ => p.2, fun u hu => ?_⟩
    rw [p.2, ← hu, ← Units.val_pow_eq_pow_val, ← zpow_natCast, Int.toNat_of_nonneg (by omega)]

/-- C116: `A**(j+k) == A**j * A**k` for all integers, whenever the three powers are defined. -/
theorem C116_power_add (hs : g.IsSymm) {A X Y Z : Mv K n} (hA : A.WF g) {j k : ℤ} (hX : A.zpow g j = some X)
    (hY : A.zpow g k = some Y) (hZ : A.zpow g (j + k) = some Z) : Z.eq g (X.mul g Y) = true := by
  obtain ⟨x1, x2, x3, x4⟩ := zpow_unit hs hA hX
  obtain ⟨y1, y2, y3, y4⟩ := zpow_unit hs hA hY
  obtain ⟨z1, z2, z3, z4⟩ := zpow_unit hs hA hZ
  have m := mul_spec' hs x1 y1
  rw [eq_spec hs z1 m.1, m.2]
  by_cases h : 0 ≤ j ∧ 0 ≤ k
  · rw [x3 h.1, y3 h.2, z3 (by omega), ← pow_add]
    congr 1
    omega
  · obtain ⟨u, hu⟩ : IsUnit (A.val g) := by
      rcases not_and_or.mp h with h | h
      · exact x2 (by omega)
      · exact y2 (by omega)
    rw [x4 u hu, y4 u hu, z4 u hu, zpow_add, Units.val_mul]

/-- C116: `A**(j*k) == (A**j)**k` for all integers, whenever the powers are defined. -/
theorem C116_power_mul (hs : g.IsSymm) {A X Y Z : Mv K n} (hA : A.WF g) {j k : ℤ} (hX : A.zpow g j = some X)
    (hY : X.zpow g k = some Y) (hZ : A.zpow g (j * k) = some Z) : Z.eq g Y = true := by
  obtain ⟨x1, x2, x3, x4⟩ := zpow_unit hs hA hX
  obtain ⟨y1, y2, y3, y4⟩ := zpow_unit hs x1 hY
  obtain ⟨z1, z2, z3, z4⟩ := zpow_unit hs hA hZ
  rw [eq_spec hs z1 y1]
  have key : IsUnit (A.val g) → Z.val g = Y.val g := by
    rintro ⟨u, hu⟩
    rw [z4 u hu, y4 (u ^ j) (x4 u hu).symm, zpow_mul]
  by_cases h : 0 ≤ j ∧ 0 ≤ k
  · rw [y3 h.2, x3 h.1, z3 (mul_nonneg h.1 h.2), ← pow_mul, Int.toNat_mul h.1 h.2]
  · rcases not_and_or.mp h with h | h
    · exact key (x2 (by omega))
    · by_cases hj : j = 0
      · subst hj
        rw [zero_mul] at hZ z3
        rw [z3 le_rfl]
        have := x3 le_rfl
        simp at this
        rw [y4 1 (by simp [this])]
        simp
      · have := y2 (by omega)
        by_cases hj' : j < 0
        · exact key (x2 hj')
        · rw [x3 (by omega), isUnit_pow_iff (by omega)] at this
          exact key this

/-- C116: if `A.inv()` returns, every integer power of `A` is defined. -/
theorem C116_powers_exist (hs : g.IsSymm) {A B : Mv K n} (hA : A.WF g) (h : A.inv g = some B) (k : ℤ) :
    ∃ X, A.zpow g k = some X := by
  rw [Mv.zpow]
  split_ifs with hk
  · obtain ⟨hu, hc⟩ := (inv_isSome_iff hs hA).mp ⟨B, h⟩
    have p := pow_spec hs hA (-k).toNat
    refine (inv_isSome_iff hs p.1).mpr ?_
    rw [p.2]
    refine ⟨hu.pow _, ?_⟩
    generalize (-k).toNat = m
    obtain ⟨c, hc | hc | hc⟩ := hc
    · exact ⟨c ^ m, Or.inl (by rw [hc, map_pow])⟩
    · refine ⟨c ^ m, Or.inr (Or.inl ?_)⟩
      rw [map_pow, ← hc, ← pow_add, ← two_mul, ← sq, ← pow_mul]
    · refine ⟨c ^ m, Or.inr (Or.inr ?_)⟩
      induction m with
      | zero => simp
      | succ m ih =>
        rw [pow_succ, CliffordAlgebra.reverse.map_mul, mul_assoc, ← mul_assoc (A.val g), hc, Algebra.commutes,
          ← mul_assoc, ih, pow_succ, map_mul]
  · exact ⟨_, rfl⟩

end field

/-! ### Examples -/

/-- C116: `inv` raises an exception for `2 + e_0` where `e_0` squares to 1, although this has an inverse. -/
theorem C116_inv_counterexample :
    (Mv.ofExpr [(2, .blade []), (1, .blade [0])] : Mv ℚ 3).inv Ex.gO = none ∧
      (((Mv.ofExpr [(2, .blade []), (1, .blade [0])] : Mv ℚ 3).mul Ex.gO
        (Mv.ofExpr [(2 / 3, .blade []), (-1 / 3, .blade [0])])).eq Ex.gO (Mv.scalarMv 1)) = true := by
  decide +kernel

/-- C116: `A**-2` can be defined although `A**-1` is not: here `A = 1 + e_0`, where `e_0` squares to -1. -/
theorem C116_power_counterexample :
    ((Mv.ofExpr [(1, .blade []), (1, .blade [0])] : Mv ℚ 1).zpow (fun _ _ => -1) (-1)).isSome = false ∧
      ((Mv.ofExpr [(1, .blade []), (1, .blade [0])] : Mv ℚ 1).zpow (fun _ _ => -1) (-2)).isSome = true := by
  decide +kernel

namespace Ex

/-- The hypotheses are met: a vector in a metric that is not orthogonal, for which all expressions return. -/
def vN : Mv ℚ 3 := Mv.vector ![1, 2, 3]

example : (vN.inv gN).isSome = true ∧ (vN.hitzerInverse gN).isOk = true ∧ (vN.shirokovInverse gN).isOk = true ∧
    (vN.zpow gN (-1)).isSome = true ∧ (divide gN (.scalar 1) (.mv vN)).isSome = true ∧ vN.isBladeRep = true ∧
    ((vN.mul gN A).hitzerInverse gN).isOk = true ∧ (A.hitzerInverse gN).isOk = true ∧
    ((vN.rev gN).inv gN).isSome = true := by
  decide +kernel

example : gN.IsSymm ∧ vN.WF gN := ⟨gN_symm, (vector_spec _).1⟩

example : (vN.zpow gN (-3)).isSome = true ∧ (vN.zpow gN 2).isSome = true ∧ (vN.zpow gN (-3 + 2)).isSome = true ∧
    (vN.zpow gN (-6)).isSome = true ∧ (divide gN (.mv A) (.mv vN)).isSome = true := by
  decide +kernel

end Ex

end GA
