import Verif.Proofs.Clifford

/-! A geometric product of `r` basis vectors is the blade of these vectors plus terms of lower
grade. -/

namespace Spec
open CliffordAlgebra
variable {n : ℕ} {R : Type*} [CommRing R]

/-- Span of the exterior products of fewer than `k` basis vectors. -/
def Fil (R : Type*) [CommRing R] (n k : ℕ) : Submodule R (ExteriorAlgebra R (Fin n → R)) :=
  Submodule.span R {x | ∃ m : List (Fin n), m.length < k ∧ x = extBlade R m}

theorem extBlade_mem_Fil {m : List (Fin n)} {k : ℕ} (h : m.length < k) : extBlade R m ∈ Fil R n k :=
  Submodule.subset_span ⟨m, h, rfl⟩

theorem Fil_mono {k l : ℕ} (h : k ≤ l) : Fil R n k ≤ Fil R n l :=
  Submodule.span_mono fun _ ⟨m, hm, e⟩ => ⟨m, by omega, e⟩

theorem ι_mul_Fil {k : ℕ} (i : Fin n) {y : ExteriorAlgebra R (Fin n → R)} (hy : y ∈ Fil R n k) :
    ExteriorAlgebra.ι R (Pi.single i 1) * y ∈ Fil R n (k + 1) := by
  induction hy using Submodule.span_induction with
  | mem x h =>
    obtain ⟨m, hm, rfl⟩ := h
    rw [← extBlade_cons]
    exact extBlade_mem_Fil (by simpa using hm)
  | zero => simp
  | add x y _ _ hx hy => rw [mul_add]; exact add_mem hx hy
  | smul c x _ hx => rw [mul_smul_comm]; exact Submodule.smul_mem _ _ hx

theorem contract_extBlade (d : Module.Dual R (Fin n → R)) (m : List (Fin n)) :
    contractLeft (Q := (0 : QuadraticForm R (Fin n → R))) d (extBlade R m) ∈ Fil R n m.length := by
  induction m with
  | nil =>
    rw [extBlade_nil]
    erw [contractLeft_one]
    exact zero_mem _
  | cons i m ih =>
    rw [extBlade_cons]
    erw [contractLeft_ι_mul]
    exact sub_mem (Submodule.smul_mem _ _ (extBlade_mem_Fil (by simp))) (ι_mul_Fil i ih)

theorem contract_Fil (d : Module.Dual R (Fin n → R)) {k : ℕ} {y : ExteriorAlgebra R (Fin n → R)}
    (hy : y ∈ Fil R n k) :
    contractLeft (Q := (0 : QuadraticForm R (Fin n → R))) d y ∈ Fil R n k := by
  induction hy using Submodule.span_induction with
  | mem x h =>
    obtain ⟨m, hm, rfl⟩ := h
    exact Fil_mono hm.le (contract_extBlade d m)
  | zero => rw [map_zero]; exact zero_mem _
  | add x y _ _ hx hy => rw [map_add]; exact add_mem hx hy
  | smul c x _ hx => rw [map_smul]; exact Submodule.smul_mem _ _ hx

variable [Invertible (2 : R)] (g : Matrix (Fin n) (Fin n) R)

/-- Leading term of a product of basis vectors. -/
theorem toExt_base (l : List (Fin n)) : toExt g (base g l) - extBlade R l ∈ Fil R n l.length := by
  induction l with
  | nil => simp
  | cons i l ih =>
    rw [base_cons, e, toExt_vec_mul, toExt_con, extBlade_cons]
    have h1 := ι_mul_Fil i ih
    have h2 : toExt g (base g l) ∈ Fil R n (l.length + 1) := by
      have := add_mem (Fil_mono (Nat.le_succ _) ih) (extBlade_mem_Fil (R := R) (Nat.lt_succ_self l.length))
      simpa using this
    have h3 := contract_Fil (QuadraticMap.associated (R := R) (Q g) (Pi.single i 1)) h2
    have := add_mem h1 h3
    rw [mul_sub] at this
    rw [List.length_cons]
    convert this using 1
    abel

theorem grade_of_Fil {k r : ℕ} (h : k ≤ r) {x : Cl g} (hx : toExt g x ∈ Fil R n k) :
    grade g r x = 0 := by
  have : ∀ y ∈ Fil R n k, grade g r ((toExt g).symm y) = 0 := by
    intro y hy
    induction hy using Submodule.span_induction with
    | mem x h' =>
      obtain ⟨m, hm, rfl⟩ := h'
      have := grade_blade g r m
      rw [blade] at this
      rw [this, if_neg (by omega)]
    | zero => simp
    | add x y _ _ hx hy => rw [map_add, map_add, hx, hy, add_zero]
    | smul c x _ hx => rw [map_smul, map_smul, hx, smul_zero]
  simpa using this _ hx

theorem grade_base_of_lt {l : List (Fin n)} {r : ℕ} (h : l.length < r) :
    grade g r (base g l) = 0 := by
  refine grade_of_Fil g (k := l.length + 1) h ?_
  have := add_mem (Fil_mono (Nat.le_succ _) (toExt_base g l))
    (extBlade_mem_Fil (R := R) (Nat.lt_succ_self l.length))
  simpa using this

theorem grade_base_of_eq {l : List (Fin n)} {r : ℕ} (h : l.length = r) :
    grade g r (base g l) = blade g l := by
  have h1 : grade g r (base g l - blade g l) = 0 := by
    refine grade_of_Fil g (k := l.length) h.le ?_
    rw [map_sub, toExt_blade]
    exact toExt_base g l
  rw [map_sub, grade_blade, if_pos h, sub_eq_zero] at h1
  exact h1

end Spec
