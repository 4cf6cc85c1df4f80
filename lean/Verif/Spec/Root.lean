import Verif.Model.Signature
import Mathlib.Analysis.Real.Sqrt

/-!
# Laws of the square root and of square free factorisation
-/

namespace GA

/-- `sqrt` is the non-negative square root of non-negative elements; `sqf_list` returns a factorisation. -/
structure RootFuns.Laws {K : Type*} [Field K] [LinearOrder K] (F : RootFuns K) : Prop where
  sqrt_sq : ∀ x, 0 ≤ x → F.sqrt x * F.sqrt x = x
  sqrt_nonneg : ∀ x, 0 ≤ x → 0 ≤ F.sqrt x
  sqf : ∀ x, x = (F.sqfList x).1 * ((F.sqfList x).2.map fun p => p.1 ^ p.2).prod

open Classical in
/-- The square root of real numbers; `9` and `12` stand for the squares of functions that take the value
`-3` and `-2`, `8` for the cube of a function with value `2`. -/
noncomputable def RootFuns.real : RootFuns ℝ where
  sqrt := Real.sqrt
  sqfList := fun x => if x = 9 then (1, [(-3, 2)]) else if x = 12 then (3, [(-2, 2)])
    else if x = 8 then (1, [(2, 3)]) else (x, [])

theorem RootFuns.real_laws : RootFuns.real.Laws where
  sqrt_sq := fun x h => Real.mul_self_sqrt h
  sqrt_nonneg := fun x _ => Real.sqrt_nonneg x
  sqf := fun x => by
    simp only [RootFuns.real]
    split_ifs with h1 h2 h3
    · rw [h1]; norm_num
    · rw [h2]; norm_num
    · rw [h3]; norm_num
    · simp

end GA
