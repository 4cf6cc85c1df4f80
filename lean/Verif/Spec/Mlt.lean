import Verif.Model.Mlt
import Verif.Spec.Clifford
import Verif.Spec.Mv

/-!
# Meaning of multilinear functions
-/

namespace GA
open MvPolynomial
variable {n : ℕ} {K : Type*} [Field K] [DecidableEq K] [Invertible (2 : K)]

/-- The arguments with components `v 0, v 1, ...`, as a user passes them to a multilinear function of
`r` arguments. -/
noncomputable def vecArgs (r : ℕ) (v : ℕ → Fin n → K) : List (Mv (SlotPoly K n) n) :=
  (List.range r).map fun i => Mv.vector fun k => C (v i k)

/-- `T` stands for the function `F` of the components of its arguments: its value uses only its own
slots and evaluates to `F`, and if it holds a Python function, then this function gives the same value
as the expression for all arguments. -/
structure Mlt.Means (T : Mlt K n) (F : (ℕ → Fin n → K) → K) : Prop where
  slots : ∀ ik ∈ T.fvalue.vars, ik.1 < T.nargs
  value : ∀ v, eval (fun ik => v ik.1 ik.2) T.fvalue = F v
  function : ∀ f, T.f = some f → ∀ w : ℕ → Fin n → SlotPoly K n,
    f ((List.range T.nargs).map fun i => Mv.vector (w i)) = bind₁ (fun ik => w ik.1 ik.2) T.fvalue

/-- The value of the tensor field with components `comp` at the vector fields with components
`v 0, v 1, ...`. -/
def tensorValue {r : ℕ} (comp : (Fin r → Fin n) → K) (v : ℕ → Fin n → K) : K :=
  ∑ I, comp I * ∏ i : Fin r, v i.1 (I i)

/-- `T` is the tensor field of rank `r` with components `comp`; if it holds a Python function, then this
function gives for all vectors the value of the expression. -/
structure Mlt.IsTensor (g : Matrix (Fin n) (Fin n) K) (T : Mlt K n) {r : ℕ}
    (comp : (Fin r → Fin n) → K) : Prop where
  nargs : T.nargs = r
  value : T.fvalue = ∑ I, C (comp I) * ∏ i : Fin r, X (i.1, I i)
  function : ∀ f, T.f = some f → ∀ (A : ℕ → Mv (SlotPoly K n) n) (w : ℕ → Fin n → SlotPoly K n),
    (∀ i < r, (A i).val (liftG g) = Spec.vec (liftG g) (w i) ∧ (A i).isBladeRep = true ∧
      (A i).WF (liftG g)) → f ((List.range r).map A) = bind₁ (fun ik => w ik.1 ik.2) T.fvalue

/-- The components of the derivative of the vector field `V` along `c`: in the derivative by coordinate `k`
basis vector `l` changes by the vector with components `Γ k j l`. -/
def covariantDeriv (D : Fin n → K → K) (Γ : Fin n → Matrix (Fin n) (Fin n) K) (c : Fin n → K)
    (V : Fin n → K) (j : Fin n) : K :=
  ∑ k, c k * (D k (V j) + ∑ l, Γ k j l * V l)

end GA
