import Verif.Model.Expr

/-!
# Lazily filled product tables (galgebra/ga.py)
-/

namespace GA

variable {K V : Type*} [DecidableEq K]

/-- ga.py:56-80 `lazy_dict`: its entries, and (for the theorems only) the keys on which `f_value` has
been called so far. -/
structure LazyDict (K V : Type*) where
  entries : Dict K V
  calls : List K

/-- ga.py:75-77 `lazy_dict({}, f_value)`. -/
def LazyDict.empty : LazyDict K V := ⟨[], []⟩

/-- `d[key]`: `dict.__getitem__` with ga.py:77-80 `__missing__`.  `f key = none` is an exception
raised by `f_value`, which is propagated; then nothing is stored. -/
def LazyDict.lookup (f : K → Option V) (d : LazyDict K V) (key : K) : LazyDict K V × Option V :=
  match d.entries.get? key with
  | some v => (d, some v)
  | none =>
    match f key with
    | some v => (⟨d.entries.set key v, d.calls ++ [key]⟩, some v)
    | none => (⟨d.entries, d.calls ++ [key]⟩, none)

/-- The results of a sequence of lookups, and the dictionary afterwards. -/
def LazyDict.lookups (f : K → Option V) : LazyDict K V → List K → LazyDict K V × List (Option V)
  | d, [] => (d, [])
  | d, k :: ks =>
    let r := d.lookup f k
    let rs := LazyDict.lookups f r.1 ks
    (rs.1, r.2 :: rs.2)

variable {n : ℕ} {R : Type*} [CommRing R] [DecidableEq R]

/-- ga.py:96-120 `update_and_substitute` with the table of products threaded through as state;
`none` is an exception raised while a product of basis blades is computed. -/
def updateLazy (f : Sym n × Sym n → Option (Expr R n)) (d : LazyDict (Sym n × Sym n) (Expr R n))
    (A B : Expr R n) : LazyDict (Sym n × Sym n) (Expr R n) × Option (Expr R n) :=
  (((linearExpand A).flatMap fun t₁ => (linearExpand B).map fun t₂ => (t₁, t₂))).foldl
    (fun st p =>
      match st.2 with
      | none => st
      | some expr =>
        let r := st.1.lookup f (p.1.2, p.2.2)
        (r.1, r.2.map fun v => addE expr (smulE (p.1.1 * p.2.1) v)))
    (d, some [])

end GA
