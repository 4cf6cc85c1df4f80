import Verif.Model.Grad

/-!
# Model of the caches of derivatives of blades (galgebra/ga.py): `blade_derivation`, `connection`
-/

namespace GA
variable {n : ℕ} {K : Type*} [Field K] [DecidableEq K] [Invertible (2 : K)]

/-- ga.py:1584-1596 `Ga.Mul` on expressions. -/
def mulOpE (g : Matrix (Fin n) (Fin n) K) : ProdOp → Expr K n → Expr K n → Expr K n
  | .geo => GA.mul g
  | .outer => GA.wedge
  | .inner => GA.hestenesDot g
  | .left => GA.leftContract g
  | .right => GA.rightContract g

/-- ga.py:1956-1973 `er_blade`. -/
def erBlade (g : Matrix (Fin n) (Fin n) K) (er blade : Expr K n) (mode : ProdOp) (left : Bool) :
    Expr K n :=
  if left then mulOpE g mode er blade else mulOpE g mode blade er

/-- ga.py:1252-1260 `_build_connection`: the two caches.  `ρ` is the type of the first argument
`rbase` of `connection`, an expression of which only the identity matters. -/
structure ConnState (ρ K : Type*) (n : ℕ) where
  connect : ProdOp × Bool → List (List (ρ ⊕ Sym n) × Expr K n)
  dbases : Dict (Fin n × Sym n) (Expr K n)

/-- ga.py:1252-1260: empty caches. -/
def ConnState.new {ρ : Type*} : ConnState ρ K n := ⟨fun _ => [], []⟩

variable {ρ : Type*} [DecidableEq ρ]

/-- ga.py:1975-2014 `blade_derivation` with its cache.  `de` is `Ga.de`. -/
def ConnState.bladeDerivation (de : Fin n → Fin n → Expr K n) (st : ConnState ρ K n) (blade : Sym n)
    (ib : Fin n) : Expr K n × ConnState ρ K n :=
  match st.dbases.get? (ib, blade) with
  | some db => (db, st)
  | none =>
    let db := symDerivation (de ib) blade
    (db, { st with dbases := st.dbases.set (ib, blade) db })

/-- ga.py:2124-2127: the key of the cache, the non-commutative product of `rbase` and `key_base` in
the order given by `left`, as the list of its factors. -/
def connKey (rbase : ρ) (keyBase : Sym n) (left : Bool) : List (ρ ⊕ Sym n) :=
  let b : List (ρ ⊕ Sym n) := if keyBase = .blade [] then [] else [.inr keyBase]
  if left then [.inl rbase] ++ b else b ++ [.inl rbase]

/-- ga.py:2132-2133: division by the norm of the basis vector of a normalised basis. -/
def divNorm (N : Option (Fin n → K)) (ib : Fin n) (x : Expr K n) : Expr K n :=
  match N with
  | some eNorm => smulE (eNorm ib)⁻¹ x
  | none => x

/-- ga.py:2130-2135: the loop of `connection`. -/
def connLoop (g : Matrix (Fin n) (Fin n) K) (de : Fin n → Fin n → Expr K n)
    (N : Option (Fin n → K)) (rb : List (Expr K n)) (keyBase : Sym n) (mode : ProdOp) (left : Bool)
    (st : ConnState ρ K n) : Expr K n × ConnState ρ K n :=
  (List.finRange n).foldl (fun acc ib =>
    let (x, st) := acc.2.bladeDerivation de keyBase ib
    (addE acc.1 (erBlade g (rb.getD ib errorE) (divNorm N ib x) mode left), st)) ([], st)

/-- The outcome of a call of `connection`; `unbound` is `UnboundLocalError` for the local variable
`C`. -/
inductive ConnResult (K : Type*) (n : ℕ)
  | value (C : Expr K n)
  | unbound

/-- The arguments of a call of `connection`. -/
structure ConnCall (ρ : Type*) (n : ℕ) where
  rbase : ρ
  keyBase : Sym n
  mode : ProdOp
  left : Bool
deriving DecidableEq

/-- ga.py:2114-2138 `connection` of an algebra with metric tensor `g`, derivatives `de` of the basis
vectors, norms `N` and reciprocal vectors `rb`. -/
def ConnState.connection (g : Matrix (Fin n) (Fin n) K) (de : Fin n → Fin n → Expr K n)
    (N : Option (Fin n → K)) (rb : List (Expr K n)) (st : ConnState ρ K n) (c : ConnCall ρ n) :
    ConnResult K n × ConnState ρ K n :=
  let modeKey := (c.mode, c.left)
  let keys := (st.connect modeKey).map Prod.fst
  let key := connKey c.rbase c.keyBase c.left
  if (keys.any fun k => decide (k = key)) = false then
    let (C, st) := connLoop g de N rb c.keyBase c.mode c.left st
    let connect := Function.update st.connect modeKey (st.connect modeKey ++ [(key, C)])
    (.value C, ⟨connect, st.dbases⟩)
  else (.unbound, st)

/-- The two methods that use the caches. -/
inductive ConnStep (ρ : Type*) (n : ℕ)
  | connection (c : ConnCall ρ n)
  | derivation (blade : Sym n) (ib : Fin n)

/-- The state after one call. -/
def ConnState.step (g : Matrix (Fin n) (Fin n) K) (de : Fin n → Fin n → Expr K n)
    (N : Option (Fin n → K)) (rb : List (Expr K n)) (st : ConnState ρ K n) :
    ConnStep ρ n → ConnState ρ K n
  | .connection c => (st.connection g de N rb c).2
  | .derivation b i => (st.bladeDerivation de b i).2

/-- The state of a new algebra after a history of calls. -/
def ConnState.after (g : Matrix (Fin n) (Fin n) K) (de : Fin n → Fin n → Expr K n)
    (N : Option (Fin n → K)) (rb : List (Expr K n)) (h : List (ConnStep ρ n)) : ConnState ρ K n :=
  h.foldl (ConnState.step g de N rb) .new

end GA
