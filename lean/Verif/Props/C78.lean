import Verif.Model.Heap
import Verif.Proofs.Expr
import Verif.Props.C43

/-!
# C78: the metric tensor an algebra is constructed with

`s.construct D root arg norm` models `Ga(..., g=arg, norm=norm)` in a program with the matrices and algebras
of `s`; the new algebra is the last of `s.algs`.  `s.metric a` is what `a.g` is when it is read, and
`s.run D root cs` is the state after further commands.

The claim fails for matrices with `norm=True`, for later assignments to a matrix and for immutable matrices.
-/

set_option linter.unusedSectionVars false
set_option maxRecDepth 10000

namespace GA.Heap
variable {n : ℕ} {K : Type*} [Field K] [DecidableEq K] [Invertible (2 : K)]
  {D : Fin n → K → K} {root : K → K}

/-- `M` is the metric tensor that the argument stands for (there is no condition on the entries of lists
beyond the first `n`). -/
def Denotes (s : State n K) (arg : Arg n K) (M : Matrix (Fin n) (Fin n) K) : Prop :=
  match arg with
  | .matrix r => s.mats[r]? = some M
  | .rows rs => (∀ r ∈ rs, ∀ r' ∈ rs, r.length = r'.length) ∧
      ∀ i j : Fin n, ∃ r, rs[(i : ℕ)]? = some r ∧ r[(j : ℕ)]? = some (M i j)
  | .diag ds => ∀ i j : Fin n, if i = j then ds[(i : ℕ)]? = some (M i i) else M i j = 0
  | .immutable M' => M' = M

/-- The argument is a list of rows or a list of squares. -/
def IsList : Arg n K → Prop
  | .rows _ => True
  | .diag _ => True
  | _ => False

/-- The norms of the basis vectors. -/
def norms (root : K → K) (norm : Bool) (M : Matrix (Fin n) (Fin n) K) : Option (Fin n → K) :=
  if norm then some fun i => root (M i i) else none

theorem ofRows_spec {rs : List (List K)} {M : Matrix (Fin n) (Fin n) K} (hn : 0 < n)
    (hu : ∀ r ∈ rs, ∀ r' ∈ rs, r.length = r'.length)
    (h : ∀ i j : Fin n, ∃ r, rs[(i : ℕ)]? = some r ∧ r[(j : ℕ)]? = some (M i j)) :
    ofRows n rs = some M := by
  have hlast : n - 1 < n := by omega
  obtain ⟨r0, h0, h0'⟩ := h ⟨n - 1, hlast⟩ ⟨n - 1, hlast⟩
  have hl := (List.getElem?_eq_some_iff.mp h0).1
  have hl' := (List.getElem?_eq_some_iff.mp h0').1
  have hm : r0 ∈ rs := List.mem_of_getElem? h0
  simp only at hl hl'
  rw [ofRows, if_pos]
  · congr 1
    ext i j
    obtain ⟨r, h1, h2⟩ := h i j
    simp [List.getD, h1, h2]
  · exact ⟨by omega, fun r hr => ⟨by have := hu r hr r0 hm; omega, fun s hs => hu r hr s hs⟩⟩

theorem ofDiag_spec {ds : List K} {M : Matrix (Fin n) (Fin n) K} (hn : 0 < n)
    (h : ∀ i j : Fin n, if i = j then ds[(i : ℕ)]? = some (M i i) else M i j = 0) :
    ofDiag n ds = some M := by
  have hlast : n - 1 < n := by omega
  have h0 := h ⟨n - 1, hlast⟩ ⟨n - 1, hlast⟩
  rw [if_pos rfl] at h0
  have hl := (List.getElem?_eq_some_iff.mp h0).1
  simp only at hl
  rw [ofDiag, if_pos (by omega)]
  congr 1
  ext i j
  have := h i j
  by_cases e : i = j
  · subst e
    rw [if_pos rfl] at this
    simp [List.getD, this]
  · rw [if_neg e] at this
    simp [e, this]

/-- The location and the matrix of an argument that is not immutable. -/
theorem locOf_spec {s : State n K} {arg : Arg n K} {M : Matrix (Fin n) (Fin n) K} (hn : 0 < n)
    (h : Denotes s arg M) (hi : ∀ M', arg ≠ .immutable M') :
    ∃ loc, locOf s arg = some loc ∧ s.read loc = M ∧ (IsList arg → loc = .own M) ∧
      ∀ r, arg = .matrix r → loc = .shared r := by
  cases arg with
  | matrix r =>
    have h : s.mats[r]? = some M := h
    have hr := (List.getElem?_eq_some_iff.mp h).1
    exact ⟨.shared r, by rw [locOf, if_pos hr], by simp [State.read, List.getD, h],
      fun h => h.elim, fun r' e => by cases e; rfl⟩
  | rows rs => exact ⟨.own M, by rw [locOf, ofRows_spec hn h.1 h.2]; rfl, rfl, fun _ => rfl, by simp⟩
  | diag ds => exact ⟨.own M, by rw [locOf, ofDiag_spec hn h]; rfl, rfl, fun _ => rfl, by simp⟩
  | immutable M' => exact absurd rfl (hi M')

/-- What the metric part of a construction leaves: the matrices and the new location. -/
def placed (s : State n K) (M' : Matrix (Fin n) (Fin n) K) :
    Loc n K → List (Matrix (Fin n) (Fin n) K) × Loc n K
  | .shared r => (s.mats.set r M', .shared r)
  | .own _ => (s.mats, .own M')

theorem construct_iff {s s' : State n K} {arg : Arg n K} {norm : Bool} :
    s.construct D root arg norm = some s' ↔ ∃ loc conn, locOf s arg = some loc ∧
      ¬ (norm = true ∧ isOrtho (s.read loc) = false) ∧
      connOf D (s.read loc) (norms root norm (s.read loc)) = some conn ∧
      s' = ⟨(placed s (currentMetric (norms root norm (s.read loc)) (s.read loc)) loc).1,
        s.algs ++ [⟨(placed s (currentMetric (norms root norm (s.read loc)) (s.read loc)) loc).2,
          s.read loc, norms root norm (s.read loc), isOrtho (s.read loc), conn⟩]⟩ := by
  unfold State.construct
  cases hl : locOf s arg with
  | none => simp
  | some loc =>
    simp only [Option.bind_some, Option.some.injEq]
    by_cases ho : norm = true ∧ isOrtho (s.read loc) = false
    · rw [if_pos ho]
      constructor
      · intro h; exact absurd h (by simp)
      · rintro ⟨loc', conn, rfl, h, -⟩; exact absurd ho h
    · rw [if_neg ho, Option.map_eq_some_iff]
      constructor
      · rintro ⟨conn, hc, rfl⟩
        refine ⟨loc, conn, rfl, ho, hc, ?_⟩
        cases loc <;> rfl
      · rintro ⟨loc', conn, rfl, -, hc, rfl⟩
        refine ⟨conn, hc, ?_⟩
        cases loc <;> rfl

theorem locOf_own {s : State n K} {arg : Arg n K} {loc : Loc n K} (hl : locOf s arg = some loc) :
    (∃ r, arg = .matrix r ∧ loc = .shared r ∧ r < s.mats.length) ∨ ∃ M, loc = .own M := by
  cases arg with
  | matrix r =>
    rw [locOf] at hl
    split_ifs at hl with hr
    cases hl
    exact Or.inl ⟨r, rfl, rfl, hr⟩
  | rows rs => rw [locOf, Option.map_eq_some_iff] at hl; obtain ⟨M, -, rfl⟩ := hl; exact Or.inr ⟨M, rfl⟩
  | diag ds => rw [locOf, Option.map_eq_some_iff] at hl; obtain ⟨M, -, rfl⟩ := hl; exact Or.inr ⟨M, rfl⟩
  | immutable M' => rw [locOf, Option.map_eq_some_iff] at hl; obtain ⟨M, -, rfl⟩ := hl; exact Or.inr ⟨M, rfl⟩

/-- C78: the algebra that is constructed has the (normalised) metric tensor and the connection of the metric
its argument stands for.  The construction fails only if normalisation is asked for and the metric is not
diagonal, or if the connection cannot be computed. -/
theorem C78_construct {s : State n K} {arg : Arg n K} {M : Matrix (Fin n) (Fin n) K} (hn : 0 < n)
    (h : Denotes s arg M) (hi : ∀ M', arg ≠ .immutable M') (norm : Bool)
    (ho : norm = true → ∀ i j, i < j → M i j = 0) {conn : Option (Fin n → Fin n → Expr K n)}
    (hc : connOf D M (norms root norm M) = some conn) :
    ∃ s' a, s.construct D root arg norm = some s' ∧ s'.algs = s.algs ++ [a] ∧
      s'.metric a = currentMetric (norms root norm M) M ∧ a.gRaw = M ∧
      a.eNorm = norms root norm M ∧ a.conn = conn := by
  obtain ⟨loc, h1, h2, -, -⟩ := locOf_spec hn h hi
  subst h2
  have ho' : ¬ (norm = true ∧ isOrtho (s.read loc) = false) := by
    rintro ⟨e, h⟩
    rw [(isOrtho_iff _).mpr (ho e)] at h
    exact absurd h (by simp)
  refine ⟨_, _, construct_iff.mpr ⟨loc, conn, h1, ho', hc, rfl⟩, rfl, ?_, rfl, rfl, rfl⟩
  rcases locOf_own h1 with ⟨r, -, rfl, hr⟩ | ⟨M, rfl⟩
  · simp only [State.metric, placed]
    rw [State.read, List.getD_eq_getElem?_getD, List.getElem?_set_self hr]
    rfl
  · rfl

/-- No command takes away or changes the record of an algebra. -/
theorem run_algs (cs : List (Cmd n K)) (s : State n K) : s.algs <+: (s.run D root cs).algs := by
  induction cs generalizing s with
  | nil => exact List.prefix_refl _
  | cons c cs ih =>
    refine List.IsPrefix.trans ?_ (ih (s.step D root c))
    cases c with
    | matrix M => exact List.prefix_refl _
    | assign r i j v => exact List.prefix_refl _
    | construct arg norm =>
      rw [State.step]
      cases h : s.construct D root arg norm with
      | none => exact List.prefix_refl _
      | some s' =>
        obtain ⟨loc, conn, hl, -, -, rfl⟩ := construct_iff.mp h
        exact List.prefix_append _ _

/-- C78: an algebra constructed from lists keeps its metric tensor whatever the program does later, and the
construction changes no matrix of the program. -/
theorem C78_lists {s s' : State n K} {arg : Arg n K} (ha : IsList arg) {norm : Bool}
    (h : s.construct D root arg norm = some s') :
    s'.mats = s.mats ∧ ∃ a, s'.algs = s.algs ++ [a] ∧
      ∀ cs, s'.algs <+: (s'.run D root cs).algs ∧ (s'.run D root cs).metric a = s'.metric a := by
  obtain ⟨loc, conn, hl, -, -, rfl⟩ := construct_iff.mp h
  rcases locOf_own hl with ⟨r, rfl, -, -⟩ | ⟨M, rfl⟩
  · exact ha.elim
  · exact ⟨rfl, _, rfl, fun cs => ⟨run_algs cs _, rfl⟩⟩

theorem set_read {s : State n K} {r : ℕ} : s.mats.set r (s.read (.shared r)) = s.mats := by
  refine List.ext_getElem? fun k => ?_
  rw [List.getElem?_set]
  by_cases hk : r = k
  · subst hk
    by_cases hr : r < s.mats.length
    · simp [hr, State.read, List.getD]
    · simp [hr]
  · simp [hk]

/-- C78: construction without `norm=True` changes no matrix of the program. -/
theorem C78_argument_partial {s s' : State n K} {arg : Arg n K}
    (h : s.construct D root arg false = some s') : s'.mats = s.mats := by
  obtain ⟨loc, conn, hl, -, -, rfl⟩ := construct_iff.mp h
  rcases locOf_own hl with ⟨r, rfl, rfl, -⟩ | ⟨M, rfl⟩
  · exact set_read
  · rfl

/-- The command changes the matrix `r`: an assignment to it, or a normalisation. -/
def Touches (r : ℕ) : Cmd n K → Prop
  | .construct arg norm => norm = true ∧ arg = .matrix r
  | .matrix _ => False
  | .assign r' _ _ _ => r' = r

theorem step_mats {s : State n K} {c : Cmd n K} {r : ℕ} (hr : r < s.mats.length)
    (h : ¬ Touches r c) : (s.step D root c).mats[r]? = s.mats[r]? := by
  cases c with
  | matrix M => simp [State.step, List.getElem?_append_left hr]
  | assign r' i j v =>
    have h : r' ≠ r := h
    simp [State.step, h]
  | construct arg norm =>
    rw [State.step]
    cases hc : s.construct D root arg norm with
    | none => rfl
    | some s' =>
      rw [Option.getD_some]
      cases norm with
      | false => rw [C78_argument_partial hc]
      | true =>
        obtain ⟨loc, conn, hl, -, -, rfl⟩ := construct_iff.mp hc
        rcases locOf_own hl with ⟨r', rfl, rfl, -⟩ | ⟨M, rfl⟩
        · have hne : r' ≠ r := by rintro rfl; exact h ⟨rfl, rfl⟩
          simp [placed, hne]
        · rfl

theorem step_length (s : State n K) (c : Cmd n K) :
    s.mats.length ≤ (s.step D root c).mats.length := by
  cases c with
  | matrix M => simp [State.step]
  | assign r' i j v => simp [State.step]
  | construct arg norm =>
    rw [State.step]
    cases hc : s.construct D root arg norm with
    | none => exact le_rfl
    | some s' =>
      obtain ⟨loc, conn, hl, -, -, rfl⟩ := construct_iff.mp hc
      cases loc <;> simp [placed]

theorem run_mats {r : ℕ} : ∀ (cs : List (Cmd n K)) (t : State n K), r < t.mats.length →
    (∀ c ∈ cs, ¬ Touches r c) → (t.run D root cs).mats[r]? = t.mats[r]?
  | [], _, _, _ => rfl
  | c :: cs, t, ht, h =>
    (run_mats cs (t.step D root c) (lt_of_lt_of_le ht (step_length t c)) fun c hc => h c (by simp [hc])).trans
      (step_mats ht (h c (by simp)))

/-- C78 (proved part) for matrices: the metric tensor of an algebra constructed from a matrix stays as it
is as long as the program neither assigns to the matrix nor constructs an algebra from it with
`norm=True`. -/
theorem C78_matrix_partial {s s' : State n K} {r : ℕ} {norm : Bool}
    (h : s.construct D root (.matrix r) norm = some s') :
    ∃ a, s'.algs = s.algs ++ [a] ∧ ∀ cs : List (Cmd n K), (∀ c ∈ cs, ¬ Touches r c) →
      s'.algs <+: (s'.run D root cs).algs ∧ (s'.run D root cs).metric a = s'.metric a := by
  obtain ⟨loc, conn, hl, -, -, rfl⟩ := construct_iff.mp h
  rcases locOf_own hl with ⟨r', e, rfl, hr⟩ | ⟨M, rfl⟩
  · cases e
    refine ⟨_, rfl, fun cs hcs => ⟨run_algs cs _, ?_⟩⟩
    simp only [State.metric, placed, State.read, List.getD_eq_getElem?_getD]
    rw [run_mats cs _ (by simpa using hr) hcs]
  · exact ⟨_, rfl, fun cs _ => ⟨run_algs cs _, rfl⟩⟩

/-- C78 is false for matrices with `norm=True`: the matrix of the program is itself normalised. -/
theorem C78_norm_counterexample {s s' : State n K} {r : ℕ} {M : Matrix (Fin n) (Fin n) K}
    (hr : s.mats[r]? = some M) (h : s.construct D root (.matrix r) true = some s') :
    s'.mats[r]? = some (Matrix.of fun i j => M i j / (root (M i i) * root (M j j))) := by
  obtain ⟨loc, conn, hl, -, -, rfl⟩ := construct_iff.mp h
  have hlt := (List.getElem?_eq_some_iff.mp hr).1
  rw [locOf, if_pos hlt] at hl
  cases hl
  have : s.read (.shared r) = M := by simp [State.read, List.getD, hr]
  simp only [placed, this]
  rw [List.getElem?_set_self hlt]
  rfl

/-- C78 is false for later assignments to the matrix: they change the metric tensor of the algebra, and
nothing else of it. -/
theorem C78_assign_counterexample {s s' : State n K} {r : ℕ} {M : Matrix (Fin n) (Fin n) K}
    (hr : s.mats[r]? = some M) (h : s.construct D root (.matrix r) false = some s') (i j : Fin n) (v : K) :
    ∃ a, s'.algs = s.algs ++ [a] ∧ (s'.step D root (.assign r i j v)).algs = s'.algs ∧
      ∀ k l, (s'.step D root (.assign r i j v)).metric a k l = if k = i ∧ l = j then v else M k l := by
  have hm := C78_argument_partial h
  obtain ⟨loc, conn, hl, -, -, rfl⟩ := construct_iff.mp h
  have hlt := (List.getElem?_eq_some_iff.mp hr).1
  rw [locOf, if_pos hlt] at hl
  cases hl
  refine ⟨_, rfl, rfl, fun k l => ?_⟩
  simp only at hm
  simp only [State.metric, State.step, hm]
  simp only [placed, State.read, List.getD_eq_getElem?_getD, List.getElem?_modify, hr, if_true,
    Option.map_some, Option.map_eq_map, Option.getD_some, Matrix.updateRow_apply]
  by_cases hk : k = i
  · subst hk
    by_cases hl : l = j <;> simp [hl]
  · simp [hk]

/-- C78 is false for immutable matrices: the algebra gets the diagonal metric with the entries of the first
row. -/
theorem C78_immutable_counterexample {m : ℕ} {D : Fin (m + 1) → K → K} {s s' : State (m + 1) K}
    {M : Matrix (Fin (m + 1)) (Fin (m + 1)) K}
    (h : s.construct D root (.immutable M) false = some s') :
    ∃ a, s'.algs = s.algs ++ [a] ∧ s'.metric a = Matrix.diagonal fun j => M 0 j := by
  have hd : ofDiag (m + 1) (flatEntries M) = some (Matrix.diagonal fun j => M 0 j) := by
    refine ofDiag_spec (by omega) fun i j => ?_
    by_cases e : i = j
    · have hrow : ((List.finRange (m + 1)).map fun j => M 0 j)[(i : ℕ)]? = some (M 0 i) := by
        rw [List.getElem?_map, List.getElem?_eq_getElem (by rw [List.length_finRange]; exact i.2)]
        simp
      have hsplit : flatEntries M = ((List.finRange (m + 1)).map fun j => M 0 j) ++
          ((List.finRange m).map Fin.succ).flatMap fun i => (List.finRange (m + 1)).map fun j => M i j := by
        rw [flatEntries]
        conv_lhs => rw [List.finRange_succ, List.flatMap_cons, ← List.finRange_succ]
      rw [if_pos e, hsplit, List.getElem?_append_left (by rw [List.length_map, List.length_finRange]; exact i.2), hrow, Matrix.diagonal_apply_eq]
    · rw [if_neg e, Matrix.diagonal_apply_ne _ e]
  obtain ⟨loc, conn, hl, -, -, rfl⟩ := construct_iff.mp h
  rw [locOf, hd, Option.map_some] at hl
  cases hl
  exact ⟨_, rfl, rfl⟩

/-! ### Concrete cases: polar coordinates -/

open Ex

open Classical in
/-- `square_root_of_expr` on the entries of the polar metric. -/
noncomputable def polarRoot (f : Fun 2) : Fun 2 := if f = coord 0 ^ 2 then coord 0 else 1

theorem norms_polar : norms polarRoot true Ex.polar = some Ex.polarN := by
  rw [norms, if_pos rfl]
  congr 1
  funext i
  fin_cases i
  · simp only [polarRoot, Ex.polar, Ex.polarN]
    by_cases h : (1 : Fun 2) = coord 0 ^ 2
    · exfalso
      have := Ex.polar_d 1 1 0
      rw [if_pos ⟨rfl, rfl, rfl⟩, show Ex.polar 1 1 = coord 0 ^ 2 by simp [Ex.polar], ← h,
        Derivation.map_one_eq_zero] at this
      exact mul_ne_zero two_ne_zero (coord_ne_zero 0) this.symm
    · simp [h]
  · simp [polarRoot, Ex.polar, Ex.polarN]

theorem norms_one : norms polarRoot true (1 : Matrix (Fin 2) (Fin 2) (Fun 2)) = some fun _ => 1 := by
  have h := norms_polar
  rw [norms, if_pos rfl] at h
  have h0 := congrFun (Option.some.inj h) 0
  rw [norms, if_pos rfl]
  congr 1
  funext i
  rw [Matrix.one_apply_eq]
  simpa [Ex.polar, Ex.polarN] using h0

/-- C78 is false for matrices with `norm=True`: in polar coordinates, the first algebra that is made from the
matrix `diag(1, r²)` has a connection, and the second one, made by the same call, has none and takes `1` for
the metric tensor before normalisation. -/
theorem C78_again_counterexample : ∃ (s s' s'' : State 2 (Fun 2)) (a b : Alg 2 (Fun 2)),
    s.mats = [Ex.polar] ∧
      s.construct (fun i => partialD i) polarRoot (.matrix 0) true = some s' ∧
      s'.construct (fun i => partialD i) polarRoot (.matrix 0) true = some s'' ∧
      s''.algs = s.algs ++ [a] ++ [b] ∧
      a.conn.isSome ∧ a.gRaw = Ex.polar ∧ b.conn = none ∧ b.gRaw = 1 := by
  obtain ⟨d, hd⟩ := Ex.polar_de (some Ex.polarN) (Or.inr rfl)
  have h1 : connOf (fun i => partialD i) Ex.polar (norms polarRoot true Ex.polar) = some (some d) := by
    rw [norms_polar, connOf, if_pos Ex.polar_connect, hd]; rfl
  obtain ⟨s', a, hs', ha, -, hr, -, hconn⟩ := C78_construct (s := ⟨[Ex.polar], []⟩) (arg := .matrix 0)
    (D := fun i => partialD i) (root := polarRoot) (by omega) (M := Ex.polar) rfl (by simp) true
    (fun _ i j h => (isOrtho_iff _).mp Ex.polar_ortho i j h) h1
  have hm : s'.mats[0]? = some 1 := by
    rw [C78_norm_counterexample (M := Ex.polar) rfl hs']
    have h := norms_polar
    rw [norms, if_pos rfl] at h
    have h := congrFun (Option.some.inj h)
    have h2 := Ex.norm_polar
    rw [← h2, currentMetric]
    simp only [h]
    rfl
  have h2 : connOf (fun i => partialD i) (1 : Matrix (Fin 2) (Fin 2) (Fun 2))
      (norms polarRoot true 1) = some none := by
    rw [connOf, if_neg]
    rw [Bool.not_eq_true, connectFlg_false]
    intro i j k
    by_cases e : i = j
    · subst e; simp
    · simp [Matrix.one_apply_ne e]
  obtain ⟨s'', b, hs'', hb, -, hbr, -, hbc⟩ := C78_construct (s := s') (arg := .matrix 0)
    (D := fun i => partialD i) (root := polarRoot) (by omega) (M := 1) hm (by simp) true
    (fun _ i j h => Matrix.one_apply_ne (ne_of_lt h)) h2
  exact ⟨_, s', s'', a, b, rfl, hs', hs'', by rw [hb, ha], by rw [hconn]; rfl, hr, hbc, hbr⟩

/-- The hypotheses of `C78_construct` and `C78_lists` are met: the polar metric as lists of rows and as a
list of squares. -/
example : Denotes (⟨[], []⟩ : State 2 (Fun 2)) (.rows [[1, 0], [0, coord 0 ^ 2]]) Ex.polar ∧
    Denotes (⟨[], []⟩ : State 2 (Fun 2)) (.diag [1, coord 0 ^ 2]) Ex.polar := by
  refine ⟨⟨by simp, fun i j => ?_⟩, fun i j => ?_⟩
  · fin_cases i <;> fin_cases j <;> simp [Ex.polar]
  · fin_cases i <;> fin_cases j <;> simp [Ex.polar]

/-- Algebras are constructed from these lists, and from a matrix without normalisation. -/
example (arg : Arg 2 (Fun 2)) (hi : ∀ M', arg ≠ .immutable M') (s : State 2 (Fun 2))
    (h : Denotes s arg Ex.polar) : ∃ s', s.construct (fun i => partialD i) polarRoot arg false = some s' := by
  obtain ⟨d, hd⟩ := Ex.polar_de none (Or.inl rfl)
  obtain ⟨s', a, hs, -⟩ := C78_construct (root := polarRoot) (by omega) h hi false (by simp)
    (conn := some d) (D := fun i => partialD i)
    (by rw [norms, if_neg (by simp), connOf, if_pos Ex.polar_connect, hd]; rfl)
  exact ⟨s', hs⟩

/-- An immutable matrix with a construction that succeeds: the Lorentz metric in a null basis has zeros on
its diagonal, and the algebra gets the metric `diag(0, 1)`. -/
example : ∃ s', (⟨[], []⟩ : State 2 (Fun 2)).construct (fun i => partialD i) polarRoot
    (.immutable !![0, 1; 1, 0]) false = some s' := by
  have hf : ofDiag 2 (flatEntries (!![0, 1; 1, 0] : Matrix (Fin 2) (Fin 2) (Fun 2))) =
      some (Matrix.diagonal ![0, 1]) := by
    refine ofDiag_spec (by omega) fun i j => ?_
    fin_cases i <;> fin_cases j <;> simp [flatEntries, List.finRange_succ]
  refine ⟨_, construct_iff.mpr ⟨.own (Matrix.diagonal ![0, 1]), none, ?_, by simp, ?_, rfl⟩⟩
  · rw [locOf, hf]; rfl
  · rw [connOf, if_neg]
    rw [Bool.not_eq_true, connectFlg_false]
    intro i j k
    simp only [State.read]
    fin_cases i <;> fin_cases j <;> simp

end GA.Heap
