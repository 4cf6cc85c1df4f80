import Mathlib.Data.Matrix.Basic
import Mathlib.Data.List.Basic
import Mathlib.Data.Fin.Basic
import Mathlib.Tactic.Ring

/-!
# Model of the index-list algorithms of galgebra/ga.py

A basis blade (or base) is represented by its tuple of basis vector indices, modelled as
`List (Fin n)` (`n` = `Ga.n`, the number of basis vectors; Python's tuples hold ints of
`range(n)`).  In-place array loops that walk along a list are modelled with a zipper: the part of
the list already passed is kept reversed in `p`, the part still ahead in `suf`/`q`; the Python
list is `p.reverse ++ q`.
-/

set_option linter.unusedVariables false

namespace GA

variable {n : ℕ}

/-- `itertools.combinations(l, k)`, in the order of `itertools`.
Used at ga.py:1052. -/
def combinations {α : Type*} : ℕ → List α → List (List α)
  | 0, _ => [[]]
  | _ + 1, [] => []
  | k + 1, x :: xs => (combinations k xs).map (x :: ·) ++ combinations (k + 1) xs

/-- ga.py:1048-1055 `Ga.indexes`: index tuples grouped by grade, for grades `0 .. n`. -/
def indexes (n : ℕ) : List (List (List (Fin n))) :=
  (List.range (n + 1)).map fun i => combinations i (List.finRange n)

/-- ga.py:173 `GradedTuple.flat`. -/
def flat {α : Type*} (t : List (List α)) : List α := t.flatten

/-- The inner `while` loop of ga.py:388-393 and ga.py:1409-1414:
`while j > 0 and lst[j-1] > save: sgn = -sgn; lst[j] = lst[j-1]; j -= 1`.
`p` is the reversed prefix `lst[j-1], ..., lst[0]`; `moved` collects the entries shifted one place
to the right.  Result: sign, shifted entries (in list order), remaining reversed prefix. -/
def shift (save : Fin n) : ℤ → List (Fin n) → List (Fin n) → ℤ × List (Fin n) × List (Fin n)
  | sgn, [], moved => (sgn, moved, [])
  | sgn, x :: p, moved =>
    if x > save then shift save (-sgn) p (x :: moved) else (sgn, moved, x :: p)

/-- The test `lst[j] == lst[j-1]` of ga.py:395 and ga.py:1416 after `lst[j] = save`.  When `j = 0`
Python reads `lst[-1]`, the last entry of the whole list. -/
def prevEq (save : Fin n) (moved p suf : List (Fin n)) : Bool :=
  match p with
  | x :: _ => x == save
  | [] => (save :: moved ++ suf).getLast? == some save

/-- ga.py:1408-1418: the outer `for` loop of `Ga.blade_reduce` from position `i = len(p)` on. -/
def bladeReduceLoop : ℤ → List (Fin n) → List (Fin n) → ℤ × Option (List (Fin n))
  | sgn, p, [] => (sgn, some p.reverse)
  | sgn, p, save :: suf =>
    let s := shift save sgn p []
    if prevEq save s.2.1 s.2.2 suf then (0, none)
    else bladeReduceLoop s.1 (s.2.1.reverse ++ save :: s.2.2) suf

/-- ga.py:1397-1419 `Ga.blade_reduce`. The loop starts at `i = 1`. -/
def bladeReduce : List (Fin n) → ℤ × Option (List (Fin n))
  | [] => (1, some [])
  | x :: l => bladeReduceLoop 1 [x] l

/-- ga.py:387-396: the sorting loop of `_GeometricProductFunction.of_basis_blades` (orthogonal
branch) from position `i = len(p)` on.  Result: sign, sorted list, `repeats`. -/
def gpSort : ℤ → List (Fin n) → List (Fin n) → List (Fin n) →
    ℤ × List (Fin n) × List (Fin n)
  | sgn, p, [], repeats => (sgn, p.reverse, repeats)
  | sgn, p, save :: suf, repeats =>
    let s := shift save sgn p []
    let repeats' := if prevEq save s.2.1 s.2.2 suf then repeats ++ [save] else repeats
    gpSort s.1 (s.2.1.reverse ++ save :: s.2.2) suf repeats'

/-- ga.py:384-396 with the loop starting at `i = 1`. -/
def gpSortStart : List (Fin n) → ℤ × List (Fin n) × List (Fin n)
  | [] => (1, [], [])
  | x :: l => gpSort 1 [x] l []

/-- ga.py:398-401: `for i in repeats: blade_index.remove(i); blade_index.remove(i);
result *= g[i,i]`.  Python's `list.remove` raises `ValueError` when the entry is missing, modelled
by `none`. -/
def gpContract {R : Type*} [CommRing R] (g : Matrix (Fin n) (Fin n) R) :
    R → List (Fin n) → List (Fin n) → Option (R × List (Fin n))
  | result, bi, [] => some (result, bi)
  | result, bi, i :: repeats =>
    if i ∈ bi then
      if i ∈ bi.erase i then
        gpContract g (result * g i i) ((bi.erase i).erase i) repeats
      else none
    else none

/-- ga.py:379-404 `_GeometricProductFunction.of_basis_blades`, orthogonal branch, on the index
tuples of the two blades: coefficient and index tuple of the resulting blade. -/
def gpOrtho {R : Type*} [CommRing R] (g : Matrix (Fin n) (Fin n) R) (I J : List (Fin n)) :
    Option (R × List (Fin n)) :=
  let s := gpSortStart (I ++ J)
  gpContract g (s.1 : R) s.2.1 s.2.2

/-! ## Result grades of the inner products, ga.py:324-357 -/

/-- ga.py:325-328 -/
def hestenesGrade (r s : ℕ) : Option ℕ :=
  if r = 0 ∨ s = 0 then none else some (((r : ℤ) - (s : ℤ)).natAbs)

/-- ga.py:332-333 -/
def scalarGrade (_ _ : ℕ) : Option ℕ := some 0

/-- ga.py:337-341 -/
def leftGrade (r s : ℕ) : Option ℕ :=
  let grade : ℤ := (s : ℤ) - (r : ℤ)
  if grade < 0 then none else some grade.toNat

/-- ga.py:345-349 -/
def rightGrade (r s : ℕ) : Option ℕ :=
  let grade : ℤ := (r : ℤ) - (s : ℤ)
  if grade < 0 then none else some grade.toNat

/-- ga.py:353-357 -/
def wedgeGrade (dim : ℕ) (r s : ℕ) : Option ℕ :=
  let grade := r + s
  if grade > dim then none else some grade

/-! ## The bubble sort with contraction, ga.py:244-288 -/

/-- Loop state of `_of_basis_blades_ortho` at the end of one pass: the flag `ordered`, the
variable `n` (here `len`), `sgn`, `result` and the list `index`. -/
structure DotState (n : ℕ) (R : Type*) where
  ordered : Bool
  len : ℕ
  sgn : ℤ
  result : R
  index : List (Fin n)

/-- ga.py:262-279: the inner `while i2 < n` loop.  `p` holds `index[i1], index[i1-1], ...` and `q`
holds `index[i2], index[i2+1], ...` (the loop guard `i2 < n` is `q ≠ []` because `n` is the length
of `index`).  `none` models `return zero`. After a contraction `i2` is not advanced, so the next
comparison is between the two entries following the removed pair. -/
def dotPass {R : Type*} [CommRing R] (g : Matrix (Fin n) (Fin n) R) (grade : ℕ) :
    (p q : List (Fin n)) → (ordered : Bool) → (len : ℕ) → (sgn : ℤ) → (result : R) →
    Option (DotState n R)
  | p, [], ordered, len, sgn, result => some ⟨ordered, len, sgn, result, p.reverse⟩
  | [], y :: q, ordered, len, sgn, result => dotPass g grade [y] q ordered len sgn result
  | x :: p, y :: q, ordered, len, sgn, result =>
    if x = y then
      if (len : ℤ) - 2 < grade then none
      else
        match q with
        | [] => some ⟨ordered, len - 2, sgn, result * g x x, p.reverse⟩
        | z :: q' => dotPass g grade (z :: p) q' ordered (len - 2) sgn (result * g x x)
    else if x > y then dotPass g grade (x :: y :: p) q false len (-sgn) result
    else dotPass g grade (y :: x :: p) q ordered len sgn result
termination_by _ q => q.length

/-- Number of inversions (pairs in the wrong order) of a list; measure for termination only. -/
def inv : List (Fin n) → ℕ
  | [] => 0
  | x :: l => (l.filter (· < x)).length + inv l

theorem inv_le_of_sublist {l m : List (Fin n)} (h : l.Sublist m) : inv l ≤ inv m := by
  induction h with
  | slnil => simp
  | cons x _ ih => simp only [inv]; omega
  | cons_cons x h ih =>
    simp only [inv]
    have := (h.filter (· < x)).length_le
    omega

theorem inv_swap (l : List (Fin n)) {x y : Fin n} (m : List (Fin n)) (h : y < x) :
    inv (l ++ x :: y :: m) = inv (l ++ y :: x :: m) + 1 := by
  induction l with
  | nil =>
    have h1 : ¬ x < y := not_lt.mpr h.le
    simp [inv, h, h1]
    omega
  | cons a l ih =>
    simp only [List.cons_append, inv, ih, List.filter_append, List.filter_cons, List.length_append]
    split_ifs <;> (try simp only [List.length_cons]) <;> omega

/-- One pass never increases the number of inversions and strictly decreases it when a swap was
made. -/
theorem dotPass_inv {R : Type*} [CommRing R] (g : Matrix (Fin n) (Fin n) R) (grade : ℕ) :
    ∀ (p q : List (Fin n)) (ordered : Bool) (len : ℕ) (sgn : ℤ) (result : R) (s : DotState n R),
      dotPass g grade p q ordered len sgn result = some s →
      inv s.index ≤ inv (p.reverse ++ q) ∧
        (ordered = true → s.ordered = false → inv s.index < inv (p.reverse ++ q)) := by
  intro p q ordered len sgn result
  fun_induction dotPass g grade p q ordered len sgn result with
  | case1 p ordered len sgn result =>
    rintro s ⟨⟩
    simp +contextual
  | case2 y q ordered len sgn result ih =>
    intro s hs
    simpa using ih s hs
  | case3 => intro s hs; simp at hs
  | case4 p y ordered len sgn result h =>
    rintro s ⟨⟩
    constructor
    · exact inv_le_of_sublist (by simp)
    · simp +contextual
  | case5 p y ordered len sgn result h z q' ih =>
    intro s hs
    have hsub : inv ((z :: p).reverse ++ q') ≤ inv ((y :: p).reverse ++ y :: z :: q') := by
      apply inv_le_of_sublist
      simp only [List.reverse_cons, List.append_assoc, List.cons_append, List.nil_append]
      exact List.Sublist.append_left (by simp) _
    obtain ⟨h1, h2⟩ := ih s hs
    exact ⟨h1.trans hsub, fun a b => (h2 a b).trans_le hsub⟩
  | case6 x p y q ordered len sgn result h1 h2 ih =>
    intro s hs
    obtain ⟨h3, -⟩ := ih s hs
    have := inv_swap p.reverse q h2
    simp only [List.reverse_cons, List.append_assoc, List.cons_append, List.nil_append] at *
    exact ⟨by omega, fun _ _ => by omega⟩
  | case7 x p y q ordered len sgn result h1 h2 ih =>
    intro s hs
    simpa using ih s hs

/-- ga.py:259-281: the outer `while n > grade` loop of `_of_basis_blades_ortho`. -/
def dotLoop {R : Type*} [CommRing R] (g : Matrix (Fin n) (Fin n) R) (grade : ℕ)
    (len : ℕ) (sgn : ℤ) (result : R) (index : List (Fin n)) : Option (DotState n R) :=
  if len > grade then
    match h : dotPass g grade [] index true len sgn result with
    | none => none
    | some s =>
      if hs : s.ordered = true then some s
      else dotLoop g grade s.len s.sgn s.result s.index
  else some ⟨false, len, sgn, result, index⟩
termination_by inv index
decreasing_by
  have := (dotPass_inv g grade _ _ _ _ _ _ s h).2 rfl (by simpa using hs)
  simpa using this

/-- ga.py:244-288 `_SingleGradeProductFunction._of_basis_blades_ortho` on the index tuples of the
two blades; `none` is `return zero`, otherwise coefficient and index tuple. -/
def dotOrtho {R : Type*} [CommRing R] (g : Matrix (Fin n) (Fin n) R)
    (resultGrade : ℕ → ℕ → Option ℕ) (I J : List (Fin n)) : Option (R × List (Fin n)) :=
  match resultGrade I.length J.length with
  | none => none
  | some grade =>
    match dotLoop g grade (I ++ J).length 1 1 (I ++ J) with
    | none => none
    | some s => if s.len > grade then none else some ((s.sgn : R) * s.result, s.index)

/-! ## Normal ordering for a non-orthogonal basis, ga.py:1273-1393 -/

/-- Result of `Ga.reduce_basis_loop`: the Python function returns `True`, a triple or a
quadruple. -/
inductive LoopResult (n : ℕ) (R : Type*)
  /-- `True`: the list is in normal order -/
  | done
  /-- `(g[i,i], blst, blst_flg)`: a repeated index was contracted -/
  | contracted (a : R) (blst : List (Fin n)) (flg : Bool)
  /-- `(a1, blst1, blst1_flg, blst)`: a pair in the wrong order was revised -/
  | revised (a1 : R) (blst1 : List (Fin n)) (flg : Bool) (blst : List (Fin n))

/-- ga.py:1369-1393: the `for jstep in range(1, nblst)` loop.  `p` is the reversed prefix
`blst[istep], ..., blst[0]`, `q` is `blst[jstep:]`. -/
def reduceScan {R : Type*} [CommRing R] (g : Matrix (Fin n) (Fin n) R) :
    (p q : List (Fin n)) → LoopResult n R
  | _, [] => .done
  | [], y :: q => reduceScan g [y] q
  | x :: p, y :: q =>
    if x = y then
      let blst := p.reverse ++ q
      .contracted (g x x) blst (decide (blst.length ≤ 1) || decide (q = []))
    else if x > y then
      let blst1 := p.reverse ++ q
      .revised (2 * g y x) blst1 (decide (blst1.length ≤ 1)) (p.reverse ++ y :: x :: q)
    else reduceScan g (y :: x :: p) q
termination_by _ q => q.length

/-- ga.py:1341-1393 `Ga.reduce_basis_loop`. -/
def reduceBasisLoop {R : Type*} [CommRing R] (g : Matrix (Fin n) (Fin n) R)
    (blst : List (Fin n)) : LoopResult n R :=
  if blst.length ≤ 1 then .done else reduceScan g [] blst

/-- One entry of the parallel lists `blst_coef`, `blst_expand`, `blst_flg` of
`Ga.reduce_basis`. -/
structure Entry (n : ℕ) (R : Type*) where
  coef : R
  expand : List (Fin n)
  flg : Bool

/-- Body of the `for i in range(len(blst_flg))` loop, ga.py:1311-1329: the new entry `i` and the
entry appended at the end, if any. -/
def reviseEntry {R : Type*} [CommRing R] (g : Matrix (Fin n) (Fin n) R) (en : Entry n R) :
    Entry n R × List (Entry n R) :=
  if en.flg then (en, [])
  else
    match reduceBasisLoop g en.expand with
    | .done => ({ en with flg := true }, [])
    | .contracted a blst flg => (⟨a * en.coef, blst, flg⟩, [])
    | .revised a1 blst1 flg1 blst =>
      let c := -en.coef
      (⟨c, blst, false⟩, [⟨-c * a1, blst1, flg1⟩])

/-- One round of the `for` loop, ga.py:1310-1329.  `range(len(blst_flg))` is evaluated before the
loop, so appended entries wait for the next round. -/
def reviseRound {R : Type*} [CommRing R] (g : Matrix (Fin n) (Fin n) R) (st : List (Entry n R)) :
    List (Entry n R) :=
  st.map (fun en => (reviseEntry g en).1) ++ st.flatMap (fun en => (reviseEntry g en).2)

/-- Termination measure: bound on the number of further rounds. -/
def entryMeasure {R : Type*} (en : Entry n R) : ℕ :=
  if en.flg then 0 else 1 + en.expand.length + inv en.expand

/-- Termination measure of the whole state. -/
def stateMeasure {R : Type*} (st : List (Entry n R)) : ℕ :=
  (st.map entryMeasure).foldr max 0

theorem foldr_max_le {l : List ℕ} {k : ℕ} : l.foldr max 0 ≤ k ↔ ∀ x ∈ l, x ≤ k := by
  induction l with
  | nil => simp
  | cons a l ih => simp [ih]

theorem reduceScan_measure {R : Type*} [CommRing R] (g : Matrix (Fin n) (Fin n) R) :
    ∀ p q : List (Fin n),
      match reduceScan g p q with
      | .done => True
      | .contracted _ b _ => b.length + inv b + 2 ≤ (p.reverse ++ q).length + inv (p.reverse ++ q)
      | .revised _ b1 _ b =>
        b1.length + inv b1 + 2 ≤ (p.reverse ++ q).length + inv (p.reverse ++ q) ∧
        b.length + inv b < (p.reverse ++ q).length + inv (p.reverse ++ q) := by
  intro p q
  fun_induction reduceScan g p q with
  | case1 => simp
  | case2 y q ih => simpa using ih
  | case3 p y q =>
    have : inv (p.reverse ++ q) ≤ inv (p.reverse ++ y :: y :: q) :=
      inv_le_of_sublist (List.Sublist.append_left (by simp) _)
    simp only [List.reverse_cons, List.append_assoc, List.cons_append, List.nil_append,
      List.length_append, List.length_cons] at *
    omega
  | case4 x p y q h1 h2 =>
    have : inv (p.reverse ++ q) ≤ inv (p.reverse ++ x :: y :: q) :=
      inv_le_of_sublist (List.Sublist.append_left (by simp) _)
    have h3 := inv_swap p.reverse q h2
    simp only [List.reverse_cons, List.append_assoc, List.cons_append, List.nil_append,
      List.length_append, List.length_cons] at *
    omega
  | case5 x p y q h1 h2 ih => simpa using ih

theorem reviseEntry_measure {R : Type*} [CommRing R] (g : Matrix (Fin n) (Fin n) R)
    (en : Entry n R) :
    entryMeasure (reviseEntry g en).1 ≤ entryMeasure en - 1 ∧
      ∀ e' ∈ (reviseEntry g en).2, entryMeasure e' ≤ entryMeasure en - 1 := by
  unfold reviseEntry
  by_cases hf : en.flg = true
  · simp [hf, entryMeasure]
  · have hfl : en.flg = false := by simpa using hf
    simp only [hfl, Bool.false_eq_true, if_false]
    have hm := reduceScan_measure g [] en.expand
    unfold reduceBasisLoop
    by_cases hl : en.expand.length ≤ 1
    · simp [hl, entryMeasure]
    · simp only [hl, if_false, entryMeasure, hfl]
      cases hr : reduceScan g [] en.expand with
      | done => simp
      | contracted a b f =>
        rw [hr] at hm
        simp only [List.reverse_nil, List.nil_append] at hm
        simp only [List.not_mem_nil, false_imp_iff, implies_true, and_true, Bool.false_eq_true,
          if_false]
        split_ifs <;> omega
      | revised a b1 f b =>
        rw [hr] at hm
        simp only [List.reverse_nil, List.nil_append] at hm
        simp only [List.mem_singleton, forall_eq, Bool.false_eq_true, if_false]
        refine ⟨by omega, ?_⟩
        split_ifs <;> omega

theorem reviseRound_measure {R : Type*} [CommRing R] (g : Matrix (Fin n) (Fin n) R)
    (st : List (Entry n R)) (h : st.all (·.flg) = false) :
    stateMeasure (reviseRound g st) < stateMeasure st := by
  have hpos : 0 < stateMeasure st := by
    by_contra h0
    have h1 : stateMeasure st ≤ 0 := by omega
    rw [stateMeasure, foldr_max_le] at h1
    have h2 : st.all (·.flg) = true := by
      rw [List.all_eq_true]
      intro en hen
      have := h1 _ (List.mem_map_of_mem hen)
      by_contra hf
      simp [entryMeasure, hf] at this
    rw [h2] at h
    exact absurd h (by simp)
  have hle : ∀ en ∈ st, entryMeasure en ≤ stateMeasure st := fun en hen =>
    (foldr_max_le (k := stateMeasure st)).mp le_rfl _ (List.mem_map_of_mem hen)
  suffices hs : stateMeasure (reviseRound g st) ≤ stateMeasure st - 1 by omega
  rw [stateMeasure, foldr_max_le]
  intro x hx
  simp only [reviseRound, List.map_append, List.mem_append, List.mem_map, List.mem_flatMap] at hx
  rcases hx with ⟨_, ⟨en, hen, rfl⟩, rfl⟩ | ⟨e', ⟨en, hen, he'⟩, rfl⟩
  · have := (reviseEntry_measure g en).1
    have := hle en hen
    omega
  · have := (reviseEntry_measure g en).2 e' he'
    have := hle en hen
    omega

/-- ga.py:1309-1329: `while not reduce(operator.and_, blst_flg)`. -/
def reduceRounds {R : Type*} [CommRing R] (g : Matrix (Fin n) (Fin n) R)
    (st : List (Entry n R)) : List (Entry n R) :=
  if h : st.all (·.flg) = true then st else reduceRounds g (reviseRound g st)
termination_by stateMeasure st
decreasing_by exact reviseRound_measure g st (by simpa using h)

/-- `if xpand in new_blst_expand: new_blst_coef[i] += coef else: append`, ga.py:1333-1338. -/
def addCoef {R : Type*} [CommRing R] {α : Type*} [DecidableEq α] (c : R) (x : α) :
    List (R × α) → List (R × α)
  | [] => [(c, x)]
  | (d, y) :: l => if y = x then (d + c, y) :: l else (d, y) :: addCoef c x l

/-- ga.py:1330-1339: combine equal index lists. -/
def gather {R : Type*} [CommRing R] {α : Type*} [DecidableEq α] (l : List (R × α)) :
    List (R × α) :=
  l.foldl (fun acc t => addCoef t.1 t.2 acc) []

/-- ga.py:1273-1339 `Ga.reduce_basis`: coefficients and normal ordered index lists. -/
def reduceBasis {R : Type*} [CommRing R] (g : Matrix (Fin n) (Fin n) R)
    (blst : List (Fin n)) : List (R × List (Fin n)) :=
  if blst = [] then [(1, [])]
  else gather ((reduceRounds g [⟨1, blst, false⟩]).map fun en => (en.coef, en.expand))

end GA
