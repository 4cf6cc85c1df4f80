import Verif.Model.PrintRref
import Verif.Proofs.Session
import Verif.Spec.LinearEq
import Mathlib.LinearAlgebra.Matrix.NonsingularInverse
import Mathlib.Data.Rat.Defs

/-!
# C117: the equations that `printrref` prints
-/

set_option maxRecDepth 10000

namespace GA
open Linear

section
variable {K : Type*} {str : K → List Char} {num : List Char → Option K}

/-- The words of the equation with these terms. -/
def eqnWords (str : K → List Char) (d : K) : List (K × Char) → List (List Char)
  | [] => [[], ['='], str d]
  | [p] => [str p.1 ++ [p.2], ['='], str d]
  | p :: q :: L => (str p.1 ++ [p.2]) :: ['+'] :: eqnWords str d (q :: L)

theorem rref_loop (d : K) {cols : ℕ} (L : List (K × Char)) (hL : L ≠ []) (i : ℕ) (hi : i + L.length + 1 = cols)
    (acc : List Char) :
    (L.zipIdx i).foldl (fun result e =>
      let result := result ++ (str e.1.1 ++ [e.1.2])
      if (e.2 : ℤ) ≠ (cols : ℤ) - 2 then result ++ " + ".toList else result) acc ++ (" = ".toList ++ str d) =
      acc ++ [' '].intercalate (eqnWords str d L) := by
  induction L generalizing i acc with
  | nil => exact absurd rfl hL
  | cons p L ih =>
    cases L with
    | nil =>
      simp only [List.length_cons, List.length_nil] at hi
      have : (i : ℤ) = (cols : ℤ) - 2 := by omega
      simp [this, eqnWords, List.intercalate]
    | cons q L =>
      have hn : (i : ℤ) ≠ (cols : ℤ) - 2 := by simp only [List.length_cons] at hi; omega
      rw [List.zipIdx_cons, List.foldl_cons]
      simp only [if_pos hn]
      rw [ih (by simp) (i + 1) (by simp only [List.length_cons] at hi ⊢; omega)]
      rw [eqnWords]
      have : ∀ (a b : List Char) (l : List (List Char)), l ≠ [] → [' '].intercalate (a :: b :: l) =
          a ++ ' ' :: (b ++ ' ' :: [' '].intercalate l) := by
        intro a b l hl
        cases l with
        | nil => exact absurd rfl hl
        | cons c l => simp [List.intercalate]
      rw [this _ _ _ (by cases L <;> simp [eqnWords])]
      simp

theorem eqnWords_blank (hstr : ∀ c, ' ' ∉ str c) (d : K) {L : List (K × Char)} (hL : ∀ p ∈ L, p.2 ≠ ' ') :
    ∀ w ∈ eqnWords str d L, ' ' ∉ w := by
  induction L with
  | nil => simp [eqnWords, hstr]
  | cons p L ih =>
    have hp : ' ' ∉ str p.1 ++ [p.2] := by
      simp only [List.mem_append, List.mem_singleton, not_or]
      exact ⟨hstr _, (hL p (by simp)).symm⟩
    cases L with
    | nil => simpa [eqnWords, hstr] using hp
    | cons q L =>
      intro w hw
      rw [eqnWords, List.mem_cons, List.mem_cons] at hw
      rcases hw with rfl | rfl | hw
      · exact hp
      · simp
      · exact ih (fun p hp => hL p (by simp [hp])) w hw

theorem readWords_eqnWords (hnum : ∀ c, num (str c) = some c) (d : K) {L : List (K × Char)} (hL : L ≠ []) :
    readWords num (eqnWords str d L) = some ⟨L, d⟩ := by
  have ht : ∀ p : K × Char, readTerm num (str p.1 ++ [p.2]) = some p := fun p => by simp [readTerm, hnum]
  induction L with
  | nil => exact absurd rfl hL
  | cons p L ih =>
    cases L with
    | nil => simp [eqnWords, readWords, ht, hnum]
    | cons q L =>
      rw [eqnWords]
      have := ih (by simp)
      have e : readWords num ((str p.1 ++ [p.2]) :: ['+'] :: eqnWords str d (q :: L)) =
          (readTerm num (str p.1 ++ [p.2])).bind fun c => (readWords num (eqnWords str d (q :: L))).map fun e =>
            ⟨c :: e.terms, e.rhs⟩ := by
        rw [readWords]
      rw [e, ht, this]
      rfl

theorem rrefLine_read (hstr : ∀ c, ' ' ∉ str c) (hnum : ∀ c, num (str c) = some c) {vars : List Char} (hv : ' ' ∉ vars)
    {l : List K} (hl : l ≠ []) (d : K) (hlen : l.length ≤ vars.length) :
    ∃ t, rrefLine str vars (l.length + 1) (l ++ [d]) = some t ∧ readEqn num t = some ⟨l.zip vars, d⟩ := by
  have h0 : l.zip vars ≠ [] := by
    intro h
    rw [List.zip_eq_nil_iff] at h
    rcases h with h | h
    · exact hl h
    · rw [h] at hlen
      exact hl (by simpa using hlen)
  refine ⟨[' '].intercalate (eqnWords str d (l.zip vars)), ?_, ?_⟩
  · have := rref_loop (str := str) d (cols := l.length + 1) (l.zip vars) h0 0 (by
      rw [List.length_zip]; omega) []
    rw [List.nil_append] at this
    rw [rrefLine]
    simp only [Nat.add_sub_cancel, List.take_left', List.getLast?_append, List.getLast?_singleton, Option.some_or,
      Option.map_some]
    rw [this]
  · rw [readEqn, List.splitOn_intercalate, readWords_eqnWords hnum d h0]
    · exact eqnWords_blank hstr d fun p hp h => hv (h ▸ (List.of_mem_zip (show (p.1, p.2) ∈ _ from hp)).2)
    · cases h : l.zip vars with
      | nil => exact absurd h h0
      | cons p L => cases L <;> simp [eqnWords]

/-- C117, in part: if there are enough variables, `printrref` prints one line for every row; each is read as a linear
equation, and the equations have the same solutions as the system whose augmented matrix is `M`.  This is for entries
whose texts have no blanks and can be read (`hstr`, `hnum`), at least one variable, and an `rref` that comes from `M` by
row operations (`hR`).  Missing: other entries, see `C117_sum_counterexample`, and matrices with less than two columns,
see `C117_column_counterexample`. -/
theorem C117_solutions_partial [CommRing K] (hstr : ∀ c, ' ' ∉ str c) (hnum : ∀ c, num (str c) = some c)
    {vars : List Char} (hv : ' ' ∉ vars) {r m : ℕ} (hm : 0 < m) (hlen : m ≤ vars.length)
    {rref : Matrix (Fin r) (Fin (m + 1)) K → Matrix (Fin r) (Fin (m + 1)) K} (M : Matrix (Fin r) (Fin (m + 1)) K)
    (hR : ∃ U : Matrix (Fin r) (Fin r) K, IsUnit U ∧ rref M = U * M) :
    ∃ (lines : List (List Char)) (eqs : List (Eqn K)), printrref rref str vars M = some lines ∧ lines.length = r ∧
      lines.map (readEqn num) = eqs.map some ∧
      ∀ x : Char → K, (∀ e ∈ eqs, Eqn.Solves e x) ↔
        ∀ i, ∑ j : Fin m, M i j.castSucc * x (vars[j]) = M i (Fin.last m) := by
  obtain ⟨U, hU, hR⟩ := hR
  have hrow : ∀ i, List.ofFn (rref M i) = (List.ofFn fun j : Fin m => rref M i j.castSucc) ++ [rref M i (Fin.last m)] := by
    intro i
    rw [List.ofFn_succ']
    simp [List.concat_eq_append]
  have hl : ∀ i, ∃ t, rrefLine str vars (m + 1) (List.ofFn (rref M i)) = some t ∧
      readEqn num t = some ⟨(List.ofFn fun j : Fin m => rref M i j.castSucc).zip vars, rref M i (Fin.last m)⟩ := by
    intro i
    rw [hrow]
    have := rrefLine_read hstr hnum hv (l := List.ofFn fun j : Fin m => rref M i j.castSucc) (by
      intro h
      have := congrArg List.length h
      simp at this
      omega) (rref M i (Fin.last m)) (by simpa using hlen)
    simpa using this
  choose t ht ht' using hl
  refine ⟨List.ofFn t, List.ofFn fun i => ⟨(List.ofFn fun j : Fin m => rref M i j.castSucc).zip vars,
    rref M i (Fin.last m)⟩, ?_, by simp, ?_, fun x => ?_⟩
  · rw [printrref, if_neg (by push_cast; omega)]
    simp only [ht]
    have : ∀ l : List (List Char), (l.map some).mapM id = some l := by
      intro l
      induction l with
      | nil => rfl
      | cons a l ih => simp [ih]
    rw [show (List.ofFn fun i => some (t i)) = (List.ofFn t).map some by rw [List.map_ofFn]; rfl, this]
  · rw [List.map_ofFn, List.map_ofFn]
    congr 1
    funext i
    exact ht' i
  · have hz : ∀ i, (List.ofFn fun j : Fin m => rref M i j.castSucc).zip vars =
        List.ofFn fun j : Fin m => (rref M i j.castSucc, vars[j]) := by
      intro i
      refine List.ext_getElem (by simpa using hlen) fun a h1 h2 => ?_
      simp
    simp only [List.forall_mem_ofFn_iff, Eqn.Solves, hz, List.map_ofFn, List.sum_ofFn, Function.comp]
    have hU' : ∀ v : Fin r → K, U.mulVec v = 0 ↔ v = 0 := by
      intro v
      constructor
      · intro h
        have := congrArg (U⁻¹.mulVec) h
        rwa [Matrix.mulVec_mulVec, Matrix.nonsing_inv_mul _ ((Matrix.isUnit_iff_isUnit_det U).mp hU), Matrix.one_mulVec,
          Matrix.mulVec_zero] at this
      · rintro rfl; exact Matrix.mulVec_zero _
    have key := hU' fun i => ∑ j : Fin m, M i j.castSucc * x (vars[j]) - M i (Fin.last m)
    simp only [funext_iff, Pi.zero_apply, sub_eq_zero] at key
    rw [← key]
    refine forall_congr' fun i => ?_
    rw [← sub_eq_zero]
    have e : U.mulVec (fun i => ∑ j : Fin m, M i j.castSucc * x (vars[j]) - M i (Fin.last m)) i =
        ∑ j : Fin m, rref M i j.castSucc * x (vars[j]) - rref M i (Fin.last m) := by
      rw [hR]
      simp only [Matrix.mulVec, dotProduct, Matrix.mul_apply, mul_sub, Finset.sum_sub_distrib, Finset.sum_mul,
        Finset.mul_sum]
      rw [Finset.sum_comm]
      simp only [mul_assoc]
    rw [e]

/-- C117: with too few variables it prints this. -/
theorem C117_variables {r m : ℕ} {rref : Matrix (Fin r) (Fin (m + 1)) K → Matrix (Fin r) (Fin (m + 1)) K}
    {vars : List Char} (h : vars.length < m) (M : Matrix (Fin r) (Fin (m + 1)) K) :
    printrref rref str vars M = some ["Not enough variables.".toList] := by
  rw [printrref, if_pos (by push_cast; omega)]

/-- C117 is false of sums: the equation x + (a + b) y = 0 is printed without parentheses, and is read as none, or as
another equation if one reads `a` and `b` as variables. -/
theorem C117_sum_counterexample {str : K → List Char} {one s zero : K} (h1 : str one = ['1'])
    (hs : str s = "a + b".toList) (h0 : str zero = ['0']) :
    printrref (rows := 1) (cols := 3) id str "xy".toList (fun _ => ![one, s, zero]) =
      some ["1x + a + by = 0".toList] := by
  have e : rrefLine str "xy".toList 3 [one, s, zero] =
      some (((([] ++ (str one ++ ['x'])) ++ " + ".toList) ++ (str s ++ ['y'])) ++ (" = ".toList ++ str zero)) := rfl
  rw [h1, hs, h0] at e
  unfold printrref
  rw [if_neg (by simp)]
  have : (List.ofFn fun i : Fin 1 => rrefLine str "xy".toList 3
      (List.ofFn (id (fun _ : Fin 1 => ![one, s, zero]) i))) = [rrefLine str "xy".toList 3 [one, s, zero]] := by
    simp [List.ofFn_succ]
  refine (congrArg (List.mapM id) this).trans ?_
  rw [e]
  rfl

/-- C117 is false of a matrix with one column: the line has no left side and says no equation. -/
theorem C117_column_counterexample {d : K} (str : K → List Char) (num : List Char → Option K) (hd : ' ' ∉ str d) :
    printrref (rows := 1) (cols := 1) id str "xy".toList (fun _ => ![d]) = some [" = ".toList ++ str d] ∧
      readEqn num (" = ".toList ++ str d) = none := by
  constructor
  · have e : rrefLine str "xy".toList 1 [d] = some (" = ".toList ++ str d) := rfl
    unfold printrref
    rw [if_neg (by simp)]
    have : (List.ofFn fun i : Fin 1 => rrefLine str "xy".toList 1 (List.ofFn (id (fun _ : Fin 1 => ![d]) i))) =
        [rrefLine str "xy".toList 1 [d]] := by
      simp [List.ofFn_succ]
    refine (congrArg (List.mapM id) this).trans ?_
    rw [e]
    rfl
  · have : " = ".toList ++ str d = [' '].intercalate [[], ['='], str d] := by simp [List.intercalate]
    rw [readEqn, this, List.splitOn_intercalate _ (by simp [hd]) (by simp)]
    rfl

end

/-! ### Example -/

/-- Whole numbers as text. -/
def intText (i : ℤ) : List Char := (if i < 0 then ['-'] else []) ++ Nat.toDigits 10 i.natAbs

/-- The text of a whole number is read. -/
def intNum (s : List Char) : Option ℤ :=
  match s with
  | '-' :: t => some (-(Nat.ofDigitChars 10 t 0 : ℕ))
  | t => some (Nat.ofDigitChars 10 t 0 : ℕ)

theorem intNum_intText (c : ℤ) : intNum (intText c) = some c := by
  rw [intText]
  by_cases h : c < 0
  · rw [if_pos h, List.singleton_append, intNum, Nat.ofDigitChars_toDigits (by norm_num) (by norm_num)]
    congr 1
    omega
  · rw [if_neg h, List.nil_append]
    have hd : ∀ t, Nat.toDigits 10 c.natAbs ≠ '-' :: t := by
      intro t ht
      have := isDigit_strNat (c := '-') (i := c.natAbs) (by rw [strNat, ht]; simp)
      exact absurd this (by decide)
    have : intNum (Nat.toDigits 10 c.natAbs) = some ((Nat.ofDigitChars 10 (Nat.toDigits 10 c.natAbs) 0 : ℕ) : ℤ) := by
      unfold intNum
      split
      · rename_i t h; exact absurd h (hd t)
      · rfl
    rw [this, Nat.ofDigitChars_toDigits (by norm_num) (by norm_num)]
    congr 1
    omega

theorem blank_intText (c : ℤ) : ' ' ∉ intText c := by
  rw [intText, List.mem_append, not_or]
  refine ⟨by split_ifs <;> simp, not_mem_strNat (by decide) _⟩

/-- The hypotheses of `C117_solutions_partial` are met for the system x - 2y = -3, y = 2. -/
example : ∃ U : Matrix (Fin 2) (Fin 2) ℤ, IsUnit U ∧ (!![1, 0, 1; 0, 1, 2] : Matrix (Fin 2) (Fin 3) ℤ) =
    U * !![1, -2, -3; 0, 1, 2] := by
  refine ⟨!![1, 2; 0, 1], ?_, by decide⟩
  rw [Matrix.isUnit_iff_isUnit_det]
  simp

example : printrref (fun _ : Matrix (Fin 2) (Fin 3) ℤ => !![1, 0, 1; 0, 1, 2]) intText "xyz".toList
    !![1, -2, -3; 0, 1, 2] = some ["1x + 0y = 1".toList, "0x + 1y = 2".toList] := by decide +kernel

example : readEqn intNum "1x + -2y = -3".toList = some ⟨[(1, 'x'), (-2, 'y')], -3⟩ := by rfl

end GA
