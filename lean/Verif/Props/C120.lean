import Verif.Model.PrintGS

/-!
# C120: the vectors that `printGS` and `printeigen` print

`vecText l` is the text of a vector whose components have the texts `l`.
-/

set_option maxRecDepth 10000

namespace GA
variable {α β : Type}

/-- The text of a vector with the texts `l` of its components: `[a, b, c]`. -/
def vecText (l : List (List Char)) : List Char := '[' :: (", ".toList.intercalate l ++ [']'])

theorem comma_loop (str : α → List Char) (v : List α) (hv : v ≠ []) (i m : ℕ) (hm : i + v.length = m) (acc : List Char) :
    (v.zipIdx i).foldl (fun result e =>
      let result := result ++ str e.1
      if (e.2 : ℤ) ≠ (m : ℤ) - 1 then result ++ ", ".toList else result) acc =
      acc ++ ", ".toList.intercalate (v.map str) := by
  induction v generalizing i acc with
  | nil => exact absurd rfl hv
  | cons x v ih =>
    cases v with
    | nil =>
      have : (i : ℤ) = (m : ℤ) - 1 := by simp only [List.length_cons, List.length_nil] at hm; omega
      simp [this, List.intercalate]
    | cons y v =>
      have hn : (i : ℤ) ≠ (m : ℤ) - 1 := by simp only [List.length_cons] at hm; omega
      rw [List.zipIdx_cons, List.foldl_cons]
      simp only [if_pos hn]
      rw [ih (by simp) (i + 1) (by simp only [List.length_cons] at hm ⊢; omega)]
      simp [List.intercalate_cons_cons]

theorem eigenLine_eq (str : α → List Char) (v : List α) : eigenLine str v = vecText (v.map str) ++ [' '] := by
  rw [eigenLine, vecText]
  by_cases hv : v = []
  · subst hv; rfl
  · rw [comma_loop str v hv 0 v.length (by simp)]
    simp

theorem range_loop (str : α → List Char) (v : List α) (m : ℕ) (acc : List Char) (j0 : Option ℕ) :
    ∀ (k i : ℕ), i + k = v.length → 
    ((List.range' i k).foldlM (m := Option) (fun (s : List Char × Option ℕ) (j : ℕ) => do
      let x ← v[j]?
      let result := s.1 ++ str x
      some (if (j : ℤ) ≠ (m : ℤ) - 1 then result ++ ", ".toList else result, some j)) (acc, j0)) =
      some (((v.drop i).zipIdx i).foldl (fun result e =>
        let result := result ++ str e.1
        if (e.2 : ℤ) ≠ (m : ℤ) - 1 then result ++ ", ".toList else result) acc,
        if k = 0 then j0 else some (v.length - 1)) := by
  intro k
  induction k generalizing acc j0 with
  | zero => intro i hi; simp [List.drop_eq_nil_of_le (show v.length ≤ i by omega)]
  | succ k ih =>
    intro i hi
    have hlt : i < v.length := by omega
    rw [List.range'_succ, List.foldlM_cons, List.getElem?_eq_getElem hlt]
    refine (ih (if (i : ℤ) ≠ (m : ℤ) - 1 then acc ++ str v[i] ++ ", ".toList else acc ++ str v[i]) (some i) (i + 1)
      (by omega)).trans ?_
    rw [List.drop_eq_getElem_cons hlt, List.zipIdx_cons, List.foldl_cons, if_neg (Nat.succ_ne_zero k)]
    simp only
    congr 2
    split_ifs with hk
    · congr 1; omega
    · rfl

/-- C120: `printGS` prints the vectors that `GramSchmidt` gives, in order, as `[ [a, b] [c, d] ]`, if they have components,
the same number each. -/
theorem C120_gs (gs : Bool → List (List α) → List (List α)) (str : α → List Char) (M : List (List α)) (norm : Bool) {m : ℕ}
    (h : ∀ v ∈ gs norm M, v.length = m + 1) :
    printGS gs str M norm =
      some ("[ ".toList ++ ((gs norm M).flatMap (fun v => vecText (v.map str) ++ [' ']) ++ [']'])) := by
  rw [printGS, gsText]
  cases hN : gs norm M with
  | nil => rfl
  | cons w N =>
    rw [hN] at h
    have hw : ((w :: N).headD []).length = m + 1 := h w (by simp)
    simp only [hw]
    have key : ∀ (L : List (List α)), (∀ v ∈ L, v.length = m + 1) → ∀ (acc : List Char) (j : Option ℕ), ∃ j',
        L.foldlM (m := Option) (fun (s : List Char × Option ℕ) (v : List α) => do
          let s ← (List.range (m + 1)).foldlM (fun (s : List Char × Option ℕ) (j : ℕ) => do
            let x ← v[j]?
            let result := s.1 ++ str x
            some (if (j : ℤ) ≠ ((m + 1 : ℕ) : ℤ) - 1 then result ++ ", ".toList else result, some j)) (s.1 ++ ['['], s.2)
          let result := s.1 ++ "] ".toList
          let j ← s.2
          some (if (j : ℤ) ≠ ((m + 1 : ℕ) : ℤ) - 1 then result ++ [' '] else result, some j)) (acc, j) =
        some (acc ++ L.flatMap (fun v => vecText (v.map str) ++ [' ']), j') := by
      intro L
      induction L with
      | nil => intro _ acc j; exact ⟨j, by simp⟩
      | cons v L ih =>
        intro hL acc j
        have hv := hL v (by simp)
        have hv0 : v ≠ [] := by rintro rfl; simp at hv
        obtain ⟨j', hj⟩ := ih (fun v hv => hL v (by simp [hv])) (acc ++ (vecText (v.map str) ++ [' '])) (some m)
        refine ⟨j', ?_⟩
        have e1 := range_loop str v (m + 1) (acc ++ ['[']) j (m + 1) 0 (by omega)
        rw [comma_loop str (v.drop 0) hv0 0 (m + 1) (by rw [List.drop_zero]; omega), if_neg (Nat.succ_ne_zero m), hv,
          Nat.add_sub_cancel, List.drop_zero, ← List.range_eq_range'] at e1
        rw [List.foldlM_cons]
        simp only
        rw [e1]
        simp only [Option.bind_eq_bind, Option.bind_some] at hj ⊢
        rw [if_neg (by simp)]
        have e2 : acc ++ ['['] ++ ", ".toList.intercalate (v.map str) ++ "] ".toList = acc ++ (vecText (v.map str) ++ [' ']) := by
          simp [vecText]
        rw [e2, hj]
        simp
    obtain ⟨j', hj⟩ := key (w :: N) h "[ ".toList none
    rw [hj]
    simp

/-- C120: `printGS` raises an exception for vectors without components. -/
theorem C120_gs_empty (gs : Bool → List (List α) → List (List α)) (str : α → List Char) (M : List (List α))
    (norm : Bool) {N : List (List α)} (h : gs norm M = [] :: N) : printGS gs str M norm = none := by
  rw [printGS, gsText, h]
  rfl

/-- C120: `printeigen` prints for each eigenvalue a line with the eigenvalue and its multiplicity, then a line with each of
its eigenvectors. -/
theorem C120_eigen (repr : β → List Char) (str : α → List Char) (evects : List (β × ℕ × List (List α))) :
    printeigen repr str evects = evects.flatMap fun e =>
      ("('Eigenvalue =', ".toList ++ repr e.1 ++ ", '  Multiplicity =', ".toList ++ (toString e.2.1).toList ++
        ", ' Eigenvectors:')".toList) :: e.2.2.map fun v => vecText (v.map str) ++ [' '] := by
  have e : eigenLine str = fun v => vecText (v.map str) ++ [' '] := funext (eigenLine_eq str)
  simp only [printeigen, e, List.append_assoc]

theorem first_inj {c : Char} {a a' b b' : List Char} (h : c ∉ a) (h' : c ∉ a') :
    a ++ c :: b = a' ++ c :: b' ↔ a = a' ∧ b = b' := by
  constructor
  · intro e
    induction a generalizing a' with
    | nil =>
      cases a' with
      | nil => simpa using e
      | cons x a' => simp only [List.nil_append, List.cons_append, List.cons.injEq] at e; exact absurd (e.1 ▸ by simp) h'
    | cons x a ih =>
      cases a' with
      | nil => simp only [List.nil_append, List.cons_append, List.cons.injEq] at e; exact absurd (e.1 ▸ by simp) h
      | cons y a' =>
        simp only [List.cons_append, List.cons.injEq] at e
        simp only [List.mem_cons, not_or] at h h'
        obtain ⟨e1, e2⟩ := ih h.2 h'.2 e.2
        exact ⟨by rw [e.1, e1], e2⟩
  · rintro ⟨rfl, rfl⟩; rfl

theorem commas_inj {l l' : List (List Char)} (hl : l ≠ []) (hl' : l' ≠ []) (h : ∀ t ∈ l, ',' ∉ t) (h' : ∀ t ∈ l', ',' ∉ t)
    (e : ", ".toList.intercalate l = ", ".toList.intercalate l') : l = l' := by
  have step : ∀ (a b : List Char) (t : List (List Char)), ", ".toList.intercalate (a :: b :: t) =
      a ++ ',' :: (' ' :: ", ".toList.intercalate (b :: t)) := fun a b t => by
    rw [List.intercalate_cons_cons]; simp
  have one : ∀ a : List Char, ", ".toList.intercalate [a] = a := fun a => by simp [List.intercalate]
  induction l generalizing l' with
  | nil => exact absurd rfl hl
  | cons a l ih =>
    cases l' with
    | nil => exact absurd rfl hl'
    | cons a' l' =>
      have ha := h a (by simp)
      have ha' := h' a' (by simp)
      cases l with
      | nil =>
        cases l' with
        | nil => rw [one, one] at e; rw [e]
        | cons b' l' =>
          rw [one, step] at e
          exact absurd (e ▸ by simp) ha
      | cons b l =>
        cases l' with
        | nil =>
          rw [one, step] at e
          exact absurd (e ▸ by simp) ha'
        | cons b' l' =>
          rw [step, step, first_inj ha ha'] at e
          obtain ⟨e1, e2⟩ := e
          rw [List.cons.injEq] at e2
          rw [e1, ih (by simp) (by simp) (fun t ht => h t (by simp [ht])) (fun t ht => h' t (by simp [ht])) e2.2]

theorem bracket_commas {l : List (List Char)} (h : ∀ t ∈ l, ']' ∉ t) : ']' ∉ ", ".toList.intercalate l := by
  induction l with
  | nil => simp [List.intercalate]
  | cons a l ih =>
    cases l with
    | nil => simpa [List.intercalate] using h
    | cons b l =>
      rw [List.intercalate_cons_cons]
      simp only [List.mem_append, not_or]
      exact ⟨⟨h a (by simp), by decide⟩, ih fun t ht => h t (by simp [ht])⟩

/-- A text of a component in which no vector can end: without comma and closing bracket. -/
def PlainEntry (t : List Char) : Prop := ',' ∉ t ∧ ']' ∉ t

theorem vecText_inj {l l' : List (List Char)} (hl : l ≠ []) (hl' : l' ≠ []) (h : ∀ t ∈ l, PlainEntry t) (h' : ∀ t ∈ l', PlainEntry t)
    {r r' : List Char} (e : vecText l ++ r = vecText l' ++ r') : l = l' ∧ r = r' := by
  rw [vecText, vecText, List.cons_append, List.cons_append, List.cons.injEq, List.append_assoc, List.append_assoc,
    List.singleton_append, List.singleton_append,
    first_inj (bracket_commas fun t ht => (h t ht).2) (bracket_commas fun t ht => (h' t ht).2)] at e
  exact ⟨commas_inj hl hl' (fun t ht => (h t ht).1) (fun t ht => (h' t ht).1) e.2.1, e.2.2⟩

/-- C120: what `printGS` prints determines the vectors: if it prints the same, then the components have the same texts.
Here the texts of the components have no commas and brackets. -/
theorem C120_gs_determines (gs : Bool → List (List α) → List (List α)) {str : α → List Char} (hstr : ∀ x, PlainEntry (str x))
    {M M' : List (List α)} {norm norm' : Bool} {m m' : ℕ} (h : ∀ v ∈ gs norm M, v.length = m + 1)
    (h' : ∀ v ∈ gs norm' M', v.length = m' + 1) (e : printGS gs str M norm = printGS gs str M' norm') :
    (gs norm M).map (List.map str) = (gs norm' M').map (List.map str) := by
  rw [C120_gs gs str M norm h, C120_gs gs str M' norm' h', Option.some.injEq, List.append_right_inj] at e
  generalize gs norm M = N at *
  generalize gs norm' M' = N' at *
  have hp : ∀ v : List α, ∀ t ∈ v.map str, PlainEntry t := fun v t ht => by
    obtain ⟨x, -, rfl⟩ := List.mem_map.mp ht
    exact hstr x
  induction N generalizing N' with
  | nil =>
    cases N' with
    | nil => rfl
    | cons w N' => simp [vecText] at e
  | cons v N ih =>
    cases N' with
    | nil => simp [vecText] at e
    | cons w N' =>
      rw [List.flatMap_cons, List.flatMap_cons, List.append_assoc, List.append_assoc, List.append_assoc, List.append_assoc] at e
      have n1 : v.map str ≠ [] := fun h0 => by
        have := h v (by simp); rw [List.map_eq_nil_iff.mp h0] at this; simp at this
      have n2 : w.map str ≠ [] := fun h0 => by
        have := h' w (by simp); rw [List.map_eq_nil_iff.mp h0] at this; simp at this
      obtain ⟨e1, e2⟩ := vecText_inj n1 n2 (hp v) (hp w) e
      rw [List.map_cons, List.map_cons, e1, ih (fun v hv => h v (by simp [hv])) N' (fun v hv => h' v (by simp [hv]))
        (List.append_cancel_left e2)]

section Ex

/-- Witness: two vectors of rational numbers, here with a `gs` that gives them as they are. -/
example : printGS (fun _ M => M) (fun x : ℤ => (toString x).toList) [[1, 0], [-2, 3]] false =
    some "[ [1, 0] [-2, 3] ]".toList := by decide +kernel

/-- Witness: texts of integers are plain. -/
example : PlainEntry (toString (-12 : ℤ)).toList := by unfold PlainEntry; decide +kernel

/-- Witness: the eigenvectors of a matrix with the eigenvalues 2 and 5. -/
example : printeigen (fun x : ℤ => (toString x).toList) (fun x : ℤ => (toString x).toList) [(2, 2, [[1, 0, 0], [0, 1, 0]]),
      (5, 1, [[0, 0, 1]])] =
    ["('Eigenvalue =', 2, '  Multiplicity =', 2, ' Eigenvectors:')".toList, "[1, 0, 0] ".toList, "[0, 1, 0] ".toList,
     "('Eigenvalue =', 5, '  Multiplicity =', 1, ' Eigenvectors:')".toList, "[0, 0, 1] ".toList] := by decide +kernel

end Ex

end GA
