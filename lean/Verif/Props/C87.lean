import Verif.Model.Construct
import Verif.Props.C48
import Verif.Props.C65

/-!
# C87: the constructors of multivectors

`Mv.init env args kw` is `Mv(*args, ga=ga, **kw)` and `gaMv env args kw` is `ga.mv(*args, **kw)`, where
`env` holds the super scripts of the basis vectors, the coordinates and the values of all symbols and
functions.
-/

set_option linter.unusedSectionVars false
set_option maxRecDepth 10000

namespace GA
variable {n : ℕ} {R : Type} [CommRing R] [DecidableEq R] [Invertible (2 : R)]
  {g : Matrix (Fin n) (Fin n) R} {env : CtorEnv R}

/-! ## Specification -/

/-- The ways to write a kind after the name or the coefficients. -/
inductive Spelling (R : Type) (n : ℕ) : Kind → List (PyArg R n) → Prop
  | scalar : Spelling R n .scalar [.str "scalar".toList]
  | vector : Spelling R n .vector [.str "vector".toList]
  | bivector : Spelling R n .bivector [.str "bivector".toList]
  | grade2 : Spelling R n .bivector [.str "grade2".toList]
  | pseudo : Spelling R n .pseudo [.str "pseudo".toList]
  | mv : Spelling R n .mv [.str "mv".toList]
  | even : Spelling R n .even [.str "even".toList]
  | spinor : Spelling R n .even [.str "spinor".toList]
  | odd : Spelling R n .odd [.str "odd".toList]
  | grade (r : ℕ) : Spelling R n (.grade r) [.str "grade".toList, .int r]
  | int (r : ℕ) : Spelling R n (.grade r) [.int r]

/-- What the keyword arguments ask for: symbols, functions of the coordinates, or functions of the given
variables. -/
inductive Asks (coords : Option (List (List Char))) : Kwargs → (List Char → Atom) → Prop
  | const : Asks coords [] .symbol
  | no : Asks coords [(['f'], .bool false)] .symbol
  | all {c : List (List Char)} (h : coords = some c) :
      Asks coords [(['f'], .bool true)] fun name => .function name c
  | vars (l : List (List Char)) : Asks coords [(['f'], .vars l)] fun name => .function name l

/-- The ways to ask for grade `r` after a list of coefficients. -/
inductive CoefSpelling (R : Type) (n : ℕ) : ℕ → List (PyArg R n) → Prop
  | vector : CoefSpelling R n 1 [.str "vector".toList]
  | bivector : CoefSpelling R n 2 [.str "bivector".toList]
  | grade2 : CoefSpelling R n 2 [.str "grade2".toList]
  | pseudo : CoefSpelling R n n [.str "pseudo".toList]
  | grade (r : ℕ) : CoefSpelling R n r [.str "grade".toList, .int r]
  | int {r : ℕ} (h : r ≠ 0) : CoefSpelling R n r [.int r]

/-- The categories. -/
def categories : List (List Char) :=
  ["grade", "scalar", "vector", "bivector", "grade2", "pseudo", "mv", "even", "spinor", "odd"].map
    String.toList

/-! ## Lemmas -/

theorem mapM_ok {α β ε : Type} {f : α → Except ε β} {h : α → β} {l : List α}
    (hf : ∀ a ∈ l, f a = .ok (h a)) : l.mapM f = .ok (l.map h) := by
  induction l with
  | nil => rfl
  | cons a l ih =>
    rw [List.mapM_cons, hf a (by simp), ih fun x hx => hf x (by simp [hx])]
    rfl

theorem asks_pop {coords : Option (List (List Char))} {kw : Kwargs} {mk : List Char → Atom}
    (h : Asks coords kw mk) : ∃ f, popF kw = .ok f ∧ ∀ name, mkAtom coords f name = .ok (mk name) := by
  cases h with
  | const => exact ⟨.bool false, rfl, fun _ => rfl⟩
  | no => exact ⟨.bool false, rfl, fun _ => rfl⟩
  | all h => exact ⟨.bool true, rfl, fun _ => by rw [h]; rfl⟩
  | vars l => exact ⟨.vars l, rfl, fun _ => rfl⟩

theorem pyIndex_nat {α : Type*} (l : List α) (r : ℕ) : pyIndex l (r : ℤ) = l[r]? := by
  rw [pyIndex, if_pos (by omega), Int.toNat_natCast]

theorem indexes_get {r : ℕ} (hr : r ≤ n) :
    (indexes n)[r]? = some (combinations r (List.finRange n)) := by
  rw [indexes, List.getElem?_map, List.getElem?_range (by omega)]; rfl

theorem blades_get {r : ℕ} (hr : r ≤ n) :
    (blades n)[r]? = some ((combinations r (List.finRange n)).map mkBlade) := by
  rw [blades, List.getElem?_map, indexes_get hr]; rfl

theorem ctorGrade_str {kw : Kwargs} {mk : List Char → Atom} (hk : Asks env.coords kw mk)
    (hss : n ≤ env.scripts.length) (name : List Char) {r : ℕ} (hr : r ≤ n) :
    ctorGrade env kw (.str name : PyArg R n) (r : ℤ) =
      .ok ((combinations r (List.finRange n)).map fun I =>
        (env.atom (mk (coefName env.scripts name I)), .blade I)) := by
  obtain ⟨f, hf, ha⟩ := asks_pop hk
  rw [ctorGrade]
  simp only [hf, pyIndex_nat, indexes_get hr, blades_get hr, orErr, Except.bind, bind,
    mapM_eq_some_map fun I _ => bladeSuperScript_eq hss I, ha, List.zip_map']
  refine (mapM_ok (h := fun p : List Char × Sym n => (env.atom (mk (addSuperscript name p.1)), p.2)) fun _ _ => rfl).trans ?_
  rw [List.map_map]
  rfl

theorem ctorGrades_str {kw : Kwargs} {mk : List Char → Atom} (hk : Asks env.coords kw mk)
    (hss : n ≤ env.scripts.length) (name : List Char) {l : List ℕ} (hl : ∀ r ∈ l, r ≤ n) :
    ctorGrades env kw (.str name : PyArg R n) l =
      .ok ((l.flatMap fun r => combinations r (List.finRange n)).map fun I =>
        (env.atom (mk (coefName env.scripts name I)), .blade I)) := by
  rw [ctorGrades, mapM_ok fun r hr => ctorGrade_str hk hss name (hl r hr), List.map_flatMap]
  rfl

theorem init_str {k : Kind} {args : List (PyArg R n)} (hs : Spelling R n k args) {kw : Kwargs}
    {mk : List Char → Atom} (hk : Asks env.coords kw mk) (hss : n ≤ env.scripts.length)
    (name : List Char) (hr : ∀ r ∈ k.gradeList n, r ≤ n) :
    Mv.init env (.str name :: args) kw =
      .ok (Mv.ofExpr (((k.gradeList n).flatMap fun r => combinations r (List.finRange n)).map fun I =>
        (env.atom (mk (coefName env.scripts name I)), .blade I))) := by
  have h1 : ∀ r, r ≤ n → ctorGrade env kw (.str name : PyArg R n) (r : ℤ) = _ :=
    fun r h => ctorGrade_str hk hss name h
  have h2 : ∀ r : ℕ, ((List.map (fun I => (env.atom (mk (coefName env.scripts name I)), Sym.blade I))
      (combinations r (List.finRange n))) : Expr R n) = ([r].flatMap fun r =>
      combinations r (List.finRange n)).map fun I =>
        (env.atom (mk (coefName env.scripts name I)), .blade I) := by simp
  cases hs with
  | scalar =>
    rw [Mv.init, ctorMode, show makerOf "scalar".toList = some .scalar from rfl]
    dsimp only [make, ctorScalar, Kind.gradeList]
    rw [show (0 : ℤ) = ((0 : ℕ) : ℤ) from rfl, h1 0 (by omega), h2]; rfl
  | vector =>
    rw [Mv.init, ctorMode, show makerOf "vector".toList = some .vector from rfl]
    dsimp only [make, Kind.gradeList]
    rw [show (1 : ℤ) = ((1 : ℕ) : ℤ) from rfl, h1 1 (hr 1 (by simp [Kind.gradeList])), h2]; rfl
  | bivector =>
    rw [Mv.init, ctorMode, show makerOf "bivector".toList = some .bivector from rfl]
    dsimp only [make, Kind.gradeList]
    rw [show (2 : ℤ) = ((2 : ℕ) : ℤ) from rfl, h1 2 (hr 2 (by simp [Kind.gradeList])), h2]; rfl
  | grade2 =>
    rw [Mv.init, ctorMode, show makerOf "grade2".toList = some .bivector from rfl]
    dsimp only [make, Kind.gradeList]
    rw [show (2 : ℤ) = ((2 : ℕ) : ℤ) from rfl, h1 2 (hr 2 (by simp [Kind.gradeList])), h2]; rfl
  | pseudo =>
    rw [Mv.init, ctorMode, show makerOf "pseudo".toList = some .pseudo from rfl]
    dsimp only [make, Kind.gradeList]
    rw [h1 n le_rfl, h2]; rfl
  | mv =>
    rw [Mv.init, ctorMode, show makerOf "mv".toList = some .mv from rfl]
    dsimp only [make]
    rw [ctorGrades_str hk hss name hr]; rfl
  | even =>
    rw [Mv.init, ctorMode, show makerOf "even".toList = some .even from rfl]
    dsimp only [make]
    rw [ctorGrades_str hk hss name hr]; rfl
  | spinor =>
    rw [Mv.init, ctorMode, show makerOf "spinor".toList = some .even from rfl]
    dsimp only [make]
    rw [ctorGrades_str hk hss name hr]; rfl
  | odd =>
    rw [Mv.init, ctorMode, show makerOf "odd".toList = some .odd from rfl]
    dsimp only [make]
    rw [ctorGrades_str hk hss name hr]; rfl
  | grade r =>
    rw [Mv.init, ctorMode, show makerOf "grade".toList = some .grade from rfl]
    dsimp only [make, Kind.gradeList]
    rw [h1 r (hr r (by simp [Kind.gradeList])), h2]; rfl
  | int r =>
    have := h1 r (hr r (by simp [Kind.gradeList]))
    simp only [Mv.init, Kind.gradeList]
    rw [if_neg (by simp)]
    by_cases h0 : r = 0
    · subst h0
      rw [if_pos (by simp), ctorScalar]
      rw [Nat.cast_zero] at this
      rw [this]
      simp [Except.map]
    · rw [if_neg (by omega), this]
      simp [Except.map]

theorem valid_blades {l : List (List (Fin n))} (hl : ∀ I ∈ l, I.Pairwise (· < ·))
    (c : List (Fin n) → R) : Valid (l.map fun I => (c I, Sym.blade I)) := by
  intro t ht
  obtain ⟨I, hI, rfl⟩ := List.mem_map.mp ht
  exact ⟨I, rfl, hl I hI⟩

theorem coeff_blades {l : List (List (Fin n))} (hl : l.Nodup) (c : List (Fin n) → R)
    (J : List (Fin n)) : coeff (l.map fun I => (c I, Sym.blade I)) J = if J ∈ l then c J else 0 := by
  induction l with
  | nil => simp [coeff]
  | cons I l ih =>
    rw [List.nodup_cons] at hl
    have := ih hl.2
    simp only [coeff, List.map_cons, List.sum_cons] at this ⊢
    rw [this]
    by_cases h : I = J
    · subst h; simp [hl.1]
    · simp [h, Ne.symm h]

/-! ## Theorems -/

/-- C87: a name and a kind in any spelling.  The result contains every basis blade of the grades of the
kind, with the symbol or function named after the multivector and the blade as coefficient. -/
theorem C87_names {k : Kind} {args : List (PyArg R n)} (hs : Spelling R n k args) {kw : Kwargs}
    {mk : List Char → Atom} (hk : Asks env.coords kw mk) (hss : n ≤ env.scripts.length)
    (name : List Char) (hr : ∀ r ∈ k.gradeList n, r ≤ n) :
    ∃ A : Mv R n, Mv.init env (.str name :: args) kw = .ok A ∧ A.WF g ∧ A.isBladeRep = true ∧
      A.val g = Spec.ofCoefs g fun s => if s.card ∈ k.gradeList n then
        env.atom (mk (addSuperscript name ((s.sort (· ≤ ·)).map (script env.scripts)).flatten)) else 0 := by
  refine ⟨_, init_str hs hk hss name hr, ?_⟩
  set l := (k.gradeList n).flatMap fun r => combinations r (List.finRange n)
  have hv : Valid (l.map fun I => (env.atom (mk (coefName env.scripts name I)), Sym.blade I)) :=
    valid_blades (fun I hI => (mem_kindIndexes.mp hI).1) fun I => env.atom (mk (coefName env.scripts name I))
  refine ⟨(ofExpr_valid hv).1, (ofExpr_valid (g := g) hv).2, ?_⟩
  rw [ofExpr_val]
  refine den_ofCoefs hv fun J hJ => ?_
  rw [coeff_blades (nodup_kindIndexes k) fun I => env.atom (mk (coefName env.scripts name I)),
    sort_toFinset hJ, List.toFinset_card_of_nodup (nodup_of_lt hJ)]
  refine if_congr ?_ rfl rfl
  rw [mem_kindIndexes]
  exact ⟨fun h => h.2, fun h => ⟨hJ, h⟩⟩

theorem init_coeffs {r : ℕ} {args : List (PyArg R n)} (hs : CoefSpelling R n r args) (kw : Kwargs)
    (cs : List R) : Mv.init env (.coeffs cs :: args) kw =
      (ctorGrade env kw (.coeffs cs : PyArg R n) r).map Mv.ofExpr := by
  cases hs with
  | vector => rw [Mv.init, ctorMode, show makerOf "vector".toList = some .vector from rfl]; rfl
  | bivector => rw [Mv.init, ctorMode, show makerOf "bivector".toList = some .bivector from rfl]; rfl
  | grade2 => rw [Mv.init, ctorMode, show makerOf "grade2".toList = some .bivector from rfl]; rfl
  | pseudo => rw [Mv.init, ctorMode, show makerOf "pseudo".toList = some .pseudo from rfl]; rfl
  | grade r => rw [Mv.init, ctorMode, show makerOf "grade".toList = some .grade from rfl]; rfl
  | int h => rw [Mv.init, if_neg (by simp), if_neg (by omega)]

theorem zip_take {α β : Type*} (l : List α) (m : List β) : l.zip (m.take l.length) = l.zip m := by
  induction l generalizing m with
  | nil => rfl
  | cons a l ih => cases m <;> simp [ih]

theorem coeff_zip {L : List (List (Fin n))} (hL : L.Nodup) (cs : List R) (h : cs.length ≤ L.length) :
    L.map (coeff (cs.zip (L.map mkBlade))) = cs ++ List.replicate (L.length - cs.length) 0 := by
  induction L generalizing cs with
  | nil => simp at h; simp [h]
  | cons I L ih =>
    rw [List.nodup_cons] at hL
    cases cs with
    | nil =>
      rw [List.map_congr_left (g := fun _ => 0) fun J _ => by simp [coeff]]
      simp [List.replicate_succ]
    | cons c cs =>
      have h0 : coeff (cs.zip (L.map mkBlade)) I = 0 := by
        rw [coeff]
        refine List.sum_eq_zero fun x hx => ?_
        obtain ⟨t, ht, rfl⟩ := List.mem_map.mp hx
        obtain ⟨J, hJ, e⟩ := List.mem_map.mp (List.of_mem_zip ht).2
        rw [if_neg]
        rintro h
        rw [← e] at h
        injection h with h
        exact hL.1 (h ▸ hJ)
      have h1 : ∀ J ∈ L, coeff ((c :: cs).zip ((I :: L).map mkBlade)) J = coeff (cs.zip (L.map mkBlade)) J := by
        intro J hJ
        have : I ≠ J := fun e => hL.1 (e ▸ hJ)
        simp [coeff, mkBlade, this]
      rw [List.map_cons, List.map_congr_left h1, ih hL.2 cs (by simpa using h)]
      have : coeff ((c :: cs).zip ((I :: L).map mkBlade)) I = c + coeff (cs.zip (L.map mkBlade)) I := by
        simp [coeff, mkBlade]
      rw [this, h0]
      simp

/-- C87: a list of coefficients and a grade `r` in any spelling.  The result is the sum of the
coefficients times the basis blades of grade `r`; missing coefficients are zero. -/
theorem C87_coeffs {r : ℕ} {args : List (PyArg R n)} (hs : CoefSpelling R n r args) (hr : r ≤ n)
    {cs : List R} (hc : cs.length ≤ n.choose r) :
    ∃ A : Mv R n, Mv.init env (.coeffs cs :: args) [] = .ok A ∧ A.WF g ∧ A.isBladeRep = true ∧
      A.val g = ((cs.zip (combinations r (List.finRange n))).map fun p => p.1 • Spec.blade g p.2).sum ∧
      A.getCoefs r = some (cs ++ List.replicate (n.choose r - cs.length) 0) := by
  have hlen : (combinations r (List.finRange n)).length = n.choose r := by
    rw [length_combinations, List.length_finRange]
  have e : Mv.init env (.coeffs cs :: args) [] =
      .ok (Mv.ofExpr (cs.zip ((combinations r (List.finRange n)).map mkBlade))) := by
    rw [init_coeffs hs, ctorGrade, if_neg (by simp), pyIndex_nat, blades_get hr]
    simp only [orErr, bind, Except.bind]
    rw [if_pos (by rw [List.length_map, hlen]; exact hc), zip_take]
    rfl
  have hv : Valid (cs.zip ((combinations r (List.finRange n)).map (mkBlade (n := n)))) := by
    intro t ht
    obtain ⟨J, hJ, e⟩ := List.mem_map.mp (List.of_mem_zip ht).2
    exact ⟨J, e.symm, sublist_finRange_iff.mp (mem_combinations.mp hJ).1⟩
  have hW := ofExpr_valid (g := g) hv
  have hC : (Mv.ofExpr (cs.zip ((combinations r (List.finRange n)).map mkBlade))).val g =
      Spec.ofCoefs g fun s => coeff (cs.zip ((combinations r (List.finRange n)).map mkBlade))
        (s.sort (· ≤ ·)) := by
    rw [ofExpr_val]
    exact den_ofCoefs hv fun J hJ => by rw [sort_toFinset hJ]
  refine ⟨_, e, hW.1, hW.2, ?_, ?_⟩
  · rw [ofExpr_val, den_eq_lin, lin, List.zip_map_right, List.map_map]
    refine congrArg List.sum (List.map_congr_left fun p _ => ?_)
    rfl
  · rw [C65_get_coefs hW.1 (Or.inl hW.2) hC, if_pos]
    · have := coeff_zip (nodup_combinations r (List.nodup_finRange n)) cs (by rw [hlen]; exact hc)
      rw [hlen] at this
      rw [← this]
      congr 1
      refine List.map_congr_left fun l hl => ?_
      rw [sort_toFinset (sublist_finRange_iff.mp (mem_combinations.mp hl).1)]
    · refine ⟨hr, fun s hs => ?_⟩
      by_contra hne
      apply hs
      rw [coeff]
      refine List.sum_eq_zero fun x hx => ?_
      obtain ⟨t, ht, rfl⟩ := List.mem_map.mp hx
      obtain ⟨J, hJ, e⟩ := List.mem_map.mp (List.of_mem_zip ht).2
      rw [if_neg]
      intro h
      rw [← e] at h
      injection h with h
      apply hne
      rw [← (mem_combinations.mp hJ).2, h, Finset.length_sort]

/-- C87: too many coefficients are a `ValueError`, a grade above the dimension is an `IndexError`, and any
keyword is a `TypeError`. -/
theorem C87_coeffs_errors {r : ℕ} {args : List (PyArg R n)} (hs : CoefSpelling R n r args) (cs : List R) :
    (r ≤ n → n.choose r < cs.length →
      Mv.init env (.coeffs cs :: args) [] = .error .valueError) ∧
    (n < r → Mv.init env (.coeffs cs :: args) [] = .error .indexError) ∧
    ∀ kw, kw ≠ [] → Mv.init env (.coeffs cs :: args) kw = .error .typeError := by
  refine ⟨fun hr hc => ?_, fun hr => ?_, fun kw hk => ?_⟩
  · rw [init_coeffs hs, ctorGrade, if_neg (by simp), pyIndex_nat, blades_get hr]
    simp only [orErr, bind, Except.bind]
    rw [if_neg]
    · rfl
    · rw [List.length_map, length_combinations, List.length_finRange]; omega
  · have : (blades n)[r]? = none := by simp [blades, indexes]; omega
    rw [init_coeffs hs, ctorGrade, if_neg (by simp), pyIndex_nat, this]
    rfl
  · rw [init_coeffs hs, ctorGrade, if_pos hk]
    rfl

theorem ctorGrade_pop {kw : Kwargs} {name : List Char} {r : ℤ} (h : popF kw = .error .typeError) :
    ctorGrade env kw (.str name : PyArg R n) r = .error .typeError := by
  rw [ctorGrade, h]; rfl

theorem mapM_error {α β ε : Type} {f : α → Except ε β} {e : ε} {l : List α} (hl : l ≠ [])
    (hf : ∀ a ∈ l, f a = .error e) : l.mapM f = .error e := by
  cases l with
  | nil => exact absurd rfl hl
  | cons a l => rw [List.mapM_cons, hf a (by simp)]; rfl

/-- What a construction from a name calls. -/
theorem init_grades {k : Kind} {args : List (PyArg R n)} (hs : Spelling R n k args) (kw : Kwargs)
    (name : List Char) : (∃ r : ℕ, k.gradeList n = [r] ∧ Mv.init env (.str name :: args) kw =
      (ctorGrade env kw (.str name : PyArg R n) r).map Mv.ofExpr) ∨
    Mv.init env (.str name :: args) kw =
      (ctorGrades env kw (.str name : PyArg R n) (k.gradeList n)).map Mv.ofExpr := by
  cases hs with
  | scalar =>
    left; rw [Mv.init, ctorMode, show makerOf "scalar".toList = some .scalar from rfl]; exact ⟨0, rfl, rfl⟩
  | vector =>
    left; rw [Mv.init, ctorMode, show makerOf "vector".toList = some .vector from rfl]; exact ⟨1, rfl, rfl⟩
  | bivector =>
    left; rw [Mv.init, ctorMode, show makerOf "bivector".toList = some .bivector from rfl]
    exact ⟨2, rfl, rfl⟩
  | grade2 =>
    left; rw [Mv.init, ctorMode, show makerOf "grade2".toList = some .bivector from rfl]
    exact ⟨2, rfl, rfl⟩
  | pseudo =>
    left; rw [Mv.init, ctorMode, show makerOf "pseudo".toList = some .pseudo from rfl]; exact ⟨n, rfl, rfl⟩
  | mv => right; rw [Mv.init, ctorMode, show makerOf "mv".toList = some .mv from rfl]; rfl
  | even => right; rw [Mv.init, ctorMode, show makerOf "even".toList = some .even from rfl]; rfl
  | spinor => right; rw [Mv.init, ctorMode, show makerOf "spinor".toList = some .even from rfl]; rfl
  | odd => right; rw [Mv.init, ctorMode, show makerOf "odd".toList = some .odd from rfl]; rfl
  | grade r =>
    left; rw [Mv.init, ctorMode, show makerOf "grade".toList = some .grade from rfl]; exact ⟨r, rfl, rfl⟩
  | int r =>
    left
    refine ⟨r, rfl, ?_⟩
    rw [Mv.init, if_neg (by simp)]
    by_cases h0 : r = 0
    · subst h0; rw [if_pos (by simp), ctorScalar]; rfl
    · rw [if_neg (by omega)]

/-- C87: a name with any keyword other than `f` is a `TypeError`, as is `f=True` without coordinates; a
grade above the dimension is an `IndexError`. -/
theorem C87_names_errors {k : Kind} {args : List (PyArg R n)} (hs : Spelling R n k args)
    (hg : k.gradeList n ≠ []) (name : List Char) :
    (∀ kw : Kwargs, (∃ p ∈ kw, p.1 ≠ ['f']) →
      Mv.init env (.str name :: args) kw = .error .typeError) ∧
    (env.coords = none → n ≤ env.scripts.length → (∀ r ∈ k.gradeList n, r ≤ n) →
      Mv.init env (.str name :: args) [(['f'], .bool true)] = .error .typeError) ∧
    (∀ kw mk, Asks env.coords kw mk → (∃ r ∈ k.gradeList n, n < r) →
      Mv.init env (.str name :: args) kw = .error .indexError) := by
  have lift : ∀ kw e, (∀ r ∈ k.gradeList n, ctorGrade env kw (.str name : PyArg R n) r = .error e) →
      Mv.init env (.str name :: args) kw = .error e := by
    intro kw e h
    rcases init_grades (env := env) hs kw name with ⟨r, h1, h2⟩ | h2
    · rw [h2, h r (by rw [h1]; simp)]; rfl
    · rw [h2, ctorGrades, mapM_error hg h]; rfl
  refine ⟨fun kw ⟨p, hp, hne⟩ => lift _ _ fun r _ => ctorGrade_pop ?_, fun hc hss hr =>
    lift _ _ fun r hm => ?_, fun kw mk hk ⟨r, hm, hr⟩ => ?_⟩
  · rw [popF]
    refine if_neg fun h => ?_
    have : p ∈ kw.filter fun p => p.1 ≠ ['f'] := List.mem_filter.mpr ⟨hp, by simpa using hne⟩
    rw [h] at this
    simp at this
  · rw [ctorGrade]
    simp only [show popF [(['f'], .bool true)] = .ok (.bool true) from rfl, pyIndex_nat,
      indexes_get (hr r hm), blades_get (hr r hm), orErr, Except.bind, bind,
      mapM_eq_some_map fun I _ => bladeSuperScript_eq hss I, List.zip_map', mkAtom, hc]
    refine mapM_error ?_ fun _ _ => rfl
    rw [ne_eq, List.map_eq_nil_iff, ← List.length_eq_zero_iff, length_combinations,
      List.length_finRange]
    exact (Nat.choose_pos (hr r hm)).ne'
  · obtain ⟨f, hf, -⟩ := asks_pop hk
    have hi : (indexes n)[r]? = none := by simp [indexes]; omega
    have h1 : ctorGrade env kw (.str name : PyArg R n) r = .error .indexError := by
      rw [ctorGrade]
      simp only [hf, pyIndex_nat, hi, orErr, Except.bind, bind]
    have hkind : k.gradeList n = [r] := by
      cases k with
      | scalar => simp [Kind.gradeList] at hm ⊢; exact hm.symm
      | vector => simp [Kind.gradeList] at hm ⊢; exact hm.symm
      | bivector => simp [Kind.gradeList] at hm ⊢; exact hm.symm
      | pseudo => simp [Kind.gradeList] at hm ⊢; exact hm.symm
      | grade s => simp [Kind.gradeList] at hm ⊢; exact hm.symm
      | mv => simp [Kind.gradeList] at hm; omega
      | even => simp [Kind.gradeList] at hm; omega
      | odd => simp [Kind.gradeList] at hm; omega
    refine lift _ _ fun s hs => ?_
    rw [hkind, List.mem_singleton] at hs
    rw [hs, h1]

/-- C87: no arguments give zero, a multivector gives a copy, an expression and an integer give
themselves, and these constructors accept no keyword. -/
theorem C87_values {A : Mv R n} (hA : A.WF g) {E : Expr R n} (hE : Valid E) (k : ℤ) :
    Mv.init env ([] : List (PyArg R n)) [] = .ok Mv.zero ∧
    (∃ B, Mv.init env [.mv A] [] = .ok B ∧ B.WF g ∧ B.val g = A.val g) ∧
    (∃ B, Mv.init env [.expr E] [] = .ok B ∧ B.WF g ∧ B.isBladeRep = true ∧ B.val g = den g E) ∧
    (∃ B : Mv R n, Mv.init env [.int k] [] = .ok B ∧ B.WF g ∧ B.isBladeRep = true ∧ B.val g = (k : Spec.Cl g)) ∧
    ∀ kw, kw ≠ [] → Mv.init env ([] : List (PyArg R n)) kw = .error .typeError ∧
      Mv.init env [.mv A] kw = .error .typeError ∧ Mv.init env [.expr E] kw = .error .typeError ∧
      Mv.init env [(.int k : PyArg R n)] kw = .error .typeError := by
  have hv : Valid (scalarE ((k : ℤ) : R) : Expr R n) := valid_scalarE _
  refine ⟨rfl, ⟨_, rfl, ofExpr_rep ((Mv.wf_iff g).mp hA).2, ofExpr_val _⟩,
    ⟨_, rfl, (ofExpr_valid hE).1, (ofExpr_valid (g := g) hE).2, ofExpr_val _⟩,
    ⟨_, rfl, (ofExpr_valid hv).1, (ofExpr_valid (g := g) hv).2, ?_⟩, fun kw hk => ?_⟩
  · rw [ofExpr_val, den_scalarE]
    simp
  · simp [Mv.init, hk]

/-- C87: a category other than the ten names is a `ValueError`. -/
theorem C87_unknown_category {mode : List Char} (h : mode ∉ categories) (x : PyArg R n)
    (rest : List (PyArg R n)) (kw : Kwargs) :
    Mv.init env (x :: .str mode :: rest) kw = .error .valueError := by
  have hm : makerOf mode = none := by
    have h' : ∀ s ∈ categories, mode ≠ s := fun s hs e => h (e ▸ hs)
    rw [makerOf, if_neg (h' _ (by decide)), if_neg (h' _ (by decide)), if_neg (h' _ (by decide)),
      if_neg (h' _ (by decide)), if_neg (h' _ (by decide)), if_neg (h' _ (by decide)),
      if_neg (h' _ (by decide)), if_neg (h' _ (by decide)), if_neg (h' _ (by decide)),
      if_neg (h' _ (by decide))]
  have : Mv.init env (x :: .str mode :: rest) kw = (ctorMode env kw mode x rest).map Mv.ofExpr := by
    cases x <;> rfl
  rw [this, ctorMode, hm]
  rfl

/-- C87: the general, even and odd kinds need a name. -/
theorem C87_needs_name {mode : List Char} (h : mode ∈ ["mv", "even", "spinor", "odd"].map String.toList)
    {x : PyArg R n} (hx : ∀ s, x ≠ .str s) (kw : Kwargs) :
    Mv.init env [x, .str mode] kw = .error .typeError := by
  have e : Mv.init env [x, .str mode] kw = (ctorMode env kw mode x []).map Mv.ofExpr := by
    cases x <;> rfl
  have h1 : ∀ l, ctorGrades env kw x l = .error .typeError := by
    intro l
    cases x with
    | str s => exact absurd rfl (hx s)
    | _ => rfl
  rw [e]
  simp only [List.map_cons, List.map_nil, List.mem_cons, List.not_mem_nil, or_false] at h
  rcases h with rfl | rfl | rfl | rfl
  · rw [ctorMode, show makerOf "mv".toList = some .mv from rfl]; dsimp only [make]; rw [h1]; rfl
  · rw [ctorMode, show makerOf "even".toList = some .even from rfl]; dsimp only [make]; rw [h1]; rfl
  · rw [ctorMode, show makerOf "spinor".toList = some .even from rfl]; dsimp only [make]; rw [h1]; rfl
  · rw [ctorMode, show makerOf "odd".toList = some .odd from rfl]; dsimp only [make]; rw [h1]; rfl

/-- C87: a negative grade is not rejected: `-j` is the grade `n + 1 - j`. -/
theorem C87_negative_grade {j : ℕ} (h1 : 0 < j) (h2 : j ≤ n + 1) (x : PyArg R n) (kw : Kwargs) :
    Mv.init env [x, .int (-j)] kw = Mv.init env [x, .str "grade".toList, .int ((n + 1 - j : ℕ) : ℤ)] kw := by
  have hp : ∀ {α : Type} (l : List α), l.length = n + 1 →
      pyIndex l (-(j : ℤ)) = pyIndex l ((n + 1 - j : ℕ) : ℤ) := by
    intro α l hl
    rw [pyIndex_nat, pyIndex, if_neg (by omega), neg_neg, Int.toNat_natCast, if_pos (by omega), hl]
  have hi : (indexes n).length = n + 1 := by simp [indexes]
  have hb : (blades n).length = n + 1 := by rw [blades, List.length_map, hi]
  have hg : ctorGrade env kw x (-(j : ℤ)) = ctorGrade env kw x ((n + 1 - j : ℕ) : ℤ) := by
    cases x <;> simp only [ctorGrade, hp _ hi, hp _ hb]
  have e1 : Mv.init env [x, .int (-j)] kw = (ctorGrade env kw x (-(j : ℤ))).map Mv.ofExpr := by
    cases x <;> simp only [Mv.init, List.isEmpty_nil, Bool.not_true, Bool.false_eq_true, if_false] <;>
      exact if_neg (by omega)
  have e2 : Mv.init env [x, .str "grade".toList, .int ((n + 1 - j : ℕ) : ℤ)] kw =
      (ctorMode env kw "grade".toList x [.int ((n + 1 - j : ℕ) : ℤ)]).map Mv.ofExpr := by
    cases x <;> rfl
  rw [e1, e2, ctorMode, show makerOf "grade".toList = some .grade from rfl]
  dsimp only [make]
  rw [hg]

/-- C87: the claim that unknown keywords are rejected fails for the value of a scalar. -/
theorem C87_scalar_keyword_counterexample (kw : Kwargs) (k : ℤ) :
    Mv.init env [.int k, .str "scalar".toList] kw = .ok (Mv.ofExpr (scalarE (k : R)) : Mv R n) := by
  rw [Mv.init, ctorMode, show makerOf "scalar".toList = some .scalar from rfl]; rfl

/-! ### `Ga.mv` -/

theorem blank_mem_join {l : List (List Char)} (h : 2 ≤ l.length) : ' ' ∈ joinWith ' ' l := by
  match l, h with
  | w :: w' :: l, _ => simp [joinWith]

/-- C87: `ga.mv()` is the tuple of the basis vectors. -/
theorem C87_basis (kw : Kwargs) :
    ∃ l : List (Mv R n), gaMv env [] kw = .ok (.inr l) ∧ (∀ A ∈ l, A.WF g ∧ A.isBladeRep = true) ∧
      l.map (Mv.val g) = (List.finRange n).map (Spec.e g) := by
  refine ⟨_, rfl, fun A hA => ?_, ?_⟩
  · obtain ⟨i, -, rfl⟩ := List.mem_map.mp hA
    exact ofExpr_valid (valid_bladeE (by simp))
  · rw [List.map_map]
    refine List.map_congr_left fun i _ => ?_
    rw [Function.comp_apply, ofExpr_val, den_bladeE, Spec.blade_singleton]

/-- C87: without blanks in the name, `ga.mv` is the constructor of the multivector. -/
theorem C87_single {x : PyArg R n} (hx : ∀ s, x = .str s → ' ' ∉ s) (rest : List (PyArg R n))
    {kw : Kwargs} (h : ∀ p ∈ kw, p.1 ≠ "ga".toList) :
    gaMv env (x :: rest) kw = (Mv.init env (x :: rest) kw).map .inl := by
  have hk : (kw.any fun p => p.1 = ['g', 'a']) = false := by
    rw [Bool.eq_false_iff]
    intro h'
    obtain ⟨p, hp, e⟩ := List.any_eq_true.mp h'
    exact h p hp (of_decide_eq_true e)
  cases x with
  | str s => rw [gaMv.eq_def]; dsimp only; rw [hk, if_neg Bool.false_ne_true, if_neg (hx s rfl)]
  | _ => simp only [gaMv, hk, if_neg Bool.false_ne_true]

/-- C87: several names separated by blanks and one kind: the tuple of the multivectors constructed one by
one. -/
theorem C87_several {names : List (List Char)} (hn : 2 ≤ names.length) (hb : ∀ s ∈ names, ' ' ∉ s)
    {kind : List Char} (hkind : ' ' ∉ kind) (rest : List (PyArg R n)) {kw : Kwargs}
    (h : ∀ p ∈ kw, p.1 ≠ "ga".toList) :
    gaMv env (.str (joinWith ' ' names) :: .str kind :: rest) kw =
      (names.mapM fun s => Mv.init env (.str s :: .str kind :: rest) kw).map .inr := by
  have hk : (kw.any fun p => p.1 = ['g', 'a']) = false := by
    rw [Bool.eq_false_iff]
    intro h'
    obtain ⟨p, hp, e⟩ := List.any_eq_true.mp h'
    exact h p hp (of_decide_eq_true e)
  rw [gaMv, hk, if_neg (by simp)]
  rw [if_pos (blank_mem_join hn), if_pos hkind, splitOn_joinWith (by rintro rfl; simp at hn) hb]

/-- C87: several names and as many kinds: the tuple of the multivectors constructed one by one.  With
another number of kinds it is a `ValueError`. -/
theorem C87_several_kinds {names kinds : List (List Char)} (hn : 2 ≤ names.length)
    (hb : ∀ s ∈ names, ' ' ∉ s) (hn' : 2 ≤ kinds.length) (hb' : ∀ s ∈ kinds, ' ' ∉ s)
    (rest : List (PyArg R n)) {kw : Kwargs} (h : ∀ p ∈ kw, p.1 ≠ "ga".toList) :
    gaMv env (.str (joinWith ' ' names) :: .str (joinWith ' ' kinds) :: rest) kw =
      if names.length = kinds.length then
        ((names.zip kinds).mapM fun p => Mv.init env (.str p.1 :: .str p.2 :: rest) kw).map .inr
      else .error .valueError := by
  have hk : (kw.any fun p => p.1 = ['g', 'a']) = false := by
    rw [Bool.eq_false_iff]
    intro h'
    obtain ⟨p, hp, e⟩ := List.any_eq_true.mp h'
    exact h p hp (of_decide_eq_true e)
  rw [gaMv, hk, if_neg (by simp)]
  rw [if_pos (blank_mem_join hn), if_neg (not_not.mpr (blank_mem_join hn')),
    splitOn_joinWith (by rintro rfl; simp at hn) hb, splitOn_joinWith (by rintro rfl; simp at hn') hb',
    ite_not]

/-- C87: several names with an integer grade are a `TypeError`, although one name with an integer grade is
accepted; a name without a kind is an `IndexError`. -/
theorem C87_several_grade_counterexample {names : List (List Char)} (hn : 2 ≤ names.length) (r : ℤ)
    (name : List Char) :
    gaMv env [.str (joinWith ' ' names), (.int r : PyArg R n)] [] = .error .typeError ∧
    gaMv env [(.str name : PyArg R n)] [] = .error .indexError := by
  constructor
  · rw [gaMv, if_neg (by simp), if_pos (blank_mem_join hn)] <;> simp
  · rw [gaMv, if_neg (by simp)]
    split_ifs <;> rfl

/-! ### Examples -/

namespace Ex

/-- Coordinates `x`, `y`, and the length of its name as the value of a symbol. -/
def ctorEnv : CtorEnv ℚ where
  scripts := [['x'], ['y']]
  coords := some [['x'], ['y']]
  atom a := match a with
    | .symbol s => s.length
    | .function s l => s.length + 10 * l.length

/-- The hypotheses are met by a spinor, and by a vector function of `x`, `y`. -/
example : Mv.init (n := 2) ctorEnv [.str ['A'], .str "spinor".toList] [] =
      .ok ⟨[(1, .blade []), (5, .blade [0, 1])], true⟩ ∧
    Mv.init (n := 2) ctorEnv [.str ['A'], .int 1] [(['f'], .bool true)] =
      .ok ⟨[(24, .blade [0]), (24, .blade [1])], true⟩ := by decide +kernel

/-- … and by coefficients: one that is missing, and one that is zero. -/
example : Mv.init (n := 2) ctorEnv [.coeffs [7], .str "vector".toList] [] =
      .ok ⟨[(7, .blade [0])], true⟩ ∧
    Mv.init (n := 2) ctorEnv [.coeffs [0, 3], .int 1] [] = .ok ⟨[(3, .blade [1])], true⟩ ∧
    Mv.init (n := 2) ctorEnv [.coeffs [0, 3, 1], .int 1] [] = .error .valueError := by decide +kernel

/-- … and by several names. -/
example : gaMv (n := 2) ctorEnv [.str "a b".toList, .str "vector scalar".toList] [] =
    .ok (.inr [⟨[(4, .blade [0]), (4, .blade [1])], true⟩, ⟨[(1, .blade [])], true⟩]) := by decide +kernel

end Ex
end GA
