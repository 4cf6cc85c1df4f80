import Verif.Proofs.MltComps
import Verif.Spec.MltComps
import Verif.Props.C63
import Mathlib.Data.Rat.Encodable

/-!
# C118: the components that `Mlt.comps` lists
-/

set_option linter.unusedSectionVars false
set_option maxRecDepth 10000

namespace GA
open MvPolynomial
variable {n : ℕ} {K : Type*} [Field K] [DecidableEq K] [Invertible (2 : K)]
  {g : Matrix (Fin n) (Fin n) K}

/-- The line for the index tuple `I` and the value `value`. -/
def compLine {r : ℕ} (I : Fin r → Fin n) (value : List Char) : List Char :=
  strNat (place I) ++ [':'] ++ strTuple (List.ofFn fun j => (I j : ℕ)) ++ [':'] ++ value

/-- C118, the texts of index tuples: the numbers separated by commas and blanks, in parentheses, with a comma after a single
number, as Python writes tuples. -/
theorem C118_tuple (l : List ℕ) :
    strTuple l = ['('] ++ ", ".toList.intercalate (l.map strNat) ++ (if l.length = 1 then ",)".toList else ")".toList) := by
  match l with
  | [] => rfl
  | [i] => simp [strTuple, List.intercalate]
  | i :: j :: l =>
    have h : ∀ (w : List Char) (l : List ℕ), ", ".toList.intercalate (w :: l.map strNat) =
        w ++ l.flatMap fun j => ", ".toList ++ strNat j := by
      intro w l
      induction l generalizing w with
      | nil => simp [List.intercalate]
      | cons k l ih =>
        rw [List.map_cons, List.flatMap_cons, List.append_assoc, ← ih (strNat k)]
        simp [List.intercalate]
    rw [List.map_cons, h, strTuple, if_neg (by simp)]
    · simp
    · simp

theorem not_mem_strTuple {c : Char} (h : c.isDigit = false) (h1 : c ∉ "(), ".toList) (l : List ℕ) : c ∉ strTuple l := by
  have hd : ∀ i, c ∉ strNat i := not_mem_strNat h
  simp only [String.toList] at h1
  have h2 : c ≠ '(' ∧ c ≠ ')' ∧ c ≠ ',' ∧ c ≠ ' ' := by
    refine ⟨?_, ?_, ?_, ?_⟩ <;> rintro rfl <;> exact h1 (by decide)
  match l with
  | [] => simp [strTuple, h2]
  | [i] => simp [strTuple, h2, hd]
  | i :: j :: l => simp [strTuple, h2, hd]

/-- C118: `T.comps()` prints an empty line for every choice of the arguments but the last, and returns one line for every
choice of basis vectors as arguments, in lexicographic order, with its number, the tuple of indices and the value of the
call. -/
theorem C118_lines (rb : List (Mv K n)) (slots : ℕ) (str : SlotPoly K n → List Char) (T : Mlt K n)
    (h1 : 1 ≤ T.nargs) (hstr : ∀ p, '\n' ∉ str p) : ∃ blank text, T.comps g rb slots str = some (blank, text) ∧
      (1 ≤ n → blank = n ^ (T.nargs - 1)) ∧ (text.splitOn '\n').length = n ^ T.nargs + 1 ∧
      (text.splitOn '\n').getLast? = some [] ∧
      ∀ I : Fin T.nargs → Fin n, (text.splitOn '\n')[place I]? =
        some (compLine I (str (T.call g rb slots (vecArgs T.nargs (basisTuple I))))) := by
  set basis : List (Mv (SlotPoly K n) n) :=
    (List.finRange n).map fun i => Mv.vector fun k => C (if k = i then 1 else 0) with hb
  have hlen : basis.length = n := by simp [hb]
  set P := (itProduct (List.replicate T.nargs basis)).zip (itProduct (List.replicate T.nargs (List.range n))) with hP
  have hPl : P.length = n ^ T.nargs := by simp [hP, length_itProduct, hlen]
  have hne : ∀ p ∈ P.zipIdx, p.1.2 ≠ [] := by
    intro p hp h
    have h2 : p.1 ∈ P := (List.mem_zipIdx' hp).2 ▸ List.getElem_mem _
    have := mem_itProduct_length _ (List.of_mem_zip h2).2
    rw [h] at this
    simp at this
    omega
  let line : ℕ → List (Mv (SlotPoly K n) n) → List ℕ → List Char := fun i e I =>
    strNat i ++ [':'] ++ strTuple I ++ [':'] ++ str (T.call g rb slots e)
  have hc := comps_loop (fun i e I => line i e I ++ ['\n']) n P.zipIdx hne (0, [])
  have hc' : T.comps g rb slots str =
      some (0 + P.zipIdx.countP (fun p => p.1.2.getLast?.any (· % n = 0)),
        [] ++ P.zipIdx.flatMap fun p => line p.2 p.1.1 p.1.2 ++ ['\n']) := by
    rw [Mlt.comps]
    simp only [List.length_map, List.length_finRange]
    exact hc
  set lines := P.zipIdx.map fun p => line p.2 p.1.1 p.1.2 with hl
  have htext : (P.zipIdx.flatMap fun p => line p.2 p.1.1 p.1.2 ++ ['\n']) = ['\n'].intercalate (lines ++ [[]]) := by
    rw [hl]
    induction P.zipIdx with
    | nil => simp [List.intercalate]
    | cons p L ih =>
      rw [List.flatMap_cons, ih, List.map_cons, List.cons_append]
      cases L <;> simp [List.intercalate]
  have hno : ∀ w ∈ lines ++ [[]], '\n' ∉ w := by
    intro w hw
    rw [List.mem_append, List.mem_singleton] at hw
    rcases hw with hw | rfl
    · obtain ⟨p, _, rfl⟩ := List.mem_map.mp hw
      simp [line, hstr, not_mem_strNat (c := '\n') (by decide), not_mem_strTuple (c := '\n') (by decide) (by decide)]
    · simp
  have hsplit : (([] : List Char) ++ P.zipIdx.flatMap fun p => line p.2 p.1.1 p.1.2 ++ ['\n']).splitOn '\n' =
      lines ++ [[]] := by
    rw [List.nil_append, htext, List.splitOn_intercalate _ hno (by simp)]
  refine ⟨_, _, hc', fun hn => ?_, ?_, ?_, fun I => ?_⟩
  · simp only [Nat.zero_add]
    rw [zipIdx_map_countP (fun I : List ℕ => I.getLast?.any (· % n = 0)) (fun a => a.2) P 0]
    obtain ⟨r, hr⟩ : ∃ r, T.nargs = r + 1 := ⟨T.nargs - 1, by omega⟩
    rw [← countP_itProduct (Nat.lt_of_lt_of_le Nat.zero_lt_one hn) (T.nargs - 1), show T.nargs - 1 + 1 = T.nargs by omega]
    have h3 : P.map Prod.snd = itProduct (List.replicate T.nargs (List.range n)) :=
      List.map_snd_zip (by simp [length_itProduct, hlen])
    rw [← h3, List.countP_map]
    rfl
  · simp only [hsplit]
    simp [hl, hPl]
  · simp only [hsplit]
    simp
  · simp only [hsplit]
    have e1 := getElem?_itProduct basis (r := T.nargs) fun j => Fin.cast hlen.symm (I j)
    have e2 := getElem?_itProduct (List.range n) (r := T.nargs) fun j => Fin.cast (by simp) (I j)
    simp only [Fin.val_cast, hlen, List.length_range] at e1 e2
    have e3 : P[place I]? = some (vecArgs T.nargs (basisTuple I), List.ofFn fun j => (I j : ℕ)) := by
      rw [hP, List.getElem?_zip_eq_some]
      refine ⟨e1.trans ?_, e2.trans ?_⟩
      · congr 1
        rw [vecArgs]
        apply List.ext_getElem
        · simp
        · intro i h2 h3
          simp only [List.length_ofFn] at h2
          simp [hb, basisTuple, h2]
      · simp
    have hlt : place I < lines.length := by
      have := (List.getElem?_eq_some_iff.mp e3).1
      simpa [hl] using this
    rw [List.getElem?_append_left hlt, hl, List.getElem?_map, List.getElem?_zipIdx, e3]
    simp [line, compLine]

/-- C118, the values: in an orthogonal algebra the lines contain the components of the function. -/
theorem C118_values_partial (hs : g.IsSymm) (ho : isOrtho g = true) {rb : List (Mv K n)} (h : rBasisMv g = some rb)
    {slots : ℕ} {str : SlotPoly K n → List Char} {T : Mlt K n} {F : (ℕ → Fin n → K) → K} (hT : T.Means F)
    (hr : T.nargs ≤ slots) (h1 : 1 ≤ T.nargs) (hstr : ∀ p, '\n' ∉ str p) :
    ∃ blank text, T.comps g rb slots str = some (blank, text) ∧ (text.splitOn '\n').length = n ^ T.nargs + 1 ∧
      ∀ I : Fin T.nargs → Fin n, (text.splitOn '\n')[place I]? = some (compLine I (str (C (F (basisTuple I))))) := by
  obtain ⟨blank, text, h2, _, h3, _, h4⟩ := C118_lines (g := g) rb slots str T h1 hstr
  refine ⟨blank, text, h2, h3, fun I => ?_⟩
  rw [h4, C63_call_partial hs ho h hT hr]

/-- A function that is linear in each of its first `r` arguments and depends on no others is given by its values at the
basis vectors. -/
theorem multilinear_ext {F G : (ℕ → Fin n → K) → K} {r : ℕ}
    (hF : ∀ i < r, ∀ (v : ℕ → Fin n → K) (c : K) (x y : Fin n → K), F (Function.update v i (c • x + y)) =
      c * F (Function.update v i x) + F (Function.update v i y))
    (hG : ∀ i < r, ∀ (v : ℕ → Fin n → K) (c : K) (x y : Fin n → K), G (Function.update v i (c • x + y)) =
      c * G (Function.update v i x) + G (Function.update v i y))
    (cF : ∀ v w : ℕ → Fin n → K, (∀ i < r, v i = w i) → F v = F w)
    (cG : ∀ v w : ℕ → Fin n → K, (∀ i < r, v i = w i) → G v = G w)
    (h : ∀ I : Fin r → Fin n, F (basisTuple I) = G (basisTuple I)) (v : ℕ → Fin n → K) : F v = G v := by
  -- replace the arguments by basis vectors from the last to the first
  have step : ∀ k ≤ r, ∀ v : ℕ → Fin n → K, (∀ i, k ≤ i → i < r → ∃ a, v i = fun b => if b = a then 1 else 0) →
      F v = G v := by
    intro k
    induction k with
    | zero =>
      intro _ v hv
      choose a ha using fun i : Fin r => hv i (Nat.zero_le _) i.2
      have e : ∀ i < r, v i = basisTuple a i := by
        intro i hi
        rw [ha ⟨i, hi⟩]
        funext b
        simp [basisTuple, hi]
      rw [cF _ _ e, cG _ _ e, h]
    | succ k ih =>
      intro hk v hv
      have hzero : ∀ H : (ℕ → Fin n → K) → K, (∀ i < r, ∀ (v : ℕ → Fin n → K) (c : K) (x y : Fin n → K),
          H (Function.update v i (c • x + y)) = c * H (Function.update v i x) + H (Function.update v i y)) →
          ∀ x : Fin n → K, H (Function.update v k x) =
            ∑ a, x a * H (Function.update v k fun b => if b = a then 1 else 0) := by
        intro H hH x
        let ℓ : (Fin n → K) →ₗ[K] K :=
          { toFun := fun x => H (Function.update v k x)
            map_add' := fun x y => by
              have := hH k hk v 1 x y
              rwa [one_smul, one_mul] at this
            map_smul' := fun c x => by
              have h0 := hH k hk v 1 0 0
              rw [one_smul, add_zero, one_mul] at h0
              have h0 : H (Function.update v k 0) = 0 := by simpa using h0
              have := hH k hk v c x 0
              rwa [add_zero, h0, add_zero] at this }
        have hx : x = ∑ a, x a • (fun b => if b = a then (1 : K) else 0) := by
          funext b
          simp [Finset.sum_apply]
        change ℓ x = ∑ a, x a * ℓ _
        conv_lhs => rw [hx]
        rw [map_sum]
        exact Finset.sum_congr rfl fun a _ => by rw [map_smul, smul_eq_mul]
      rw [← Function.update_eq_self k v, hzero F hF, hzero G hG]
      refine Finset.sum_congr rfl fun a _ => ?_
      congr 1
      refine ih (by omega) _ fun i hi hi' => ?_
      by_cases e : i = k
      · subst e
        exact ⟨a, Function.update_self ..⟩
      · rw [Function.update_of_ne e]
        exact hv i (by omega) hi'
  exact step r le_rfl v fun i hi hi' => by omega

theorem compLine_inj {r : ℕ} {I : Fin r → Fin n} {s t : List Char} (h : compLine I s = compLine I t) : s = t := by
  simpa [compLine] using h

/-- C118: if `str` writes different numbers differently, then in an orthogonal algebra two multilinear functions of the
same number of arguments with the same text are the same function. -/
theorem C118_determines_partial (hs : g.IsSymm) (ho : isOrtho g = true) {rb : List (Mv K n)} (h : rBasisMv g = some rb)
    {slots : ℕ} {str : SlotPoly K n → List Char} (hstr : ∀ p, '\n' ∉ str p)
    (hinj : ∀ a b : K, str (C a) = str (C b) → a = b) {S T : Mlt K n} (hS : Mlt.Built g rb S) (hT : Mlt.Built g rb T)
    (he : S.nargs = T.nargs) (h1 : 1 ≤ T.nargs) (hr : T.nargs ≤ slots)
    (hc : S.comps g rb slots str = T.comps g rb slots str) (v : ℕ → Fin n → K) :
    S.call g rb slots (vecArgs T.nargs v) = T.call g rb slots (vecArgs T.nargs v) := by
  obtain ⟨F, hF1, hF2⟩ := C63_multilinear_partial hs ho h hS
  obtain ⟨G, hG1, hG2⟩ := C63_multilinear_partial hs ho h hT
  have hF1' := hF1 slots (by omega)
  have hG1' := hG1 slots hr
  obtain ⟨b, t, e1, _, _, _, e2⟩ := C118_lines (g := g) rb slots str S (by omega) hstr
  obtain ⟨b', t', e1', _, _, _, e2'⟩ := C118_lines (g := g) rb slots str T h1 hstr
  rw [e1, e1'] at hc
  obtain ⟨rfl, rfl⟩ := Prod.mk.inj (Option.some.inj hc)
  have cong : ∀ {U : Mlt K n} {H : (ℕ → Fin n → K) → K}, (∀ v, U.call g rb slots (vecArgs U.nargs v) = C (H v)) →
      ∀ v w : ℕ → Fin n → K, (∀ i < U.nargs, v i = w i) → H v = H w := by
    intro U H hU v w hvw
    have : vecArgs U.nargs v = vecArgs U.nargs w := by
      rw [vecArgs, vecArgs]
      refine List.map_congr_left fun i hi => ?_
      rw [hvw i (List.mem_range.mp hi)]
    exact C_injective _ _ ((hU v).symm.trans (by rw [this, hU w]))
  have cF := cong hF1'
  have cG := cong hG1'
  revert cF hF1' hF2 e2
  rw [he]
  intro hF2 hF1' e2 cF
  have hb : ∀ I : Fin T.nargs → Fin n, F (basisTuple I) = G (basisTuple I) := by
    intro I
    have := compLine_inj (Option.some.inj ((e2 I).symm.trans (e2' I)))
    rw [hF1', hG1'] at this
    exact hinj _ _ this
  rw [hF1', hG1', multilinear_ext hF2 hG2 cF cG hb]

/-! ### Counterexamples -/

/-- C118 fails for functions without arguments, for instance the contraction of a function of two arguments: there is no
text, but an exception. -/
theorem C118_scalar_counterexample (rb : List (Mv K n)) (slots : ℕ) (str : SlotPoly K n → List Char) {T : Mlt K n}
    (h : T.nargs = 0) : T.comps g rb slots str = none := by
  simp [Mlt.comps, h, itProduct]

/-- C118 fails in algebras that are not orthogonal: in the text for `Mlt(e_0)` the value for `e_0` is not `e_0 | e_0`. -/
theorem C118_nonorthogonal_counterexample : ∃ rb, rBasisMv Ex.gN = some rb ∧ ∀ slots, 1 ≤ slots →
    ∀ str : SlotPoly ℚ 3 → List Char, (∀ p, '\n' ∉ str p) → (∀ a b : ℚ, str (C a) = str (C b) → a = b) →
      ∃ blank text, (Mlt.ofVector Ex.gN (Mv.vector (Pi.single 0 1))).comps Ex.gN rb slots str = some (blank, text) ∧
        (text.splitOn '\n')[0]? ≠ some ("0:(0,):".toList ++ str (C (Ex.gN 0 0))) := by
  have hs : Ex.gN.IsSymm := by decide +kernel
  obtain ⟨rb, hrb⟩ := Option.isSome_iff_exists.mp
    (show (rBasisMv Ex.gN).isSome = true by decide +kernel)
  refine ⟨rb, hrb, fun slots hsl str hstr hinj => ?_⟩
  have h1 := C63_vector hs (vector_spec (g := Ex.gN) (Pi.single 0 1)).1 rfl
    (by rw [(vector_spec _).2.2]; exact Spec.homogeneous_vec _)
  obtain ⟨blank, text, e1, _, _, _, e2⟩ := C118_lines (g := Ex.gN) rb slots str
    (Mlt.ofVector Ex.gN (Mv.vector (Pi.single 0 1))) (le_refl 1) hstr
  refine ⟨blank, text, e1, fun h => ?_⟩
  have e3 := e2 fun _ => 0
  have hp : place (fun _ : Fin (Mlt.ofVector Ex.gN (Mv.vector (Pi.single 0 1))).nargs => (0 : Fin 3)) = 0 := by
    simp [place]
  rw [C63_call_factor hs (by decide +kernel) hrb h1 rfl hsl, hp, h] at e3
  have e4 : "0:(0,):".toList ++ str (C (Ex.gN 0 0)) = "0:(0,):".toList ++ str _ := Option.some.inj e3
  have e5 := hinj _ _ (List.append_cancel_left e4)
  revert e5
  have hk : (fun (i : ℕ) (k : Fin 3) => eSq Ex.gN * basisTuple (K := ℚ)
      (fun _ : Fin (Mlt.ofVector Ex.gN (Mv.vector (Pi.single 0 1))).nargs => (0 : Fin 3)) i k) 0 =
      fun k => eSq Ex.gN * if k = 0 then 1 else 0 := by
    funext k
    simp [basisTuple, Mlt.ofVector]
  simp only [hk]
  decide +kernel

/-! ### Non-vacuity -/

/-- A text for numbers that satisfies the hypotheses. -/
noncomputable def codeText (p : SlotPoly ℚ 3) : List Char := strNat (Encodable.encode (MvPolynomial.coeff 0 p))

theorem codeText_spec : (∀ p, '\n' ∉ codeText p) ∧ ∀ a b : ℚ, codeText (C a) = codeText (C b) → a = b :=
  ⟨fun _ => not_mem_strNat (c := '\n') (by decide) _, fun a b h => by simpa using Encodable.encode_injective (strNat_inj h)⟩

/-- The components of `Mlt(A)` with `A = 2 e_0 + 5 e_2` in an orthogonal algebra. -/
example : ∃ rb, rBasisMv Ex.gO = some rb ∧ ∃ text,
    (Mlt.ofVector Ex.gO (Mv.vector ![2, 0, 5])).comps Ex.gO rb 1 codeText = some (1, text) ∧
    (text.splitOn '\n')[2]? = some ("2:(2,):".toList ++ codeText (C (5 * Ex.gO 2 2))) ∧
    (text.splitOn '\n').length = 4 := by
  have hs : Ex.gO.IsSymm := by decide +kernel
  obtain ⟨rb, hrb⟩ := Option.isSome_iff_exists.mp
    (show (rBasisMv Ex.gO).isSome = true by decide +kernel)
  have h1 := C63_vector hs (vector_spec (g := Ex.gO) ![2, 0, 5]).1 rfl
    (by rw [(vector_spec _).2.2]; exact Spec.homogeneous_vec _)
  obtain ⟨blank, text, e1, e0, e6, _, e2⟩ := C118_lines (g := Ex.gO) rb 1 codeText
    (Mlt.ofVector Ex.gO (Mv.vector ![2, 0, 5])) (le_refl 1) codeText_spec.1
  refine ⟨rb, hrb, text, ?_, ?_, e6⟩
  · rw [e1, e0 (by decide)]
    rfl
  · have e3 := e2 fun _ => 2
    have hp : place (fun _ : Fin (Mlt.ofVector Ex.gO (Mv.vector ![2, 0, 5])).nargs => (2 : Fin 3)) = 2 := rfl
    rw [C63_call_partial hs (by decide +kernel) hrb h1 (le_refl 1), hp] at e3
    refine e3.trans (congrArg some ?_)
    refine congrArg (fun q : ℚ => "2:(2,):".toList ++ codeText (C q)) ?_
    have hk : (basisTuple (K := ℚ) (fun _ : Fin (Mlt.ofVector Ex.gO (Mv.vector ![2, 0, 5])).nargs => (2 : Fin 3))) 0 =
        fun k => if k = 2 then 1 else 0 := by
      funext k
      simp [basisTuple, Mlt.ofVector]
    simp only [hk]
    decide +kernel

/-- The hypotheses of `C118_determines_partial`: two functions of three arguments. -/
example : ∃ rb, rBasisMv Ex.gO = some rb ∧ ∀ L : Lt ℚ 3, L.WF → ∀ u : Fin 3 → ℚ,
    Mlt.Built Ex.gO rb (Mlt.mul Ex.gO rb 0 (Mlt.ofVector Ex.gO (Mv.vector u)) (Mlt.ofLt Ex.gO L)) ∧
    (Mlt.mul Ex.gO rb 0 (Mlt.ofVector Ex.gO (Mv.vector u)) (Mlt.ofLt Ex.gO L)).nargs = 3 := by
  obtain ⟨rb, hrb⟩ := Option.isSome_iff_exists.mp
    (show (rBasisMv Ex.gO).isSome = true by decide +kernel)
  refine ⟨rb, hrb, fun L hL u => ⟨.mul 0 (.vector (vector_spec (g := Ex.gO) u).1 (vector_spec (g := Ex.gO) u).2.1 ?_) (.lt hL), rfl⟩⟩
  rw [(vector_spec _).2.2]
  exact Spec.homogeneous_vec _

end GA
