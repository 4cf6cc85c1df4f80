import Verif.Proofs.Parser
import Verif.Spec.Parser
import Mathlib.Data.List.TakeWhile

/-!
# C49: the expression rewriting of `GAeval`

`parseLine ops calls s = some r` says that `GAeval` rewrites the string `s` to `r`, when the operator
order given to `def_prec` is `ops` and parentheses have been parsed `calls` times before; `none` that it
raises.
-/

set_option maxRecDepth 10000

open GA.Parser

namespace GA

/-- The string without parentheses and blanks. -/
def bare (s : List Char) : List Char := s.filter fun c => c ≠ '(' ∧ c ≠ ')' ∧ c ≠ ' '

/-- C49: whatever the string, the operator order and the history: if a string is returned, it differs
from the given one only in parentheses and blanks.  Missing for the full claim: that a well-formed
expression is always rewritten, and that the parentheses group by precedence; both are false, see the
counterexamples. -/
theorem C49_only_parentheses_partial {ops : List Op} {calls : ℕ} {s r : List Char}
    (h : parseLine ops calls s = some r) : bare r = bare s := by
  rw [parseLine] at h
  obtain ⟨l, hl, rfl⟩ := Option.map_eq_some_iff.mp h
  have hc := parseLineTk_spec (fun a b d ht => by simp at ht) hl
  have hall : ∀ t ∈ l, ∃ c, t = .ch c := by
    intro t ht
    cases t with
    | ch c => exact ⟨c, rfl⟩
    | tok a b d =>
      have := mem_core_tok.mp (hc ▸ mem_core_tok.mpr ht)
      simp at this
  have key : ∀ l : Line, (∀ t ∈ l, ∃ c, t = Tk.ch c) →
      bare (l.flatMap Tk.chars) = bare ((core l).flatMap Tk.chars) := by
    intro l hl
    induction l with
    | nil => rfl
    | cons t l ih =>
      obtain ⟨c, rfl⟩ := hl t (by simp)
      rw [core_cons, List.flatMap_append, List.flatMap_cons, bare, bare, List.filter_append,
        List.filter_append]
      have := ih fun t ht => hl t (by simp [ht])
      rw [bare, bare] at this
      rw [this]
      congr 1
      by_cases h1 : c = '('
      · subst h1; rfl
      · by_cases h2 : c = ')'
        · subst h2; rfl
        · have : core [Tk.ch c] = [Tk.ch c] := by simp [core, isParen, h1, h2]
          rw [this]
          rfl
  rw [key l hall, hc, ← key _ (by rintro t ht; obtain ⟨c, -, rfl⟩ := List.mem_map.mp ht; exact ⟨c, rfl⟩)]
  rw [List.flatMap_map]
  simp only [Tk.chars, List.flatMap_singleton', bare, List.filter_filter]
  congr 1
  funext c
  by_cases h : c = ' ' <;> simp [h]

/-- The documented example. -/
example : parseLine [.dots, .wedge, .times] 0 "X|Y^Z*W".toList = some "(((X|Y)^Z)*W)".toList := by
  decide +kernel

/-- An example with nested parentheses, groups with the same text, and blanks. -/
example : parseLine [.dots, .wedge, .times] 7 "((A|B)^C)*D + (B*(A+C^D))*(A)".toList =
    some "(((A|B)^C)*D)+((B*(A+(C^D)))*(A))".toList := by
  decide +kernel

/-- C49 fails: well-formed expressions for which `GAeval` raises, whatever the history. -/
theorem C49_raises_counterexample (calls : ℕ) :
    parseLine [.dots, .wedge, .times] calls "A|B^C|D".toList = none ∧
    parseLine [.dots, .wedge, .times] calls "A|B|C|D".toList = none ∧
    parseLine [.dots, .wedge, .times] calls "A^B*C^D".toList = none ∧
    parseLine [.dots, .wedge, .times] calls "A|B+C|D".toList = none := by
  refine ⟨?_, ?_, ?_, ?_⟩ <;> rfl

/-! ### Specification: the value of a sum of products

The value of a string of one letter names, `+`, `*` and parentheses, where `*` binds stronger than `+`:
both for Python and for the operator orders of `def_prec`. -/

/-- What is read next. -/
inductive Mode
  | sum
  | product
  | atom

/-- The value of what can be read from the beginning of the string, and the rest of the string. -/
def readValue (val : Char → ℤ) : ℕ → Mode → List Char → Option (ℤ × List Char)
  | 0, _, _ => none
  | _ + 1, .atom, [] => none
  | k + 1, .atom, c :: l =>
    if c = '(' then
      match readValue val k .sum l with
      | some (v, ')' :: l') => some (v, l')
      | _ => none
    else if c.isAlpha then some (val c, l) else none
  | k + 1, .product, l =>
    match readValue val k .atom l with
    | some (v, '*' :: l') => (readValue val k .product l').map fun r => (v * r.1, r.2)
    | r => r
  | k + 1, .sum, l =>
    match readValue val k .product l with
    | some (v, '+' :: l') => (readValue val k .sum l').map fun r => (v + r.1, r.2)
    | r => r

/-- The value of a string. -/
def valueOf (val : Char → ℤ) (s : List Char) : Option ℤ :=
  match readValue val (4 * s.length + 4) .sum s with
  | some (v, []) => some v
  | _ => none

/-- C49 fails: `X*(A*B+C*D)` is rewritten to `(X*(A*B)+(C*D))`, which has another value; the outer
parentheses of a sum that starts and ends with a product are dropped. -/
theorem C49_value_counterexample : ∃ r, parseLine [.dots, .wedge, .times] 0 "X*(A*B+C*D)".toList = some r ∧
    ∃ val : Char → ℤ, valueOf val "X*(A*B+C*D)".toList = some 4 ∧ valueOf val r = some 3 := by
  refine ⟨"(X*(A*B)+(C*D))".toList, by decide +kernel, fun c => if c = 'X' then 2 else 1, ?_, ?_⟩ <;>
    decide +kernel

/-- C49 fails: in a chain of three inner products only the first two operands are put in parentheses, so
that Python, where `+` binds stronger than `|`, reads `X+A|B|C` as `(X+(A|B))|C`. -/
theorem C49_chain_counterexample :
    parseLine [.dots, .wedge, .times] 0 "X+A|B|C".toList = some "X+(A|B)|C".toList := by
  decide +kernel

/-! ### Grouping by one operator -/

/-- The characters of names and numbers. -/
def operandChar (c : Char) : Bool := c.isAlphanum || c = '_' || c = '#'

/-- A name or number. -/
def IsOperandStr (s : List Char) : Prop := s ≠ [] ∧ ∀ c ∈ s, operandChar c = true

/-- An operator and an operand; for `^` and `*` any positive number of such pairs. -/
inductive OpTail (op : Op) : List Char → Prop
  | one {o : Char} {x : List Char} (ho : opChar op o = true) (hx : IsOperandStr x) : OpTail op (o :: x)
  | more {o : Char} {x m : List Char} (hd : op ≠ .dots) (ho : opChar op o = true)
      (hx : IsOperandStr x) (hm : OpTail op m) : OpTail op (o :: (x ++ m))

/-- A chain of operands joined by the operator. -/
def OpChain (op : Op) (s : List Char) : Prop := ∃ x m, IsOperandStr x ∧ OpTail op m ∧ s = x ++ m

def endsOperand (s : List Char) : Bool := s.getLast?.any operandChar
def startsOperand (s : List Char) : Bool := s.head?.any operandChar

theorem isOperand_ch (c : Char) : isOperand (.ch c) = operandChar c := rfl

theorem isOp_ch (op : Op) (c : Char) : op.isOp (.ch c) = opChar op c := by
  cases op <;> simp [Op.isOp, opChar]

theorem opChar_not_operand {op : Op} {c : Char} (h : opChar op c = true) : operandChar c = false := by
  cases op <;> simp [opChar] at h
  · rcases h with (rfl | rfl) | rfl <;> rfl
  · subst h; rfl
  · subst h; rfl

theorem startsOperand_iff {s : List Char} : startsOperand s = true ↔ s.takeWhile operandChar ≠ [] := by
  cases s with
  | nil => simp [startsOperand]
  | cons c s => simp [startsOperand, List.takeWhile_cons]

theorem isOperandStr_takeWhile {s : List Char} (h : s.takeWhile operandChar ≠ []) :
    IsOperandStr (s.takeWhile operandChar) := ⟨h, fun _ hc => List.mem_takeWhile_imp hc⟩

theorem takeWhile_ch (s : List Char) :
    (s.map Tk.ch).takeWhile isOperand = (s.takeWhile operandChar).map Tk.ch := by
  rw [List.takeWhile_map]; rfl

theorem dropWhile_ch (s : List Char) :
    (s.map Tk.ch).dropWhile isOperand = (s.dropWhile operandChar).map Tk.ch := by
  rw [List.dropWhile_map]; rfl

theorem matchTail_ch (op : Op) (k : ℕ) (s : List Char) (hk : s.length ≤ k) :
    ∃ m t, matchTail op k (s.map Tk.ch) = (m.map Tk.ch, t.map Tk.ch) ∧ s = m ++ t ∧
      (m = [] ∨ OpTail op m) ∧
      (op = .dots → m = [] → ∀ o c, s = o :: c → opChar op o = true → startsOperand c = false) ∧
      (op ≠ .dots → ∀ o c, t = o :: c → opChar op o = true → startsOperand c = false) := by
  induction k generalizing s with
  | zero =>
    obtain rfl := List.length_eq_zero_iff.mp (by omega : s.length = 0)
    exact ⟨[], [], rfl, rfl, .inl rfl, by simp, by simp⟩
  | succ k ih =>
    cases s with
    | nil => exact ⟨[], [], rfl, rfl, .inl rfl, by simp, by simp⟩
    | cons o s =>
      rw [List.map_cons, matchTail, isOp_ch, takeWhile_ch, dropWhile_ch]
      by_cases h : opChar op o = true ∧ s.takeWhile operandChar ≠ []
      · rw [if_pos ⟨h.1, by simpa using h.2⟩]
        have hx := isOperandStr_takeWhile h.2
        by_cases hd : op = .dots
        · rw [if_pos hd]
          refine ⟨o :: s.takeWhile operandChar, s.dropWhile operandChar, by simp, by simp,
            .inr (.one h.1 hx), by simp, fun h' => absurd hd h'⟩
        · rw [if_neg hd]
          obtain ⟨m, t, h1, h2, h3, -, h5⟩ := ih (s.dropWhile operandChar) (by
            have := List.dropWhile_suffix (p := operandChar) (l := s) |>.length_le
            simp at hk; omega)
          refine ⟨o :: (s.takeWhile operandChar ++ m), t, by simp [h1], ?_, .inr ?_,
            fun h' => absurd h' hd, h5⟩
          · rw [List.cons_append, List.append_assoc, ← h2, List.takeWhile_append_dropWhile]
          · rcases h3 with rfl | h3
            · simpa using OpTail.one h.1 hx
            · exact .more hd h.1 hx h3
      · rw [if_neg (by simpa using h)]
        have key : ∀ o' c, o :: s = o' :: c → opChar op o' = true → startsOperand c = false := by
          rintro o' c e ho'
          obtain ⟨rfl, rfl⟩ := List.cons.inj e
          rw [Bool.eq_false_iff]
          intro hst
          exact h ⟨ho', startsOperand_iff.mp hst⟩
        exact ⟨[], o :: s, rfl, rfl, .inl rfl, fun _ _ => key, fun _ => key⟩

/-- A division of a string into pieces, some of which are put in parentheses, as `GAeval` should group by
the operator `op`. -/
structure Grouping (op : Op) (s : List Char) (pieces : List (Bool × List Char)) : Prop where
  /-- The pieces make up the string. -/
  join : pieces.flatMap Prod.snd = s
  nonempty : ∀ p ∈ pieces, p.2 ≠ []
  /-- What is put in parentheses are chains of operands. -/
  chain : ∀ p ∈ pieces, p.1 = true → OpChain op p.2
  /-- Every operator between two operands is in parentheses.  Exception: the inner products take two
  operands at a time, and an operator that follows a pair in parentheses is left alone. -/
  complete : ∀ P b Q, pieces = P ++ (false, b) :: Q → ∀ a o c, b = a ++ o :: c → opChar op o = true →
    endsOperand (P.flatMap Prod.snd ++ a) = true → startsOperand (c ++ Q.flatMap Prod.snd) = true →
    op = .dots ∧ a = [] ∧ ∃ P' w, P = P' ++ [(true, w)]

/-- The string with parentheses. -/
def wrapped (pieces : List (Bool × List Char)) : List Char :=
  pieces.flatMap fun p => if p.1 = true then '(' :: (p.2 ++ [')']) else p.2

theorem endsOperand_cons {x : List Char} {y : List Char} (hy : y ≠ []) :
    endsOperand (x ++ y) = endsOperand y := by
  rw [endsOperand, endsOperand, List.getLast?_append_of_ne_nil _ hy]

/-- Putting a piece in front. -/
theorem Grouping.cons {op : Op} {s x : List Char} {pieces : List (Bool × List Char)}
    (h : Grouping op s pieces) {b : Bool} (hx : x ≠ []) (hc : b = true → OpChain op x)
    (h0 : b = false → ∀ a o c, x = a ++ o :: c → opChar op o = true → endsOperand a = true → False)
    (hb : ∀ o c, s = o :: c → opChar op o = true → endsOperand x = true → startsOperand c = true →
      op = .dots ∧ b = true) : Grouping op (x ++ s) ((b, x) :: pieces) := by
  refine ⟨by rw [List.flatMap_cons, h.join], fun p hp => ?_, fun p hp hp' => ?_, ?_⟩
  · rcases List.mem_cons.mp hp with rfl | hp
    · exact hx
    · exact h.nonempty p hp
  · rcases List.mem_cons.mp hp with rfl | hp
    · exact hc hp'
    · exact h.chain p hp hp'
  · intro P b' Q e a o c e' ho he hst
    cases P with
    | nil =>
      obtain ⟨h1, h2⟩ := List.cons.inj e
      obtain ⟨rfl, rfl⟩ := Prod.mk.inj h1
      exact (h0 rfl a o c e' ho (by simpa using he)).elim
    | cons p P =>
      obtain ⟨rfl, h2⟩ := List.cons.inj e
      by_cases hn : P.flatMap Prod.snd ++ a = []
      · obtain ⟨hP, rfl⟩ := List.append_eq_nil_iff.mp hn
        have hP' : P = [] := by
          cases P with
          | nil => rfl
          | cons q P =>
            exfalso
            rw [List.flatMap_cons, List.append_eq_nil_iff] at hP
            exact h.nonempty q (by rw [h2]; simp) hP.1
        subst hP'
        rw [List.flatMap_cons, List.flatMap_nil, List.append_nil, List.append_nil] at he
        have hs : s = o :: (c ++ Q.flatMap Prod.snd) := by
          rw [← h.join, h2]
          change b' ++ _ = _
          rw [e']
          rfl
        obtain ⟨h3, rfl⟩ := hb o _ hs ho he hst
        exact ⟨h3, rfl, [], x, rfl⟩
      · rw [List.flatMap_cons, List.append_assoc, endsOperand_cons hn] at he
        obtain ⟨h3, h4, P', w, rfl⟩ := h.complete P b' Q h2 a o c e' ho he hst
        exact ⟨h3, h4, (b, x) :: P', w, rfl⟩

theorem Grouping.nil (op : Op) : Grouping op [] [] := by
  refine ⟨rfl, by simp, by simp, fun P b Q e => ?_⟩
  simp at e

theorem reSub_ch (op : Op) (k : ℕ) (s : List Char) (hk : s.length ≤ k) :
    ∃ pieces, Grouping op s pieces ∧ reSub op k (s.map Tk.ch) = (wrapped pieces).map Tk.ch := by
  induction k generalizing s with
  | zero =>
    obtain rfl := List.length_eq_zero_iff.mp (by omega : s.length = 0)
    exact ⟨[], .nil op, rfl⟩
  | succ k ih =>
    cases s with
    | nil => exact ⟨[], .nil op, rfl⟩
    | cons x s =>
      rw [List.map_cons, reSub, isOperand_ch]
      simp only [List.length_cons] at hk
      by_cases hx : operandChar x = true
      · rw [if_pos hx]
        simp only [takeWhile_ch, dropWhile_ch, List.length_map]
        have hlen := List.dropWhile_suffix (p := operandChar) (l := s) |>.length_le
        obtain ⟨m, t, h1, h2, h3, h4, h5⟩ := matchTail_ch op s.length (s.dropWhile operandChar) hlen
        rw [h1]
        have hop : IsOperandStr (x :: s.takeWhile operandChar) :=
          ⟨by simp, fun c hc => by
            rcases List.mem_cons.mp hc with rfl | hc
            · exact hx
            · exact List.mem_takeWhile_imp hc⟩
        by_cases hm : m = []
        · subst hm
          rw [if_pos (by simp)]
          obtain ⟨ps, g1, g2⟩ := ih (s.dropWhile operandChar) (by omega)
          refine ⟨(false, x :: s.takeWhile operandChar) :: ps, ?_, ?_⟩
          · have := g1.cons (b := false) hop.1 (by simp)
              (fun _ a o c e ho _ => by
                have := hop.2 o (by rw [e]; simp)
                rw [opChar_not_operand ho] at this
                cases this)
              (fun o c e ho _ hst => by
                exfalso
                have : startsOperand c = false := by
                  by_cases hd : op = .dots
                  · exact h4 hd rfl o c e ho
                  · exact h5 hd o c (by rw [← e, h2]; rfl) ho
                rw [hst] at this
                cases this)
            rwa [List.cons_append, List.takeWhile_append_dropWhile] at this
          · rw [g2]
            simp [wrapped]
        · rw [if_neg (by simpa using hm)]
          have ht : OpTail op m := h3.resolve_left hm
          obtain ⟨ps, g1, g2⟩ := ih t (by
            have := congrArg List.length h2
            rw [List.length_append] at this
            omega)
          refine ⟨(true, x :: s.takeWhile operandChar ++ m) :: ps, ?_, ?_⟩
          · have := g1.cons (b := true) (x := x :: s.takeWhile operandChar ++ m) (by simp)
              (fun _ => ⟨_, m, hop, ht, rfl⟩) (by simp)
              (fun o c e ho _ hst => by
                refine ⟨?_, rfl⟩
                by_contra hd
                rw [h5 hd o c e ho] at hst
                cases hst)
            rwa [List.append_assoc, ← h2, List.cons_append, List.takeWhile_append_dropWhile] at this
          · rw [g2]
            simp [wrapped]
      · rw [if_neg hx]
        obtain ⟨ps, g1, g2⟩ := ih s (by omega)
        refine ⟨(false, [x]) :: ps, ?_, ?_⟩
        · exact g1.cons (x := [x]) (b := false) (by simp) (by simp)
            (fun _ a o c e ho he => by
              cases a with
              | nil => simp [endsOperand] at he
              | cons y a => simp at e)
            (fun o c e ho he hst => by simp [endsOperand, hx] at he)
        · rw [g2]
          simp [wrapped]

/-- C49 for strings without parentheses and one operator: `GAeval` succeeds, and puts exactly the chains of
operands that the operator joins in parentheses.  For `|`, `<` and `>` these are pairs
(see `C49_chain_counterexample`).  Missing: several operators, and strings with parentheses. -/
theorem C49_grouping_partial (op : Op) (calls : ℕ) {s : List Char} (h1 : '(' ∉ s) (h2 : ')' ∉ s)
    (h3 : s.filter (· ≠ ' ') ≠ []) :
    ∃ pieces, Grouping op (s.filter (· ≠ ' ')) pieces ∧
      parseLine [op] calls s = some (wrapped pieces) := by
  obtain ⟨ps, g1, g2⟩ := reSub_ch op _ (s.filter (· ≠ ' ')) le_rfl
  refine ⟨ps, g1, ?_⟩
  have hp : ∀ c, c ∉ s → Tk.ch c ∉ (s.filter (· ≠ ' ')).map Tk.ch := by
    intro c hc hc'
    obtain ⟨d, hd, e⟩ := List.mem_map.mp hc'
    cases e
    exact hc (List.mem_of_mem_filter hd)
  have e1 := hp _ h1
  have e2 := hp _ h2
  have hne : (s.filter (· ≠ ' ')).map Tk.ch ≠ [] := by simpa using h3
  have hh : ((s.filter (· ≠ ' ')).map Tk.ch).head? ≠ some (.ch '(') := by
    intro e
    exact e1 (List.mem_of_mem_head? e)
  rw [parseLine, parseLineTk, parseParen, if_pos (.inl e1), Option.bind_some, addAll]
  simp only [List.foldlM_cons, List.foldlM_nil]
  rw [addParen, if_neg hne, if_neg (fun h => hh h.1), addInner, if_neg (not_or.mpr ⟨e1, e2⟩), sub,
    List.length_map, g2]
  simp only [addLevels, unparse]
  simp [Tk.chars, List.flatMap_map]

/-- Two chains, and an operator without operands on both sides. -/
example : parseLine [.times] 0 "A*B*C + -*D*E".toList = some
    (wrapped [(true, "A*B*C".toList), (false, "+-*".toList), (true, "D*E".toList)]) := by
  decide +kernel

/-! ### Unbalanced strings -/

/-- Every closing parenthesis has a partner before it, and every opening one a partner. -/
def Balanced (s : List Char) : Prop :=
  (∀ a b, s = a ++ b → a.count ')' ≤ a.count '(') ∧ s.count ')' = s.count '('

theorem scan_balanced (s : List Char) : ∀ (ich level : ℕ) (ps qs : List Paren),
    scan (s.map Tk.ch) ich level ps = some qs →
    (∀ a b, s = a ++ b → a.count ')' ≤ level + a.count '(') ∧ s.count ')' = level + s.count '(' := by
  induction s with
  | nil =>
    intro ich level ps qs h
    rw [List.map_nil, scan] at h
    split_ifs at h with h0
    subst h0
    refine ⟨fun a b e => ?_, rfl⟩
    rw [(List.append_eq_nil_iff.mp e.symm).1]
    simp
  | cons c s ih =>
    intro ich level ps qs h
    rw [List.map_cons, scan] at h
    split_ifs at h with h1 h2 h3
    · obtain rfl : c = '(' := by simpa using h1
      obtain ⟨i1, i2⟩ := ih _ _ _ _ h
      refine ⟨fun a b e => ?_, ?_⟩
      · cases a with
        | nil => simp
        | cons d a =>
          obtain ⟨rfl, rfl⟩ := List.cons.inj e
          have := i1 a b rfl
          simp
          omega
      · simp
        omega
    · obtain rfl : c = ')' := by simpa using h2
      obtain ⟨i1, i2⟩ := ih _ _ _ _ h
      refine ⟨fun a b e => ?_, ?_⟩
      · cases a with
        | nil => simp
        | cons d a =>
          obtain ⟨rfl, rfl⟩ := List.cons.inj e
          have := i1 a b rfl
          simp
          omega
      · simp
        omega
    · have hc1 : c ≠ '(' := by simpa using h1
      have hc2 : c ≠ ')' := by simpa using h2
      obtain ⟨i1, i2⟩ := ih _ _ _ _ h
      refine ⟨fun a b e => ?_, ?_⟩
      · cases a with
        | nil => simp
        | cons d a =>
          obtain ⟨rfl, rfl⟩ := List.cons.inj e
          have := i1 a b rfl
          simpa [List.count_cons, hc1, hc2] using this
      · simpa [List.count_cons, hc1, hc2] using i2

/-- C49: a string that contains both kinds of parentheses and is accepted is balanced; otherwise `GAeval`
raises.  A string with only one kind is accepted (`C49_unbalanced_counterexample`). -/
theorem C49_balanced_partial {ops : List Op} {calls : ℕ} {s r : List Char} (h1 : '(' ∈ s)
    (h2 : ')' ∈ s) (h : parseLine ops calls s = some r) : Balanced (s.filter (· ≠ ' ')) := by
  rw [parseLine, parseLineTk, Option.map_eq_some_iff] at h
  obtain ⟨l, hl, -⟩ := h
  obtain ⟨q, hq, -⟩ := Option.bind_eq_some_iff.mp hl
  have hp : ∀ c, c ≠ ' ' → c ∈ s → Tk.ch c ∈ (s.filter (· ≠ ' ')).map Tk.ch := by
    intro c hc hc'
    exact List.mem_map_of_mem (List.mem_filter.mpr ⟨hc', by simpa using hc⟩)
  rw [parseParen, if_neg (by
    rintro (h | h)
    · exact h (hp _ (by decide) h1)
    · exact h (hp _ (by decide) h2)), Option.map_eq_some_iff] at hq
  obtain ⟨qs, hqs, -⟩ := hq
  have := scan_balanced _ _ _ _ _ hqs
  simpa only [Balanced, Nat.zero_add] using this

/-- C49 fails: strings with an opening or a closing parenthesis without partner are accepted. -/
theorem C49_unbalanced_counterexample :
    parseLine [.dots, .wedge, .times] 0 "(A*B".toList = some "((A*B)".toList ∧
    ¬ Balanced "(A*B".toList := by
  refine ⟨by decide +kernel, fun h => ?_⟩
  have := h.2
  revert this
  decide +kernel

end GA
