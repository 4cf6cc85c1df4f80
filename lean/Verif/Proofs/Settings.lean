import Verif.Spec.Settings
import Verif.Proofs.Dict

/-! # Lemmas on the settings of printers -/

namespace GA.Settings
variable {α : Type*}

theorem lastValue_append (l m : List (String × Val)) (key : String) :
    lastValue (l ++ m) key = (lastValue m key).or (lastValue l key) := by
  unfold lastValue
  rw [List.filter_append, List.getLast?_append]
  cases (m.filter fun kv => decide (kv.1 = key)).getLast? <;> simp

theorem lastValue_single (kv : String × Val) (key : String) :
    lastValue [kv] key = if kv.1 = key then some kv.2 else none := by
  unfold lastValue
  by_cases h : kv.1 = key <;> simp [h]

theorem get?_update (d e : SDict) (key : String) :
    (update d e).get? key = (lastValue e key).or (d.get? key) := by
  induction e using List.reverseRecOn generalizing d with
  | nil => simp [update, lastValue]
  | append_singleton e kv ih =>
    have : update d (e ++ [kv]) = (update d e).set kv.1 kv.2 := by simp [update]
    rw [this, Dict.get?_set, ih, lastValue_append, lastValue_single]
    by_cases h : kv.1 = key
    · simp [h]
    · simp [h]

theorem length_set (d : SDict) (k : String) (v : Val) :
    (d.set k v).length = if (d.get? k).isSome then d.length else d.length + 1 := by
  induction d with
  | nil => simp [Dict.set, Dict.get?]
  | cons kv d ih =>
    obtain ⟨k', v'⟩ := kv
    by_cases h : k' = k
    · simp [Dict.set, Dict.get?, h]
    · simp only [Dict.set, Dict.get?, if_neg h, List.length_cons, ih]
      split_ifs <;> simp

theorem le_length_update (d e : SDict) : d.length ≤ (update d e).length := by
  induction e generalizing d with
  | nil => simp [update]
  | cons kv e ih =>
    have : update d (kv :: e) = update (d.set kv.1 kv.2) e := rfl
    rw [this]
    refine le_trans ?_ (ih _)
    rw [length_set]
    split_ifs <;> omega

theorem length_update (d e : SDict) :
    d.length < (update d e).length ↔ ∃ kv ∈ e, d.get? kv.1 = none := by
  induction e generalizing d with
  | nil => simp [update]
  | cons kv e ih =>
    have hu : update d (kv :: e) = update (d.set kv.1 kv.2) e := rfl
    rw [hu]
    have hl := length_set d kv.1 kv.2
    rcases hd : d.get? kv.1 with _ | w
    · rw [hd] at hl
      have := le_length_update (d.set kv.1 kv.2) e
      constructor
      · intro _
        exact ⟨kv, List.mem_cons_self, hd⟩
      · intro _
        simp at hl
        omega
    · rw [hd] at hl
      simp only [Option.isSome_some, if_true] at hl
      rw [← hl, ih]
      constructor
      · rintro ⟨p, hp, hn⟩
        rw [Dict.get?_set] at hn
        split_ifs at hn
        exact ⟨p, List.mem_cons_of_mem _ hp, hn⟩
      · rintro ⟨p, hp, hn⟩
        rcases List.mem_cons.1 hp with rfl | hp
        · rw [hd] at hn
          cases hn
        · refine ⟨p, hp, ?_⟩
          rw [Dict.get?_set]
          split_ifs with h
          · rw [← h, hd] at hn
            cases hn
          · exact hn

theorem get?_setGlobal (d kvs : SDict) (key : String) :
    (setGlobal d kvs).get? key
      = (lastValue (kvs.filter fun kv => kv.2 ≠ .none) key).or (d.get? key) := by
  have : setGlobal d kvs = update d (kvs.filter fun kv => kv.2 ≠ .none) := by
    unfold setGlobal update
    induction kvs generalizing d with
    | nil => rfl
    | cons kv kvs ih =>
      by_cases h : kv.2 = .none
      · simp [h, ih]
      · simp [h, ih]
  rw [this, get?_update]

/-! ### The heap -/

theorem getD_append_left {β : Type*} (h e : List β) (z : β) {d : ℕ} (hd : d < h.length) :
    (h ++ e).getD d z = h.getD d z := by
  simp [List.getD, List.getElem?_append_left hd]

theorem getD_last {β : Type*} (h : List β) (e z : β) : (h ++ [e]).getD h.length z = e := by
  simp [List.getD]

theorem set_last {β : Type*} (h : List β) (e e' : β) : (h ++ [e]).set h.length e' = h ++ [e'] := by
  simp

mutual
/-- An object of the program and an object with its formats. -/
def Rel (h : SHeap) : Obj α → PObj α → Prop
  | .leaf a, .leaf b => a = b
  | .settings d o, .fmt key v p => 3 ≤ d ∧ d < h.length ∧ h.getD d [] = [(key, v)] ∧ Rel h o p
  | .label l o, .label l' p => l = l' ∧ Rel h o p
  | .list os, .list ps => RelL h os ps
  | _, _ => False
/-- The same for lists. -/
def RelL (h : SHeap) : List (Obj α) → List (PObj α) → Prop
  | [], [] => True
  | o :: os, p :: ps => Rel h o p ∧ RelL h os ps
  | _, _ => False
end

theorem relL_iff (h : SHeap) (os : List (Obj α)) (ps : List (PObj α)) :
    RelL h os ps ↔ List.Forall₂ (Rel h) os ps := by
  induction os generalizing ps with
  | nil => cases ps <;> simp [RelL]
  | cons o os ih => cases ps <;> simp [RelL, ih]

/-- All dictionaries but the global one are kept. -/
def Keeps (h h' : SHeap) : Prop :=
  h.length ≤ h'.length ∧ ∀ d, 1 ≤ d → d < h.length → h'.getD d [] = h.getD d []

theorem Keeps.refl (h : SHeap) : Keeps h h := ⟨le_rfl, fun _ _ _ => rfl⟩

theorem keeps_append (h e : SHeap) : Keeps h (h ++ e) :=
  ⟨by simp, fun d _ hd => getD_append_left h e [] hd⟩

mutual
theorem rel_mono {h h' : SHeap} (hk : Keeps h h') :
    ∀ (o : Obj α) (p : PObj α), Rel h o p → Rel h' o p
  | .leaf _, .leaf _, hr => hr
  | .settings d o, .fmt key v p, hr => by
    obtain ⟨h3, hd, he, hr⟩ := hr
    exact ⟨h3, lt_of_lt_of_le hd hk.1, by rw [hk.2 d (by omega) hd, he], rel_mono hk o p hr⟩
  | .label l o, .label l' p, hr => ⟨hr.1, rel_mono hk o p hr.2⟩
  | .list os, .list ps, hr => relL_mono hk os ps hr
  | .leaf _, .fmt _ _ _, hr => hr.elim
  | .leaf _, .label _ _, hr => hr.elim
  | .leaf _, .list _, hr => hr.elim
  | .settings _ _, .leaf _, hr => hr.elim
  | .settings _ _, .label _ _, hr => hr.elim
  | .settings _ _, .list _, hr => hr.elim
  | .label _ _, .leaf _, hr => hr.elim
  | .label _ _, .fmt _ _ _, hr => hr.elim
  | .label _ _, .list _, hr => hr.elim
  | .list _, .leaf _, hr => hr.elim
  | .list _, .fmt _ _ _, hr => hr.elim
  | .list _, .label _ _, hr => hr.elim
theorem relL_mono {h h' : SHeap} (hk : Keeps h h') :
    ∀ (os : List (Obj α)) (ps : List (PObj α)), RelL h os ps → RelL h' os ps
  | [], [], hr => hr
  | o :: os, p :: ps, hr => ⟨rel_mono hk o p hr.1, relL_mono hk os ps hr.2⟩
  | [], _ :: _, hr => hr.elim
  | _ :: _, [], hr => hr.elim
end

variable (shows : α → (String → Option Val) → Option (List Char))
  (join : List (List Char) → List Char)

mutual
/-- Printing gives the text for the settings of the printer and changes no dictionary. -/
theorem print_spec : ∀ (o : Obj α) (p : PObj α) (r : ℕ) (h : SHeap), Rel h o p → r < h.length →
    ∃ e, print shows join o r h = (textOf shows join (h.getD r []).get? p, h ++ e)
  | .leaf a, .leaf b, r, h, hr, _ => by
    cases (show a = b from hr)
    exact ⟨[], by rw [List.append_nil]; rfl⟩
  | .settings d o, .fmt key v p, r, h, hr, hrl => by
    obtain ⟨h3, hd, he, hr⟩ := hr
    have hk := keeps_append h [update (h.getD r []) [(key, v)]]
    obtain ⟨e, hp⟩ := print_spec o p h.length (h ++ [update (h.getD r []) [(key, v)]])
      (rel_mono hk o p hr) (by simp)
    refine ⟨[update (h.getD r []) [(key, v)]] ++ e, ?_⟩
    rw [← List.append_assoc, print]
    rw [set_last, getD_last, getD_append_left _ _ _ hd, he, hp, getD_last]
    have : (update (h.getD r []) [(key, v)]).get? = override (h.getD r []).get? key v := by
      funext k
      rw [get?_update, lastValue_single]
      unfold override
      by_cases hkk : k = key
      · simp [hkk]
      · simp [hkk, Ne.symm hkk]
    rw [this]
    rfl
  | .label l o, .label l' p, r, h, hr, hrl => by
    obtain ⟨rfl, hr⟩ := hr
    obtain ⟨e, hp⟩ := print_spec o p r h hr hrl
    exact ⟨e, by rw [print, hp]; rfl⟩
  | .list os, .list ps, r, h, hr, hrl => by
    obtain ⟨e, hp⟩ := printList_spec os ps r h hr hrl
    exact ⟨e, by rw [print, hp]; rfl⟩
  | .leaf _, .fmt _ _ _, _, _, hr, _ => hr.elim
  | .leaf _, .label _ _, _, _, hr, _ => hr.elim
  | .leaf _, .list _, _, _, hr, _ => hr.elim
  | .settings _ _, .leaf _, _, _, hr, _ => hr.elim
  | .settings _ _, .label _ _, _, _, hr, _ => hr.elim
  | .settings _ _, .list _, _, _, hr, _ => hr.elim
  | .label _ _, .leaf _, _, _, hr, _ => hr.elim
  | .label _ _, .fmt _ _ _, _, _, hr, _ => hr.elim
  | .label _ _, .list _, _, _, hr, _ => hr.elim
  | .list _, .leaf _, _, _, hr, _ => hr.elim
  | .list _, .fmt _ _ _, _, _, hr, _ => hr.elim
  | .list _, .label _ _, _, _, hr, _ => hr.elim
theorem printList_spec : ∀ (os : List (Obj α)) (ps : List (PObj α)) (r : ℕ) (h : SHeap),
    RelL h os ps → r < h.length →
    ∃ e, printList shows join os r h = (textsOf shows join (h.getD r []).get? ps, h ++ e)
  | [], [], r, h, _, _ => ⟨[], by rw [List.append_nil]; rfl⟩
  | o :: os, p :: ps, r, h, hr, hrl => by
    obtain ⟨e, hp⟩ := print_spec o p r h hr.1 hrl
    obtain ⟨e', hp'⟩ := printList_spec os ps r (h ++ e)
      (relL_mono (keeps_append h e) os ps hr.2) (by simp; omega)
    rw [getD_append_left _ _ _ hrl] at hp'
    rw [printList]
    simp only [hp]
    rw [textsOf]
    rcases textOf shows join (h.getD r []).get? p with _ | t
    · exact ⟨e, rfl⟩
    · refine ⟨e ++ e', ?_⟩
      simp only [hp', List.append_assoc]
      rcases textsOf shows join (h.getD r []).get? ps with _ | ts <;> rfl
  | [], _ :: _, _, _, hr, _ => hr.elim
  | _ :: _, [], _, _, hr, _ => hr.elim
end

/-! ### New printers -/

theorem lastValue_nodup (G : SDict) (hG : (G.map Prod.fst).Nodup) (key : String) :
    lastValue G key = G.get? key := by
  induction G with
  | nil => rfl
  | cons kv G ih =>
    rw [List.map_cons] at hG
    have hG' := List.nodup_cons.1 hG
    rw [show kv :: G = [kv] ++ G from rfl, lastValue_append, lastValue_single, ih hG'.2]
    obtain ⟨k, v⟩ := kv
    have hnone : k = key → Dict.get? G key = none := by
      rintro rfl
      have := hG'.1
      clear ih hG hG'
      induction G with
      | nil => rfl
      | cons p G ih =>
        obtain ⟨k', v'⟩ := p
        simp only [List.map_cons, List.mem_cons, not_or] at this
        simp only [Dict.get?, if_neg (Ne.symm this.1)]
        exact ih this.2
    by_cases h : k = key
    · simp [Dict.get?, h, hnone h]
    · simp [Dict.get?, h]

theorem nodup_set (d : SDict) (k : String) (v : Val) (hd : (d.map Prod.fst).Nodup) :
    ((d.set k v).map Prod.fst).Nodup := by
  have key : ∀ d : SDict, ∀ x, x ∈ (d.set k v).map Prod.fst ↔ x = k ∨ x ∈ d.map Prod.fst := by
    intro d x
    induction d with
    | nil => simp [Dict.set]
    | cons p d ih =>
      obtain ⟨k', v'⟩ := p
      by_cases h : k' = k
      · simp [Dict.set, h]
      · simp only [Dict.set, if_neg h, List.map_cons, List.mem_cons, ih]
        tauto
  induction d with
  | nil => simp [Dict.set]
  | cons p d ih =>
    obtain ⟨k', v'⟩ := p
    rw [List.map_cons] at hd
    have hd' := List.nodup_cons.1 hd
    by_cases h : k' = k
    · simpa [Dict.set, h] using hd
    · simp only [Dict.set, if_neg h, List.map_cons, List.nodup_cons]
      refine ⟨?_, ih hd'.2⟩
      rw [key]
      rintro (h' | h')
      · exact h h'
      · exact hd'.1 h'

theorem nodup_setGlobal (d kvs : SDict) (hd : (d.map Prod.fst).Nodup) :
    ((setGlobal d kvs).map Prod.fst).Nodup := by
  unfold setGlobal
  induction kvs generalizing d with
  | nil => exact hd
  | cons kv kvs ih =>
    rw [List.foldl_cons]
    apply ih
    split_ifs
    · exact hd
    · exact nodup_set d _ _ hd

theorem lastValue_filter (G : SDict) (D : SDict) (key : String) :
    lastValue (G.filter fun kv => (D.get? kv.1).isSome) key
      = if (D.get? key).isSome then lastValue G key else none := by
  unfold lastValue
  rw [List.filter_filter]
  split_ifs with h
  · congr 2
    apply List.filter_congr
    rintro kv -
    by_cases hk : kv.1 = key
    · simp [hk, h]
    · simp [hk]
  · have : (G.filter fun kv => decide (kv.1 = key) && (D.get? kv.1).isSome) = [] := by
      rw [List.filter_eq_nil_iff]
      rintro kv - hkv
      simp only [Bool.and_eq_true, decide_eq_true_eq] at hkv
      rw [hkv.1] at hkv
      exact h hkv.2
    rw [this]
    rfl

/-- A new printer has the default settings, changed by the global ones and by those of the call. -/
theorem newPrinter_spec (k : Kind) (kw : SDict) (h : SHeap) (hl : 3 ≤ h.length) :
    ∃ e : SDict,
      newPrinter k kw h = (if ∃ kv ∈ kw, (h.getD k.defaultRef []).get? kv.1 = none then none
        else some h.length, h ++ [e])
      ∧ ((∀ kv ∈ kw, (h.getD k.defaultRef []).get? kv.1 ≠ none) → ∀ key, e.get? key =
        ((h.getD k.defaultRef []).get? key).map fun d =>
          (lastValue kw key).getD ((lastValue (h.getD globalRef []) key).getD d)) := by
  have hk : k.defaultRef < h.length := by
    cases k <;> simp [Kind.defaultRef] <;> omega
  have hg : globalRef < h.length := by
    unfold globalRef; omega
  obtain ⟨D, hD⟩ : ∃ D, h.getD k.defaultRef [] = D := ⟨_, rfl⟩
  obtain ⟨G, hG⟩ : ∃ G, h.getD globalRef [] = G := ⟨_, rfl⟩
  have hfold : ∀ (G' : SDict) (e : SDict), G'.foldl (fun (h' : SHeap) kv =>
      if ((h'.getD k.defaultRef []).get? kv.1).isSome then
        h'.set h.length ((h'.getD h.length []).set kv.1 kv.2) else h') (h ++ [e])
      = h ++ [update e (G'.filter fun kv => (D.get? kv.1).isSome)] := by
    intro G'
    induction G' with
    | nil => intro e; rfl
    | cons kv G' ih =>
      intro e
      rw [List.foldl_cons, getD_append_left _ _ _ hk, hD, getD_last, set_last]
      by_cases hkv : (D.get? kv.1).isSome
      · rw [if_pos hkv, ih, List.filter_cons_of_pos (by simpa using hkv)]
        rfl
      · rw [if_neg hkv, ih, List.filter_cons_of_neg (by simpa using hkv)]
  have hlen : (update D (G.filter fun kv => (D.get? kv.1).isSome)).length = D.length := by
    refine le_antisymm ?_ (le_length_update _ _)
    rw [← not_lt, length_update]
    rintro ⟨kv, hkv, hn⟩
    have := (List.mem_filter.1 hkv).2
    rw [hn] at this
    cases this
  have hsome : ∀ key, (update D (G.filter fun kv => (D.get? kv.1).isSome)).get? key
      = (D.get? key).map fun d => (lastValue G key).getD d := by
    intro key
    rw [get?_update, lastValue_filter]
    rcases D.get? key with _ | d
    · rfl
    · rcases lastValue G key with _ | v <;> rfl
  refine ⟨update (update D (G.filter fun kv => (D.get? kv.1).isSome)) kw, ?_, ?_⟩
  · unfold newPrinter
    simp only []
    rw [getD_append_left _ _ _ hg, hG, hD, hfold, getD_last, set_last, getD_last,
      getD_append_left _ _ _ hk, hD, ← hlen]
    congr 1
    have hiff := length_update (update D (G.filter fun kv => (D.get? kv.1).isSome)) kw
    have hiff' : (∃ kv ∈ kw, (update D (G.filter fun kv => (D.get? kv.1).isSome)).get? kv.1 = none)
        ↔ ∃ kv ∈ kw, D.get? kv.1 = none := by
      constructor
      · rintro ⟨kv, hkv, hn⟩
        refine ⟨kv, hkv, ?_⟩
        rw [hsome] at hn
        exact Option.map_eq_none_iff.1 hn
      · rintro ⟨kv, hkv, hn⟩
        refine ⟨kv, hkv, ?_⟩
        rw [hsome, hn]
        rfl
    by_cases hc : ∃ kv ∈ kw, D.get? kv.1 = none
    · rw [if_pos hc, if_pos (hiff.2 (hiff'.2 hc))]
    · rw [if_neg hc, if_neg (fun hh => hc (hiff'.1 (hiff.1 hh)))]
  · rw [hD, hG]
    intro hkw key
    rw [get?_update, hsome]
    rcases hd : D.get? key with _ | d
    · have : lastValue kw key = none := by
        unfold lastValue
        rw [List.filter_eq_nil_iff.2]
        · rfl
        · intro kv hkv hke
          rw [decide_eq_true_eq] at hke
          exact hkw kv hkv (hke ▸ hd)
      rw [this]
      rfl
    · rcases lastValue kw key with _ | v <;> rfl

/-! ### Programs -/

/-- What the state of a program says about it. -/
structure Inv (sympy : Kind → SDict) (cmds : List (Cmd α)) (s : State α) : Prop where
  length : 3 ≤ s.heap.length
  defaults : ∀ k : Kind, s.heap.getD k.defaultRef [] = k.defaults sympy
  nodup : ((s.heap.getD globalRef []).map Prod.fst).Nodup
  glob : ∀ key, (s.heap.getD globalRef []).get? key = lastValue (assignments cmds) key
  objs : List.Forall₂ (Rel s.heap) s.objs (objsOf cmds)

theorem objsOf_snoc (cmds : List (Cmd α)) (c : Cmd α) :
    objsOf (cmds ++ [c]) = objsOf cmds ++ c.makes (objsOf cmds) := by
  simp [objsOf]

theorem assignments_snoc (cmds : List (Cmd α)) (c : Cmd α) :
    assignments (cmds ++ [c]) = assignments cmds ++ c.asks.filter fun kv => kv.2 ≠ .none := by
  simp [assignments]

theorem Inv.start (sympy : Kind → SDict) : Inv sympy ([] : List (Cmd α)) (start sympy) where
  length := by simp [Settings.start]
  defaults k := by cases k <;> rfl
  nodup := by simp [Settings.start, globalRef]
  glob _ := rfl
  objs := List.Forall₂.nil

/-- A step that only adds dictionaries and objects. -/
theorem Inv.extend {sympy : Kind → SDict} {cmds : List (Cmd α)} {s : State α} (hi : Inv sympy cmds s)
    {c : Cmd α} (hc : c.asks = []) {e : SHeap} {os : List (Obj α)} {outs : List (Option (List Char))}
    (hos : List.Forall₂ (Rel (s.heap ++ e)) os (c.makes (objsOf cmds))) :
    Inv sympy (cmds ++ [c]) ⟨s.heap ++ e, s.objs ++ os, outs⟩ where
  length := by simp; have := hi.length; omega
  defaults k := by
    have hk : k.defaultRef < s.heap.length := by
      have := hi.length
      cases k <;> simp [Kind.defaultRef] <;> omega
    rw [getD_append_left _ _ _ hk, hi.defaults]
  nodup := by
    have hg : globalRef < s.heap.length := lt_of_lt_of_le (by simp [globalRef]) hi.length
    rw [getD_append_left _ _ _ hg]
    exact hi.nodup
  glob key := by
    have hg : globalRef < s.heap.length := lt_of_lt_of_le (by simp [globalRef]) hi.length
    rw [getD_append_left _ _ _ hg, hi.glob, assignments_snoc, hc]
    simp
  objs := by
    rw [objsOf_snoc]
    refine List.rel_append (hi.objs.imp fun o p hr => rel_mono (keeps_append _ _) o p hr) hos

/-- A step that only assigns global settings. -/
theorem Inv.assign {sympy : Kind → SDict} {cmds : List (Cmd α)} {s : State α} (hi : Inv sympy cmds s)
    {c : Cmd α} (hm : ∀ objs : List (PObj α), c.makes objs = []) (kvs : SDict)
    (hc : ∀ key, lastValue (kvs.filter fun kv => kv.2 ≠ .none) key
      = lastValue (c.asks.filter fun kv => kv.2 ≠ .none) key) :
    Inv sympy (cmds ++ [c]) (s.setGlobal kvs) := by
  have hg : globalRef < s.heap.length := lt_of_lt_of_le (by simp [globalRef]) hi.length
  have hget : (s.setGlobal kvs).heap.getD globalRef []
      = setGlobal (s.heap.getD globalRef []) kvs := by
    simp [State.setGlobal, List.getD, hg]
  have hother : ∀ d, 1 ≤ d → (s.setGlobal kvs).heap.getD d [] = s.heap.getD d [] := by
    intro d hd
    have : globalRef ≠ d := by unfold globalRef; omega
    simp [State.setGlobal, List.getD, this]
  refine ⟨?_, ?_, ?_, ?_, ?_⟩
  · have := hi.length
    simpa [State.setGlobal] using this
  · intro k
    rw [hother _ (by cases k <;> simp [Kind.defaultRef]), hi.defaults]
  · rw [hget]
    exact nodup_setGlobal _ _ hi.nodup
  · intro key
    rw [hget, get?_setGlobal, hi.glob, assignments_snoc, lastValue_append, hc]
  · rw [objsOf_snoc, hm, List.append_nil]
    refine hi.objs.imp fun o p hr => rel_mono ⟨?_, fun d hd _ => hother d hd⟩ o p hr
    simp [State.setGlobal]

theorem get?_rel {h : SHeap} {os : List (Obj α)} {ps : List (PObj α)}
    (hr : List.Forall₂ (Rel h) os ps) (i : ℕ) :
    (os[i]? = none ∧ ps[i]? = none) ∨ ∃ o p, os[i]? = some o ∧ ps[i]? = some p ∧ Rel h o p := by
  induction hr generalizing i with
  | nil => simp
  | cons hop _ ih =>
    cases i with
    | zero => right; exact ⟨_, _, rfl, rfl, hop⟩
    | succ i => simpa using ih i

theorem rel_leaf {h : SHeap} {a : α} {p : PObj α} (hr : Rel h (.leaf a) p) : p = .leaf a := by
  cases p with
  | leaf b => exact congrArg _ (show a = b from hr).symm
  | fmt => exact hr.elim
  | label => exact hr.elim
  | list => exact hr.elim

theorem leaf_rel {h : SHeap} {a : α} {o : Obj α} (hr : Rel h o (.leaf a)) : o = .leaf a := by
  cases o with
  | leaf b => exact congrArg _ (show b = a from hr)
  | settings => exact hr.elim
  | label => exact hr.elim
  | list => exact hr.elim

/-- An object that has a method `Fmt`, or not. -/
theorem leaf_cases {h : SHeap} {os : List (Obj α)} {ps : List (PObj α)}
    (hr : List.Forall₂ (Rel h) os ps) (i : ℕ) :
    (∃ a, os[i]? = some (.leaf a) ∧ ps[i]? = some (.leaf a))
      ∨ ((∀ a, os[i]? ≠ some (.leaf a)) ∧ ∀ a, ps[i]? ≠ some (.leaf a)) := by
  rcases get?_rel hr i with ⟨ho, hp⟩ | ⟨o, p, ho, hp, hop⟩
  · right
    rw [ho, hp]
    exact ⟨fun _ h => (by cases h), fun _ h => (by cases h)⟩
  · by_cases hl : ∃ a, o = .leaf a
    · obtain ⟨a, rfl⟩ := hl
      left
      exact ⟨a, ho, hp.trans (congrArg some (rel_leaf hop))⟩
    · right
      rw [ho, hp]
      refine ⟨fun a h => hl ⟨a, Option.some.inj h⟩, fun a h => hl ⟨a, ?_⟩⟩
      cases Option.some.inj h
      exact leaf_rel hop

theorem fmtResult_rel {h : SHeap} {o : Obj α} {p : PObj α} (hr : Rel h o p)
    (title : Option (List Char)) :
    Rel h (fmtResult o title) (match title with | none => p | some l => .label l p) := by
  cases title with
  | none => exact hr
  | some l => exact ⟨rfl, hr⟩

theorem Inv.wrap {sympy : Kind → SDict} {cmds : List (Cmd α)} {s : State α} (hi : Inv sympy cmds s)
    {c : Cmd α} (hc : c.asks = []) (i : ℕ) (key : String) (v : Val) (title : Option (List Char))
    (hm : ∀ objs : List (PObj α),
      c.makes objs = formatted objs i (fun o => .fmt key v o) title) :
    Inv sympy (cmds ++ [c]) (s.wrap i key v title) := by
  unfold State.wrap
  rcases leaf_cases hi.objs i with ⟨a, ho, hp⟩ | ⟨ho, hp⟩
  · rw [ho]
    refine hi.extend hc (e := [[(key, v)]]) (os := [_]) (outs := s.outs) ?_
    rw [hm, formatted, hp]
    have hr : Rel (s.heap ++ [[(key, v)]]) (.settings s.heap.length (.leaf a)) (.fmt key v (.leaf a)) :=
      ⟨hi.length, by simp, getD_last _ _ _, rfl⟩
    exact List.Forall₂.cons (fmtResult_rel hr title) List.Forall₂.nil
  · have h2 : c.makes (objsOf cmds) = [] := by
      rw [hm, formatted]
      split
      · next a h => exact absurd h (hp a)
      · rfl
    split
    · next a h => exact absurd h (ho a)
    · have := hi.extend hc (e := []) (os := []) (outs := s.outs) (by rw [h2]; exact List.Forall₂.nil)
      simpa using this

theorem step_show (shows : Kind → α → (String → Option Val) → Option (List Char))
    (join : Kind → List (List Char) → List Char) (s : State α) (k : Kind) (i : ℕ) (kw : SDict) :
    step shows join s (.show k i kw) = match s.objs[i]? with
    | none => s
    | some o =>
      match newPrinter k kw s.heap with
      | (none, h) => { s with heap := h, outs := s.outs ++ [none] }
      | (some r, h) =>
        let p := print (shows k) (join k) o r h
        { s with heap := p.2, outs := s.outs ++ [p.1] } := rfl

theorem step_mvFmt (shows : Kind → α → (String → Option Val) → Option (List Char))
    (join : Kind → List (List Char) → List Char) (s : State α) (i : ℕ) (v : Val)
    (title : Option (List Char)) (hv : v ≠ .none) :
    step shows join s (.mvFmt i v title) = s.wrap i "galgebra_mv_fmt" v title := by
  cases v with
  | none => exact absurd rfl hv
  | int => rfl
  | bool => rfl
  | str => rfl

theorem lastValue_filter_cons (kv : String × Val) (l : List (String × Val)) (key : String) :
    lastValue ((kv :: l).filter fun kv => kv.2 ≠ .none) key
      = (lastValue (l.filter fun kv => kv.2 ≠ .none) key).or
        (if kv.1 = key ∧ kv.2 ≠ .none then some kv.2 else none) := by
  by_cases h : kv.2 = .none
  · simp [h]
  · rw [List.filter_cons_of_pos (by simpa using h), show kv :: (l.filter fun kv => kv.2 ≠ .none)
      = [kv] ++ l.filter fun kv => kv.2 ≠ .none from rfl, lastValue_append, lastValue_single]
    simp [h]

theorem show_spec (shows : Kind → α → (String → Option Val) → Option (List Char))
    (join : Kind → List (List Char) → List Char) {sympy : Kind → SDict} {cmds : List (Cmd α)}
    {s : State α} (hi : Inv sympy cmds s) (k : Kind) (i : ℕ) (kw : SDict) {p : PObj α}
    (hp : (objsOf cmds)[i]? = some p) :
    ∃ e, step shows join s (.show k i kw)
      = ⟨s.heap ++ e, s.objs, s.outs ++ [shown shows join sympy cmds k kw p]⟩ := by
  rcases get?_rel hi.objs i with ⟨_, hn⟩ | ⟨o, p', ho, hp', hr⟩
  · rw [hp] at hn
    cases hn
  obtain rfl : p = p' := Option.some.inj (hp.symm.trans hp')
  obtain ⟨e, he, hget⟩ := newPrinter_spec k kw s.heap hi.length
  rw [hi.defaults] at he hget
  rw [step_show, ho]
  by_cases hc : ∃ kv ∈ kw, (k.defaults sympy).get? kv.1 = none
  · rw [if_pos hc] at he
    refine ⟨[e], ?_⟩
    simp only [he, shown, if_pos hc]
  · rw [if_neg hc] at he
    obtain ⟨e', hpr⟩ := print_spec (shows k) (join k) o p s.heap.length (s.heap ++ [e])
      (rel_mono (keeps_append _ _) o p hr) (by simp)
    refine ⟨[e] ++ e', ?_⟩
    have heff : (e : SDict).get? = effective (k.defaults sympy) cmds kw := by
      funext key
      rw [hget (by exact fun kv hkv hn => hc ⟨kv, hkv, hn⟩)]
      unfold effective
      rw [lastValue_nodup _ hi.nodup, hi.glob]
    rw [getD_last, heff] at hpr
    simp only [he, hpr, shown, if_neg hc, List.append_assoc]

theorem mapM_rel {h : SHeap} {os : List (Obj α)} {ps : List (PObj α)}
    (hr : List.Forall₂ (Rel h) os ps) (is : List ℕ) :
    ((is.mapM fun i => os[i]?) = none ∧ (is.mapM fun i => ps[i]?) = none) ∨
      ∃ o p, (is.mapM fun i => os[i]?) = some o ∧ (is.mapM fun i => ps[i]?) = some p
        ∧ List.Forall₂ (Rel h) o p := by
  induction is with
  | nil => right; exact ⟨[], [], rfl, rfl, List.Forall₂.nil⟩
  | cons i is ih =>
    simp only [List.mapM_cons]
    rcases get?_rel hr i with ⟨h1, h2⟩ | ⟨o, p, h1, h2, hop⟩
    · left; rw [h1, h2]; exact ⟨rfl, rfl⟩
    · rw [h1, h2]
      rcases ih with ⟨h3, h4⟩ | ⟨os', ps', h3, h4, hops⟩
      · left; rw [h3, h4]; exact ⟨rfl, rfl⟩
      · right
        rw [h3, h4]
        exact ⟨o :: os', p :: ps', rfl, rfl, List.Forall₂.cons hop hops⟩

theorem Inv.step (shows : Kind → α → (String → Option Val) → Option (List Char))
    (join : Kind → List (List Char) → List Char) {sympy : Kind → SDict} {cmds : List (Cmd α)}
    {s : State α} (hi : Inv sympy cmds s) (c : Cmd α) :
    Inv sympy (cmds ++ [c]) (step shows join s c) := by
  have same : ∀ c : Cmd α, c.asks = [] → c.makes (objsOf cmds) = [] →
      ∀ outs, Inv sympy (cmds ++ [c]) ⟨s.heap, s.objs, outs⟩ := by
    intro c hc hm outs
    have := hi.extend hc (e := []) (os := []) (outs := outs) (by rw [hm]; exact List.Forall₂.nil)
    simpa using this
  cases c with
  | new a =>
    have := hi.extend (c := .new a) rfl (e := []) (os := [.leaf a]) (outs := s.outs)
      (List.Forall₂.cons rfl List.Forall₂.nil)
    simpa [Settings.step] using this
  | list is =>
    unfold Settings.step
    rcases mapM_rel hi.objs is with ⟨h1, h2⟩ | ⟨o, p, h1, h2, hop⟩
    · simp only [h1]
      exact same (.list is) rfl (by simp [Cmd.makes, h2]) s.outs
    · simp only [h1]
      have := hi.extend (c := .list is) rfl (e := []) (os := [.list o]) (outs := s.outs) (by
        rw [show Cmd.makes (objsOf cmds) (.list is) = [.list p] by simp [Cmd.makes, h2]]
        refine List.Forall₂.cons ?_ List.Forall₂.nil
        exact (relL_iff _ _ _).2 (by simpa using hop))
      simpa using this
  | fmt v =>
    cases v with
    | int i => exact hi.assign (fun _ => rfl) _ fun _ => rfl
    | bool b => exact hi.assign (fun _ => rfl) _ fun _ => rfl
    | none => exact same _ rfl rfl s.outs
    | str t => exact same _ rfl rfl s.outs
  | enhance base fct deriv =>
    refine hi.assign (fun _ => rfl) _ fun key => ?_
    simp only [Cmd.asks, lastValue_filter_cons]
    by_cases h1 : "function_color" = key
    · subst h1; simp [lastValue]
    · by_cases h2 : "derivative_color" = key
      · subst h2; simp [lastValue]
      · simp [h1, h2, lastValue]
  | format fmode dmode inverse =>
    refine hi.assign (fun _ => rfl) _ fun key => ?_
    simp only [Cmd.asks, lastValue_filter_cons]
    by_cases h1 : "omit_function_args" = key
    · subst h1; simp [lastValue]
    · by_cases h2 : "omit_partial_derivative_fraction" = key
      · subst h2; simp [lastValue]
      · simp [h1, h2, lastValue]
  | mvFmt i v title =>
    by_cases hv : v = .none
    · subst hv
      rcases leaf_cases hi.objs i with ⟨a, ho, hp⟩ | ⟨ho, hp⟩
      · have hs : Settings.step shows join s (.mvFmt i .none title)
            = ⟨s.heap, s.objs ++ [fmtResult (.leaf a) title], s.outs⟩ := by
          simp only [Settings.step, ho]
        have := hi.extend (c := .mvFmt i .none title) rfl (e := [])
          (os := [fmtResult (.leaf a) title]) (outs := s.outs) (by
            simp only [Cmd.makes, formatted, hp, if_true]
            have hr : Rel (s.heap ++ []) (.leaf a) (.leaf a) := rfl
            exact List.Forall₂.cons (fmtResult_rel hr title) List.Forall₂.nil)
        rw [hs]
        simpa using this
      · have hs : Settings.step shows join s (.mvFmt i .none title) = s := by
          unfold Settings.step
          split <;> simp_all
        have hm : Cmd.makes (objsOf cmds) (.mvFmt i .none title) = [] := by
          unfold Cmd.makes formatted
          split <;> simp_all
        rw [hs]
        exact same _ rfl hm s.outs
    · rw [step_mvFmt shows join s i v title hv]
      exact hi.wrap rfl i _ v title fun objs => by simp [Cmd.makes, hv]
  | mltFmt i v title => exact hi.wrap rfl i _ v title fun _ => rfl
  | «show» k i kw =>
    rcases hp : (objsOf cmds)[i]? with _ | p
    · have : s.objs[i]? = none := by
        rcases get?_rel hi.objs i with ⟨h, _⟩ | ⟨_, _, _, h, _⟩
        · exact h
        · rw [hp] at h
          cases h
      rw [step_show, this]
      exact same _ rfl rfl s.outs
    · obtain ⟨e, he⟩ := show_spec shows join hi k i kw hp
      rw [he]
      have := hi.extend (c := .show k i kw) rfl (e := e) (os := [])
        (outs := s.outs ++ [shown shows join sympy cmds k kw p]) List.Forall₂.nil
      simpa using this

theorem Inv.run (shows : Kind → α → (String → Option Val) → Option (List Char))
    (join : Kind → List (List Char) → List Char) (sympy : Kind → SDict) (cmds : List (Cmd α)) :
    Inv sympy cmds (run shows join sympy cmds) := by
  induction cmds using List.reverseRecOn with
  | nil => exact Inv.start sympy
  | append_singleton cmds c ih =>
    have : Settings.run shows join sympy (cmds ++ [c])
        = Settings.step shows join (Settings.run shows join sympy cmds) c := by
      simp [Settings.run]
    rw [this]
    exact ih.step shows join c

end GA.Settings
