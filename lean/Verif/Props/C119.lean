import Verif.Model.GaNames

/-!
# C119: `Ga.preset`, `Ga.grad_sqr`, `Mv.Grad` and `Simp.applymv`
-/

set_option maxRecDepth 10000

namespace GA

/-- C119: a name that is not in `Ga.presets` raises `ValueError`, whatever names the module has. -/
theorem C119_unknown (N : Names) {setting : List Char} (h : ∀ entry, (setting, entry) ∉ presets) :
    preset N setting = .error .valueError := by
  have : presets.lookup setting = none := by
    rw [List.lookup_eq_none_iff]
    rintro ⟨k, e⟩ hp
    rw [bne_iff_ne]
    rintro rfl
    exact h e hp
  rw [preset, this]

/-- C119 is false of the code: `Ga.preset` returns for no argument at all; and the exceptions it raises for the four names in
`Ga.presets`. -/
theorem C119_preset_counterexample :
    (∀ setting, ∃ e, preset gaNames setting = .error e) ∧
    preset gaNames "o3d".toList = .error (.attributeError "set_simp".toList) ∧
    preset gaNames "cyl3d".toList = .error (.nameError "r".toList) ∧
    preset gaNames "sph3d".toList = .error (.nameError "cos".toList) ∧
    preset gaNames "para3d".toList = .error (.nameError "u".toList) := by
  have h1 : preset gaNames "o3d".toList = .error (.attributeError "set_simp".toList) := by decide +kernel
  have h2 : preset gaNames "cyl3d".toList = .error (.nameError "r".toList) := by decide +kernel
  have h3 : preset gaNames "sph3d".toList = .error (.nameError "cos".toList) := by decide +kernel
  have h4 : preset gaNames "para3d".toList = .error (.nameError "u".toList) := by decide +kernel
  refine ⟨fun setting => ?_, h1, h2, h3, h4⟩
  by_cases h : ∀ entry, (setting, entry) ∉ presets
  · exact ⟨_, C119_unknown gaNames h⟩
  · push Not at h
    obtain ⟨entry, h⟩ := h
    simp only [presets, List.mem_cons, Prod.mk.injEq, List.not_mem_nil, or_false] at h
    rcases h with ⟨rfl, -⟩ | ⟨rfl, -⟩ | ⟨rfl, -⟩ | ⟨rfl, -⟩
    · exact ⟨_, h1⟩
    · exact ⟨_, h2⟩
    · exact ⟨_, h3⟩
    · exact ⟨_, h4⟩

/-- C119: which names would have to exist for `Ga.preset` to return: a method `set_simp`, the keyword `I`, and for three of
the four names the functions and coordinates of the metric. -/
theorem C119_needs (N : Names) {setting : List Char} {r : List (List Char) × List (List Char)}
    (h : preset N setting = .ok r) : "set_simp".toList ∈ N.attrs ∧ "I".toList ∈ N.keywords ∧
      ∃ entry, (setting, entry) ∈ presets ∧ r.1 = splitOn ',' ((splitOn ':' entry).getD 0 []) := by
  rw [preset] at h
  split at h
  · cases h
  · rename_i entry he
    have hmem : (setting, entry) ∈ presets := by
      obtain ⟨l₁, l₂, h1, -⟩ := List.lookup_eq_some_iff.mp he
      rw [h1]
      simp
    have fin : ∀ more : List (List Char),
        (if !N.attrs.contains "set_simp".toList then .error (.attributeError "set_simp".toList)
          else match ((["g", "coords", "debug", "I", "gsym"].map String.toList) ++ more).find? fun w =>
              !N.keywords.contains w with
            | some w => .error (.typeError w)
            | none => .ok (splitOn ',' ((splitOn ':' entry).getD 0 []),
                (["g", "coords", "debug", "I", "gsym"].map String.toList) ++ more) : Except LookupErr _) = .ok r →
        "set_simp".toList ∈ N.attrs ∧ "I".toList ∈ N.keywords ∧
          ∃ entry, (setting, entry) ∈ presets ∧ r.1 = splitOn ',' ((splitOn ':' entry).getD 0 []) := by
      intro more h
      split at h
      · cases h
      · rename_i ha
        split at h
        · cases h
        · rename_i hk
          refine ⟨by simpa using ha, ?_, entry, hmem, ?_⟩
          · rw [List.find?_eq_none] at hk
            have := hk "I".toList (List.mem_append_left _ (by simp only [List.map_cons, List.mem_cons, true_or, or_true]))
            simpa using this
          · rw [← Except.ok.inj h]
    simp only [bind, Except.bind] at h
    split at h
    · cases h
    · split at h
      · cases h
      · split at h
        · split at h
          · cases h
          · exact fin _ h
        · exact fin _ h

/-- C119 is false of the code: `Ga.grad_sqr`, `Mv.Grad` and `Simp.applymv` return for no argument. -/
theorem C119_grad_sqr_counterexample {α : Type*} (rest : Except LookupErr α) :
    gradSqr gaNames rest = .error (.attributeError "DopFop".toList) ∧
    mvGrad gaNames rest = .error (.attributeError "Diff".toList) ∧
    applymv ((metricGlobals ++ builtinNames).map String.toList) rest = .error (.nameError "Mv".toList) := by
  have h1 : gaNames.attrs.contains "DopFop".toList = false := by decide +kernel
  have h2 : ((metricGlobals ++ builtinNames).map String.toList).contains "Mv".toList = false := by decide +kernel
  have h3 : gaNames.attrs.contains "Diff".toList = false := by decide +kernel
  rw [gradSqr, applymv, mvGrad, h1, h2, h3]
  exact ⟨rfl, rfl, rfl⟩

/-- With the missing names, the model of `Ga.preset` returns; so it does not fail for other reasons. -/
example : preset ⟨"set_simp".toList :: gaNames.attrs, ["r", "cos", "u", "v"].map String.toList ++ gaNames.globals,
    "I".toList :: gaNames.keywords⟩ "sph3d".toList =
      .ok (["r", "theta", "phi"].map String.toList, ["g", "coords", "debug", "I", "gsym", "norm"].map String.toList) := by
  decide +kernel

/-- The identifiers of an expression. -/
example : identifiers "[1,X[0]**2,X[0]**2*cos(X[1])**2]".toList = ["X", "X", "cos", "X"].map String.toList := by
  decide +kernel

end GA
