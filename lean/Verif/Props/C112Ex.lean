import Verif.Props.C112Fun

/-!
# C112: examples and counterexamples
-/

set_option maxRecDepth 10000

namespace GA
open Tex

/-- The texts of whole numbers that are not negative; the number is not used otherwise in the examples. -/
def Ex.ratTex (r : ℚ) : List Char := strNat r.num.natAbs

theorem Ex.ratTex_reads (r : ℚ) : ReadsAs (Ex.ratTex r) (chars (strNat r.num.natAbs)) := readsAs_strNat _

theorem Ex.readsAs_letter {c : Char} (h : Ordinary c) : ReadsAs [c] [.tok [c]] :=
  readsAs_chars (s := [c]) fun d hd => by
    rw [List.mem_singleton] at hd
    exact hd ▸ h

/-- The hypotheses of `C112_power_partial` are met by the symbol `x`, for all exponents. -/
example (S : TexSettings) (r : ℚ) : ∃ l, Tex.read (printPow S Ex.ratTex none ⟨['x'], false, false⟩ (.rat r)) = some l ∧
    ReadsAs (printPow S Ex.ratTex none ⟨['x'], false, false⟩ (.rat r)) l ∧
    ShowsPower (fun r => chars (strNat r.num.natAbs)) [.tok ['x']] r l :=
  C112_power_partial Ex.ratTex_reads (B := ⟨['x'], false, false⟩) (Ex.readsAs_letter (by unfold Ordinary; decide))
    (.inr (.inr (.inr ⟨_, rfl, rfl⟩))) (fun _ => .inr ⟨_, rfl, rfl⟩) (by simp) r

/-- `\sqrt[3]{x}`. -/
example : printPow {} Ex.ratTex none ⟨['x'], false, false⟩ (.rat (1 / 3)) = "\\sqrt[3]{x}".toList := by decide +kernel

/-- `1/f(x)**2`. -/
example : printPow {} Ex.ratTex none ⟨"f(x)".toList, true, false⟩ (.rat (-2)) = "\\frac{1}{{f(x)}^{2}}".toList := by
  decide +kernel

/-- `1/f(x)`. -/
example : printPow {} Ex.ratTex none ⟨"f(x)".toList, true, false⟩ (.rat (-1)) = "\\frac{1}{f(x)}".toList := by
  decide +kernel

/-- `1/x`, from the text of `-1/x`. -/
example : printPow {} Ex.ratTex (some "- \\frac{1}{x}".toList) ⟨['x'], false, false⟩ (.rat (-1)) =
    "\\frac{1}{x}".toList := by decide +kernel

/-- `x_1**2`. -/
example : printPow {} Ex.ratTex none ⟨"x_{1}".toList, false, false⟩ (.rat 2) =
    "{\\left ( x_{1} \\right )}^{2}".toList := by decide +kernel

/-- C112 is false of the code for the square of a symbol with a name of two letters: TeX sets the exponent on the last
letter, and the text is that of `x*y**2` without its blank. -/
theorem C112_name_counterexample :
    Tex.read (printPow {} Ex.ratTex none ⟨"xy".toList, false, false⟩ (.rat 2)) =
      some [.tok ['x'], .script (.tok ['y']) (some (.group [.tok ['2']])) none] := by
  have e : printPow {} Ex.ratTex none ⟨"xy".toList, false, false⟩ (.rat 2) = "xy^{2}".toList := by decide +kernel
  rw [e]
  rfl

/-- C112 is false of the code for a base with an exponent and `cdot` in its text: TeX refuses the double superscript. -/
theorem C112_cdot_counterexample :
    (Tex.read "x^{cdot}".toList).isSome = true ∧
    Tex.read (printPow {} Ex.ratTex none ⟨"x^{cdot}".toList, false, false⟩ (.rat 2)) = none := by
  have e : printPow {} Ex.ratTex none ⟨"x^{cdot}".toList, false, false⟩ (.rat 2) = "x^{cdot}^{2}".toList := by
    decide +kernel
  rw [e]
  exact ⟨rfl, rfl⟩

/-- C112 is false of the code with the setting `fold_frac_powers` for the power of a sum: it has no brackets, and the
exponent stands on the last term. -/
theorem C112_fold_counterexample :
    Tex.read (printPow { foldFracPowers := true } Ex.ratTex none ⟨"x + y".toList, false, true⟩ (.rat (3 / 2))) =
      some [.tok ['x'], .tok ['+'], .script (.tok ['y']) (some (.group (chars "3/2".toList))) none] := by
  have e : printPow { foldFracPowers := true } Ex.ratTex none ⟨"x + y".toList, false, true⟩ (.rat (3 / 2)) =
      "x + y^{3/2}".toList := by decide +kernel
  rw [e]
  rfl

/-- Names with a command of their own (some of SymPy's list). -/
def Ex.accepted : List (List Char) := ["sin", "cos", "arcsin", "frac"].map String.toList

/-- The hypotheses of `C112_function_partial` are met by `f(x, y)`. -/
example : ∃ t, printFunction {} Ex.accepted id "f".toList ["x".toList, "y".toList] false none = some t ∧
    Tex.read t = some ([.tok ['f']] ++ [callNode [[.tok ['x']], [.tok ['y']]]]) ∧
    ReadsAs t ([.tok ['f']] ++ [callNode [[.tok ['x']], [.tok ['y']]]]) := by
  refine C112_function_partial (.inl (by decide)) (.inr ⟨by decide, ?_, by decide⟩) (.cons ?_ (.cons ?_ .nil)) (.inr rfl)
    (.inl rfl)
  all_goals exact Ex.readsAs_letter (by unfold Ordinary; decide)

/-- and by `sin(x)`. -/
example : ∃ t, printFunction {} Ex.accepted id "sin".toList ["x".toList] false none = some t ∧
    Tex.read t = some ([.tok "\\sin".toList] ++ [callNode [[.tok ['x']]]]) ∧
    ReadsAs t ([.tok "\\sin".toList] ++ [callNode [[.tok ['x']]]]) := by
  refine C112_function_partial (.inl (by decide)) (.inl ⟨by decide, ⟨by decide, by decide, by decide⟩, rfl⟩)
    (.cons ?_ .nil) (.inr rfl) (.inl rfl)
  exact Ex.readsAs_letter (by unfold Ordinary; decide)

example : printFunction {} Ex.accepted id "f".toList ["x".toList, "y".toList] false none =
    some "f {\\left (x,y \\right )}".toList := by decide +kernel

example : printFunction { invTrigStyle := "power".toList } Ex.accepted id "asin".toList ["x".toList] false (some "2".toList) =
    some "\\sin^{-1}{\\left (x \\right )}^{2}".toList := by decide +kernel

example : printFunction { foldFuncBrackets := true } Ex.accepted id "sin".toList ["x".toList] false none =
    some "\\sin {x}".toList := by decide +kernel

/-- C112 is false of the code for a function with a percent sign in its name: printing raises an exception. -/
theorem C112_percent_counterexample (a : List Char) :
    printFunction {} Ex.accepted id "a%".toList [a] false none = none := by
  rfl

/-- C112 is false of the code for a function named `frac`: the command takes two arguments and the text has one. -/
theorem C112_frac_counterexample :
    ∃ t, printFunction {} Ex.accepted id "frac".toList ["x".toList] false none = some t ∧ Tex.read t = none := by
  have e : printFunction {} Ex.accepted id "frac".toList ["x".toList] false none =
    some "\\frac{\\left (x \\right )}".toList := by decide +kernel
  refine ⟨_, e, ?_⟩
  rfl

end GA
