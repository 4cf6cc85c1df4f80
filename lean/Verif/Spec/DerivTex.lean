import Verif.Spec.TexFormula
import Verif.Model.DopText

/-!
# Derivatives in a formula
-/

namespace GA.Tex

/-- The sign of a derivative, with its order as superscript if this is not one. -/
def partialSign (k : ℕ) : Node :=
  if k = 1 then .tok "\\partial".toList
  else .script (.tok "\\partial".toList) (some (.group (chars (Nat.toDigits 10 k)))) none

/-- The sign of a derivative by what the parts `x` show, written below the sign. -/
def partialBelow (k : ℕ) (x : List Node) : Node :=
  .script (.tok "\\partial".toList) (if k = 1 then none else some (.group (chars (Nat.toDigits 10 k))))
    (some (.group x))

/-- The part `N` with the superscript `k`, if `k` is not one. -/
def raised (k : ℕ) : Node → Node
  | .script b none d => if k = 1 then .script b none d else .script b (some (.group (chars (Nat.toDigits 10 k)))) d
  | N => if k = 1 then N else .script N (some (.group (chars (Nat.toDigits 10 k)))) none

/-- The part has no superscript. -/
def Node.free : Node → Bool
  | .script _ (some _) _ => false
  | _ => true

/-- The elements of a list, equal neighbours together, with how many they are. -/
def neighbours {V : Type*} [DecidableEq V] (l : List V) : List (V × ℕ) :=
  (l.splitBy (· == ·)).filterMap fun run => run.head?.map fun x => (x, run.length)

/-- The operand of a derivative: in parentheses, or as it is. -/
def operand (parens : Bool) (b : List Node) : List Node :=
  if parens then [.paren (.tok ['('] :: b) [')']] else b

section
variable {V : Type*} [LinearOrder V] {R : Type*} [CommRing R] [DecidableEq R] {B : Type*}

/-- What TeX should read for a partial derivative operator: nothing for the identity, otherwise a fraction with the sign
and the order above and the variables in their order below, with how often they occur. -/
def pdopNodes (N : V → Node) (p : Pdop V) : List Node :=
  if p.order = 0 then []
  else [.frac (.group [partialSign p.order]) (.group ((p.insertionSort fun e f => e.1 ≤ f.1).flatMap fun e =>
    [.tok "\\partial".toList, raised e.2 (N e.1)]))]

/-- What TeX should read for a term of an operator: the coefficient, in parentheses if it is a sum, and then the
derivative; a coefficient one is not shown before a derivative, and minus one is shown as a minus sign. -/
def termNodes (P : Printer V R B) (N : V → Node) (C : R → List Node) (t : R × Pdop V) : List Node :=
  if t.1 = 1 then if t.2.order = 0 then [.tok ['1']] else pdopNodes N t.2
  else if t.1 = -1 then .tok ['-'] :: if t.2.order = 0 then [.tok ['1']] else pdopNodes N t.2
  else if P.isAdd t.1 then .paren (.tok ['('] :: C t.1) [')'] :: pdopNodes N t.2
  else C t.1 ++ pdopNodes N t.2

/-- The formula begins with a minus sign. -/
def startsMinus : List Node → Bool
  | .tok ['-'] :: _ => true
  | _ => false

/-- A sum as TeX should read it: a plus sign before every further term, but not before one that begins with a minus
sign. -/
def sumNodes : List (List Node) → List Node
  | [] => []
  | l :: ls => l ++ ls.flatMap fun m => if startsMinus m then m else .tok ['+'] :: m

end

end GA.Tex
