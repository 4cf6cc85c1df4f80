import Verif.Model.DopText
import Verif.Spec.Dop

/-!
# How the text forms of differential operators are read
-/

namespace GA

/-- In the text every `+` is followed by at least two characters, which are not a blank and a minus sign. -/
def Plain (s : List Char) : Prop :=
  ∀ u v, s = u ++ '+' :: v → ∃ a b w, v = a :: b :: w ∧ ¬ (a = ' ' ∧ b = '-')

/-- A further term of a sum: with a plus sign, or with a minus sign if it begins with one. -/
def further (minus : List Char) : List Char → List Char
  | '-' :: u => ' ' :: minus ++ u
  | t => ' ' :: '+' :: ' ' :: t

/-- The text of a sum of terms. -/
def sumText (minus : List Char) : List (List Char) → List Char
  | [] => []
  | t :: ts => t ++ ts.flatMap (further minus)

section
variable {V R B : Type*} [CommRing R] (P : Printer V R B)

/-- `D{x}^2{y}`: the derivatives in the order of the list. -/
def derivText (l : List (V × ℕ)) : List Char :=
  'D' :: l.flatMap fun x => '{' :: P.sym x.1 ++ '}' :: if 1 < x.2 then '^' :: Nat.toDigits 10 x.2 else []

/-- The text says the term `c ∂`, where `pd` is the text of `∂` and `times` is put between coefficients and
derivatives, `open` and `close` around sums. -/
inductive SaysTerm (times opn cls pd : List Char) (p : Pdop V) : List Char → R × Pdop V → Prop
  | unit : SaysTerm times opn cls pd p pd (1, p)
  | neg : SaysTerm times opn cls pd p ('-' :: pd) (-1, p)
  | coef (c : R) : P.isAdd c = false → SaysTerm times opn cls pd p (P.coef c ++ times ++ pd) (c, p)
  | sum (c : R) : P.isAdd c = true → SaysTerm times opn cls pd p (opn ++ P.coef c ++ cls ++ pd) (c, p)

/-- The text says the product of a basis blade with text `b` and a scalar operator with text `sd`, which has
one term or `many`; with the complement flag the blade is on the right. -/
inductive SaysProduct (times opn cls b : List Char) : Bool → Bool → List Char → List Char → Prop
  | sum (sd : List Char) : SaysProduct times opn cls b false true (b ++ opn ++ sd ++ cls) sd
  | one (sd : List Char) : SaysProduct times opn cls b false false (b ++ times ++ sd) sd
  | minus (u : List Char) : SaysProduct times opn cls b false false ('-' :: b ++ times ++ u) ('-' :: u)
  | sumRight (sd : List Char) : SaysProduct times opn cls b true true (opn ++ sd ++ cls ++ b) sd
  | oneRight (sd : List Char) : SaysProduct times opn cls b true false (sd ++ times ++ b) sd

end

end GA
