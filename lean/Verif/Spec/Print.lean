import Verif.Model.Expr

/-!
# How the text form of a multivector is read
-/

namespace GA
variable {n : ℕ} {R : Type*} [CommRing R]

/-- The text without its blanks. -/
def noSpace (s : List Char) : List Char := s.filter fun ch => ch ≠ ' '

/-- The basis vectors of a symbol. -/
def symIndex : Sym n → List (Fin n)
  | .blade l => l
  | .base l => l
  | .error => []

/-- One index list comes before another: by grade, then by the dictionary order. -/
def Before (l m : List (Fin n)) : Prop := l.length < m.length ∨ (l.length = m.length ∧ l < m)

/-- Where a text has line breaks: in format 3 between any two terms, in format 2 between two terms of
different grade, otherwise nowhere. -/
def breaks (fmt : ℕ) (b b' : Sym n) : List Char :=
  if fmt = 3 ∨ (fmt = 2 ∧ (symIndex b).length ≠ (symIndex b').length) then ['\n'] else []

/-- A text, without its blanks, that says the sum of the terms `T`: the terms in order, with a sign
between them, and with the line breaks of the format. -/
inductive ReadsAs (fmt : ℕ) (shows : R → Sym n → List Char) : List Char → Expr R n → Prop
  | one (c : R) (b : Sym n) : ReadsAs fmt shows (noSpace (shows c b)) [(c, b)]
  | plus {s : List Char} {T : Expr R n} {c : R} {b : Sym n} (d : R) (b' : Sym n) :
      ReadsAs fmt shows s (T ++ [(c, b)]) →
      ReadsAs fmt shows (s ++ breaks fmt b b' ++ '+' :: noSpace (shows d b')) (T ++ [(c, b), (d, b')])
  | minus {s : List Char} {T : Expr R n} {c : R} {b : Sym n} (d : R) (b' : Sym n) :
      ReadsAs fmt shows s (T ++ [(c, b)]) →
      ReadsAs fmt shows (s ++ breaks fmt b b' ++ '-' :: noSpace (shows d b')) (T ++ [(c, b), (-d, b')])

end GA
