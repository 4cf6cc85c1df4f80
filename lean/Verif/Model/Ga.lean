import Verif.Model.Expr
import Mathlib.Algebra.Group.Invertible.Defs

/-!
# Model of the products and helper functions of `Ga` (galgebra/ga.py)

The algebra is given by its dimension `n` and metric tensor `g` (`Ga.n`, `Ga.g`).
-/

namespace GA

variable {n : ℕ} {R : Type*} [CommRing R] [DecidableEq R]

/-! ## Symbols and dictionaries, ga.py:1048-1134 -/

/-- ga.py:1057-1086 `Ga.blades`. -/
def blades (n : ℕ) : List (List (Sym n)) := (indexes n).map fun gr => gr.map mkBlade

/-- ga.py:1101-1121 `Ga.bases`. -/
def bases (n : ℕ) : List (List (Sym n)) := (indexes n).map fun gr => gr.map mkBase

/-- ga.py:1088-1091 `Ga.indexes_to_blades_dict`. -/
def indexesToBlades (n : ℕ) : BiMap (List (Fin n)) (Sym n) :=
  BiMap.ofItems ((flat (indexes n)).zip (flat (blades n)))

/-- ga.py:1123-1126 `Ga.indexes_to_bases_dict`. -/
def indexesToBases (n : ℕ) : BiMap (List (Fin n)) (Sym n) :=
  BiMap.ofItems ((flat (indexes n)).zip (flat (bases n)))

/-- ga.py:1093-1099 `Ga.blades_to_grades_dict`. -/
def bladesToGrades (n : ℕ) : Dict (Sym n) ℕ :=
  Dict.ofItems ((blades n).zipIdx.flatMap fun p => p.1.map fun b => (b, p.2))

/-- ga.py:1128-1134 `Ga.bases_to_grades_dict`. -/
def basesToGrades (n : ℕ) : Dict (Sym n) ℕ :=
  Dict.ofItems ((bases n).zipIdx.flatMap fun p => p.1.map fun b => (b, p.2))

/-- A term that could not be computed because Python raised. -/
def errorE : Expr R n := [(1, .error)]

/-- `indexes_to_blades_dict[tuple(index)]`; a `KeyError` becomes `error`. -/
def lookupBlade (l : List (Fin n)) : Sym n := ((indexesToBlades n).fwd.get? l).getD .error

/-- `indexes_to_bases_dict[tuple(index)]`; a `KeyError` becomes `error`. -/
def lookupBase (l : List (Fin n)) : Sym n := ((indexesToBases n).fwd.get? l).getD .error

/-- metric.py:808-813 `is_ortho`: only the entries above the diagonal are tested. -/
def isOrtho (g : Matrix (Fin n) (Fin n) R) : Bool :=
  (List.finRange n).all fun i => (List.finRange n).all fun j =>
    !decide (i < j) || decide (g i j = 0)

/-! ## Products of basis blades -/

/-- ga.py:379-404 `_GeometricProductFunction.of_basis_blades`, orthogonal branch. -/
def gpBladesOrtho (g : Matrix (Fin n) (Fin n) R) (s₁ s₂ : Sym n) : Expr R n :=
  match (indexesToBlades n).inverse.get? s₁, (indexesToBlades n).inverse.get? s₂ with
  | some I, some J =>
    match gpOrtho g I J with
    | some (c, K) => if K.length > 0 then [(c, lookupBlade K)] else [(c, .blade [])]
    | none => errorE
  | _, _ => errorE

/-- ga.py:360-375 `_WedgeProductFunction.of_basis_blades`. -/
def wedgeBlades (s₁ s₂ : Sym n) : Expr R n :=
  match (indexesToBlades n).inverse.get? s₁, (indexesToBlades n).inverse.get? s₂ with
  | some I, some J =>
    match wedgeGrade n I.length J.length with
    | none => []
    | some _ =>
      match bladeReduce (I ++ J) with
      | (_, none) => []
      | (sgn, some w) => if sgn ≠ 0 then [((sgn : R), lookupBlade w)] else []
  | _, _ => errorE

/-- ga.py:244-288 `_SingleGradeProductFunction._of_basis_blades_ortho`. -/
def dotBladesOrtho (g : Matrix (Fin n) (Fin n) R) (resultGrade : ℕ → ℕ → Option ℕ)
    (s₁ s₂ : Sym n) : Expr R n :=
  match (indexesToBlades n).inverse.get? s₁, (indexesToBlades n).inverse.get? s₂ with
  | some I, some J =>
    match dotOrtho g resultGrade I J with
    | none => []
    | some (c, K) => if K = [] then [(c, .blade [])] else [(c, lookupBlade K)]
  | _, _ => errorE

/-! ## Base representation, ga.py:419-443 and ga.py:1497-1573 -/

/-- ga.py:420-429 `_BaseGeometricProductFunction.of_basis_bases`. -/
def ofBasisBases (g : Matrix (Fin n) (Fin n) R) (s₁ s₂ : Sym n) : Expr R n :=
  match (indexesToBases n).inverse.get? s₁, (indexesToBases n).inverse.get? s₂ with
  | some I, some J => (reduceBasis g (I ++ J)).map fun t => (t.1, lookupBase t.2)
  | _, _ => errorE

/-- ga.py:439-443 `_BaseGeometricProductFunction.__call__`: the noncommutative products
`s₁ * s₂` occurring in `expand(A * B)` are replaced by their entry in the multiplication table.
Simplifications: the substitution is done term by term instead of on collected like terms
(it is linear); products that are not in the table, which Python leaves as they are, are
`error`. -/
def basicMul (g : Matrix (Fin n) (Fin n) R) (A B : Expr R n) : Expr R n :=
  expand (A.flatMap fun t₁ => B.flatMap fun t₂ =>
    smulE (t₁.1 * t₂.1) (ofBasisBases g t₁.2 t₂.2))

section half
variable [Invertible (2 : R)]

/-- Body of the loop in ga.py:1503-1516. -/
def bladeExpansionStep (g : Matrix (Fin n) (Fin n) R) (d : Dict (Sym n) (Expr R n))
    (index : List (Fin n)) : Dict (Sym n) (Expr R n) :=
  let blade := mkBlade index
  let grade := index.length
  if grade ≤ 1 then d.set blade [(1, blade)]
  else
    let a := lookupBlade (index.take 1)
    let A := lookupBlade (index.drop 1)
    let Aexpand := (d.get? A).getD errorE
    let a_W_A := smulE (⅟2 : R) (subE (basicMul g [(1, a)] Aexpand)
      (smulE ((-1) ^ grade) (basicMul g Aexpand [(1, a)])))
    d.set blade (expand a_W_A)

/-- ga.py:1497-1521 `Ga.blade_expansion_dict`: basis blades in terms of bases. -/
def bladeExpansionDict (g : Matrix (Fin n) (Fin n) R) : Dict (Sym n) (Expr R n) :=
  (flat (indexes n)).foldl (bladeExpansionStep g) []

/-- Body of the loop in ga.py:1528-1536. -/
def baseExpansionStep (bx : Dict (Sym n) (Expr R n)) (d : Dict (Sym n) (Expr R n))
    (index : List (Fin n)) : Dict (Sym n) (Expr R n) :=
  let base := mkBase index
  let blade := mkBlade index
  if index.length ≤ 1 then d.set base [(1, base)]
  else
    let tmp := (bx.get? blade).getD errorE
    let tmp := subsE tmp [(base, [(-1, blade)])]
    let tmp := negE (subsE tmp d)
    d.set base (expand tmp)

/-- ga.py:1523-1541 `Ga.base_expansion_dict`: bases in terms of basis blades. -/
def baseExpansionDict (g : Matrix (Fin n) (Fin n) R) : Dict (Sym n) (Expr R n) :=
  (flat (indexes n)).foldl (baseExpansionStep (bladeExpansionDict g)) []

/-- ga.py:1559-1565 `Ga.base_to_blade_rep`. -/
def baseToBladeRep (g : Matrix (Fin n) (Fin n) R) (A : Expr R n) : Expr R n :=
  if isOrtho g then A else ncSubs (expand A) (baseExpansionDict g)

/-- ga.py:1567-1573 `Ga.blade_to_base_rep`. -/
def bladeToBaseRep (g : Matrix (Fin n) (Fin n) R) (A : Expr R n) : Expr R n :=
  if isOrtho g then A else ncSubs (expand A) (bladeExpansionDict g)

/-- ga.py:405-409 `_GeometricProductFunction.of_basis_blades`, non-orthogonal branch.  The
`is_ortho` tests inside the conversions (ga.py:1561, 1569) are false in this branch. -/
def gpBladesNonOrtho (g : Matrix (Fin n) (Fin n) R) (s₁ s₂ : Sym n) : Expr R n :=
  let base1 := ncSubs (expand [(1, s₁)]) (bladeExpansionDict g)
  let base2 := ncSubs (expand [(1, s₂)]) (bladeExpansionDict g)
  let base12 := basicMul g base1 base2
  ncSubs (expand base12) (baseExpansionDict g)

/-- ga.py:379-409 `_GeometricProductFunction.of_basis_blades`. -/
def gpBlades (g : Matrix (Fin n) (Fin n) R) (s₁ s₂ : Sym n) : Expr R n :=
  if isOrtho g then gpBladesOrtho g s₁ s₂ else gpBladesNonOrtho g s₁ s₂

/-- ga.py:1598-1601 `Ga.mul`: the geometric product of expressions. -/
def mul (g : Matrix (Fin n) (Fin n) R) (A B : Expr R n) : Expr R n :=
  updateAndSubstitute (gpBlades g) A B

end half

/-- ga.py:1603-1606 `Ga.wedge`. -/
def wedge (A B : Expr R n) : Expr R n := updateAndSubstitute wedgeBlades A B

/-! ## Grades, ga.py:1642-1830 -/

/-- `d[grade] += t` if the key is present, else `d[grade] = t`; ga.py:1661-1671. -/
def gradeAdd (d : Dict ℕ (Expr R n)) (r : ℕ) (t : Expr R n) : Dict ℕ (Expr R n) :=
  match d.get? r with
  | some E => d.set r (addE E t)
  | none => d.set r t

/-- ga.py:1642-1675 `Ga.grade_decomposition` on an expression.  `none`: `KeyError` because a
symbol is not a basis blade. -/
def gradeDecomposition (A : Expr R n) : Option (Dict ℕ (Expr R n)) :=
  (linearExpand A).foldlM (fun d t =>
    if t.2 = .blade [] then some (gradeAdd d 0 [t])
    else ((bladesToGrades n).get? t.2).map fun r => gradeAdd d r [t]) []

section half
variable [Invertible (2 : R)]

/-- ga.py:290-312 `_SingleGradeProductFunction._of_basis_blades_non_ortho`.  `Ga.mul` and
`Ga.base_to_blade_rep` are only reached here when `is_ortho` is false. -/
def dotBladesNonOrtho (g : Matrix (Fin n) (Fin n) R) (resultGrade : ℕ → ℕ → Option ℕ)
    (s₁ s₂ : Sym n) : Expr R n :=
  match (bladesToGrades n).get? s₁, (bladesToGrades n).get? s₂ with
  | some grade1, some grade2 =>
    match resultGrade grade1 grade2 with
    | none => []
    | some grade =>
      match (bladeExpansionDict g).get? s₁, (bladeExpansionDict g).get? s₂ with
      | some base1, some base2 =>
        let base12 := updateAndSubstitute (gpBladesNonOrtho g) base1 base2
        let blade12 := ncSubs (expand base12) (baseExpansionDict g)
        match gradeDecomposition blade12 with
        | some d => (d.get? grade).getD []
        | none => errorE
      | _, _ => errorE
  | _, _ => errorE

/-- ga.py:314-318 `_SingleGradeProductFunction.of_basis_blades`. -/
def dotBlades (g : Matrix (Fin n) (Fin n) R) (resultGrade : ℕ → ℕ → Option ℕ)
    (s₁ s₂ : Sym n) : Expr R n :=
  if isOrtho g then dotBladesOrtho g resultGrade s₁ s₂ else dotBladesNonOrtho g resultGrade s₁ s₂

/-- ga.py:1608-1611 `Ga.hestenes_dot`. -/
def hestenesDot (g : Matrix (Fin n) (Fin n) R) (A B : Expr R n) : Expr R n :=
  updateAndSubstitute (dotBlades g hestenesGrade) A B

/-- ga.py:1613-1616 `Ga.scalar_product`. -/
def scalarProduct (g : Matrix (Fin n) (Fin n) R) (A B : Expr R n) : Expr R n :=
  updateAndSubstitute (dotBlades g scalarGrade) A B

/-- ga.py:1618-1621 `Ga.left_contract`. -/
def leftContract (g : Matrix (Fin n) (Fin n) R) (A B : Expr R n) : Expr R n :=
  updateAndSubstitute (dotBlades g leftGrade) A B

/-- ga.py:1623-1626 `Ga.right_contract`. -/
def rightContract (g : Matrix (Fin n) (Fin n) R) (A B : Expr R n) : Expr R n :=
  updateAndSubstitute (dotBlades g rightGrade) A B

end half

/-- ga.py:1801-1807 `Ga.get_grade`. A `KeyError` becomes an `error` term. -/
def getGrade (A : Expr R n) (r : ℕ) : Expr R n :=
  (linearExpand A).flatMap fun t =>
    match (bladesToGrades n).get? t.2 with
    | some r' => if r' = r then [t] else []
    | none => errorE

/-- ga.py:1809-1830 `Ga.even_odd`.  On a commutative (scalar) expression with `even = True` the
early return gives the same expression. -/
def evenOdd (A : Expr R n) (even : Bool) : Expr R n :=
  (expand A).flatMap fun t =>
    if t.2 = .blade [] then (if even then [t] else [])
    else
      match (bladesToGrades n).get? t.2 with
      | some r =>
        if even && decide (r % 2 = 0) then [t]
        else if !even && decide (r % 2 = 1) then [t] else []
      | none => errorE

/-- ga.py:1779-1792: the terms of `A` grouped by grade. -/
def reverseGroups (A : Expr R n) : Option (Dict ℕ (Expr R n)) :=
  (expand A).foldlM (fun d t =>
    if t.2 = .blade [] then some (gradeAdd d 0 [t])
    else ((bladesToGrades n).get? t.2).map fun r => gradeAdd d r [t]) []

/-- ga.py:1769-1799 `Ga.reverse`.  Python divides with `/`, which is exact here because
`grade * (grade - 1)` is even; for grade 0 the product is 0. -/
def reverse (A : Expr R n) : Expr R n :=
  match reverseGroups A with
  | some d => d.flatMap fun p => if p.1 * (p.1 - 1) / 2 % 2 = 0 then p.2 else negE p.2
  | none => errorE

/-- ga.py:1722-1739 `Ga.scalar_part`: the sum of the commutative terms. -/
def scalarPart (A : Expr R n) : R :=
  (((expand A).filter fun t => decide (t.2 = .blade [])).map Prod.fst).sum

/-- ga.py:1677-1699 `Ga.split_multivector`. -/
def splitMultivector (A : Expr R n) : R × Expr R n :=
  (scalarPart A, (expand A).filter fun t => decide (t.2 ≠ .blade []))

/-- Insertion into a sorted duplicate free list: `sorted({...})` of ga.py:1764. -/
def sortedInsert (r : ℕ) : List ℕ → List ℕ
  | [] => [r]
  | s :: l => if r < s then r :: s :: l else if r = s then s :: l else s :: sortedInsert r l

/-- ga.py:1751-1767: the part of `Ga.grades` after `base_to_blade_rep`; `none` is `KeyError`. -/
def gradesOf (A : Expr R n) : Option (List ℕ) :=
  match expand A with
  | [] => some [0]
  | E => (E.mapM fun t => (bladesToGrades n).get? t.2).map fun rs =>
      rs.foldr sortedInsert []

/-- ga.py:1749-1767 `Ga.grades`. -/
def grades [Invertible (2 : R)] (g : Matrix (Fin n) (Fin n) R) (A : Expr R n) :
    Option (List ℕ) := gradesOf (baseToBladeRep g A)

end GA
