import Verif.Model.Mv

/-!
# Specification: the same calculation with other basis vectors

Given vectors `F[0], ..., F[m-1]` of an algebra, a user can make a new algebra that has these vectors as
basis: its metric tensor are the inner products of the vectors.  A multivector of the new algebra is
written in the old one by replacing every basis vector by the vector it stands for.  Everything here is
made of operations of the library.
-/

namespace GA
variable {n m : ℕ} {R : Type*} [CommRing R] [DecidableEq R] [Invertible (2 : R)]

/-- The metric tensor of the new algebra: `g[i][j] = (F[i] | F[j]).scalar()`. -/
def gram (g : Matrix (Fin n) (Fin n) R) (F : Fin m → Mv R n) : Matrix (Fin m) (Fin m) R :=
  Matrix.of fun i j => ((F i).dot g (F j)).scalar

/-- A basis blade of the new algebra in the old one: `F[i1] ^ F[i2] ^ ...`. -/
def frameBlade (g : Matrix (Fin n) (Fin n) R) (F : Fin m → Mv R n) (l : List (Fin m)) : Mv R n :=
  l.foldl (fun X i => X.wedge g (F i)) (Mv.scalarMv 1)

/-- A multivector of the new algebra in the old one: the sum of `coefficient * blade` over its terms. -/
def Mv.rewriteIn (g : Matrix (Fin n) (Fin n) R) (F : Fin m → Mv R n) (A : Mv R m) : Mv R n :=
  A.obj.foldl (fun X t => X.add g ((match t.2 with
    | .blade l => frameBlade g F l
    | _ => Mv.ofExpr errorE).smul t.1)) Mv.zero

end GA
