import Verif.Props.C20Center

/-!
# C18: what `dual()` returns in each of the eight modes

The table is the one in the documentation of `Ga.dual_mode`.
-/

set_option linter.unusedSectionVars false
set_option maxRecDepth 10000

namespace GA
variable {n : ℕ} {K : Type*} [Field K] [DecidableEq K] [Invertible (2 : K)] {g : Matrix (Fin n) (Fin n) K}

/-- C18: the documented values of `dual()`. -/
theorem C18_table (hs : g.IsSymm) {A i iInv : Mv K n} (hA : A.WF g) (hA' : A.isBladeRep = true)
    (hi : i.WF g) (hi' : i.isBladeRep = true) (hj : iInv.WF g) (hj' : iInv.isBladeRep = true) :
    (A.dual g i iInv "+I").eq g (i.mul g A) = true ∧
    (A.dual g i iInv "-I").eq g (i.mul g A).neg = true ∧
    (A.dual g i iInv "I+").eq g (A.mul g i) = true ∧
    (A.dual g i iInv "I-").eq g (A.mul g i).neg = true ∧
    (A.dual g i iInv "+Iinv").eq g (iInv.mul g A) = true ∧
    (A.dual g i iInv "-Iinv").eq g (iInv.mul g A).neg = true ∧
    (A.dual g i iInv "Iinv+").eq g (A.mul g iInv) = true ∧
    (A.dual g i iInv "Iinv-").eq g (A.mul g iInv).neg = true := by
  have rA := Rep.of_wf hA hA'
  have ri := Rep.of_wf hi hi'
  have rj := Rep.of_wf hj hj'
  have key1 : ∀ {B C : Mv K n}, B.WF g → B.isBladeRep = true → C.WF g → C.isBladeRep = true →
      ((B.smul 1).mul g C).eq g (B.mul g C) = true := fun hB hB' hC hC' => by
    have rB := Rep.of_wf hB hB'
    have rC := Rep.of_wf hC hC'
    rw [(Rep.mul hs (rB.smul 1) rC).eq_iff hs (Rep.mul hs rB rC), one_smul]
  have key2 : ∀ {B C : Mv K n}, B.WF g → B.isBladeRep = true → C.WF g → C.isBladeRep = true →
      ((B.smul (-1)).mul g C).eq g (B.mul g C).neg = true := fun hB hB' hC hC' => by
    have rB := Rep.of_wf hB hB'
    have rC := Rep.of_wf hC hC'
    rw [(Rep.mul hs (rB.smul (-1)) rC).eq_iff hs (Rep.mul hs rB rC).neg, neg_one_smul, neg_mul]
  exact ⟨key1 hi hi' hA hA', key2 hi hi' hA hA', key1 hA hA' hi hi', key2 hA hA' hi hi',
    key1 hj hj' hA hA', key2 hj hj' hA hA', key1 hA hA' hj hj', key2 hA hA' hj hj'⟩

/-- C18: in odd dimensions it does not matter on which side the pseudoscalar stands; in even dimensions the two duals
differ by `g_invol()`. -/
theorem C18_sides (hs : g.IsSymm) {sqrt : K → K} {plus : Bool} {i iInv : Mv K n}
    (hI : normI g sqrt plus = some (i, iInv))
    (hsq : sqrt (if plus then eSq g else -eSq g) * sqrt (if plus then eSq g else -eSq g) =
      if plus then eSq g else -eSq g)
    {A : Mv K n} (hA : A.WF g) (hA' : A.isBladeRep = true) {l r : String}
    (hm : (l, r) ∈ [("+I", "I+"), ("-I", "I-"), ("+Iinv", "Iinv+"), ("-Iinv", "Iinv-")]) :
    (n % 2 = 1 → (A.dual g i iInv l).eq g (A.dual g i iInv r) = true) ∧
    (n % 2 = 0 → (A.dual g i iInv l).eq g ((A.gInvol g).dual g i iInv r) = true) := by
  obtain ⟨c, h1, h2, -⟩ := normI_spec hs hI hsq
  have rA := Rep.of_wf hA hA'
  have rG := Rep.gInvol hs rA
  have key : ∀ (s k : K) {J : Mv K n}, Rep g J (k • Spec.pseudo g) →
      (n % 2 = 1 → ((J.smul s).mul g A).eq g ((A.smul s).mul g J) = true) ∧
      (n % 2 = 0 → ((J.smul s).mul g A).eq g (((A.gInvol g).smul s).mul g J) = true) := fun s k J hJ => by
    constructor <;> intro hn
    · rw [(Rep.mul hs (hJ.smul s) rA).eq_iff hs (Rep.mul hs (rA.smul s) hJ), smul_mul_assoc, smul_mul_assoc,
        smul_mul_assoc, mul_smul_comm, Spec.pseudo_comm, if_pos hn]
    · rw [(Rep.mul hs (hJ.smul s) rA).eq_iff hs (Rep.mul hs (rG.smul s) hJ), smul_mul_assoc, smul_mul_assoc,
        smul_mul_assoc, mul_smul_comm, Spec.pseudo_comm, if_neg (by omega)]
  simp only [List.mem_cons, Prod.mk.injEq, List.not_mem_nil, or_false] at hm
  rcases hm with ⟨rfl, rfl⟩ | ⟨rfl, rfl⟩ | ⟨rfl, rfl⟩ | ⟨rfl, rfl⟩
  · exact key 1 _ h1
  · exact key (-1) _ h1
  · exact key 1 _ h2
  · exact key (-1) _ h2

/-- The hypotheses of `C18_table` and `C18_sides` hold in an algebra whose basis is not orthogonal, and the sign of the
mode matters. -/
example : (Ex.B.dual Ex.gN (Mv.ofExpr [(1/3, .blade [0, 1, 2])]) (Mv.ofExpr [(1/3, .blade [0, 1, 2])]) "+I").eq Ex.gN
      (Ex.B.dual Ex.gN (Mv.ofExpr [(1/3, .blade [0, 1, 2])]) (Mv.ofExpr [(1/3, .blade [0, 1, 2])]) "I+") = true ∧
    (Ex.B.dual Ex.gN (Mv.ofExpr [(1/3, .blade [0, 1, 2])]) (Mv.ofExpr [(1/3, .blade [0, 1, 2])]) "+I").eq Ex.gN
      (Ex.B.dual Ex.gN (Mv.ofExpr [(1/3, .blade [0, 1, 2])]) (Mv.ofExpr [(1/3, .blade [0, 1, 2])]) "-I") = false :=
  ⟨(C18_sides Ex.gN_symm Ex.normI_gN Ex.sqrt9_ok (Ex.B_wf _) Ex.B_blade (by simp)).1 rfl, by decide +kernel⟩

end GA
