import Verif.Spec.Mps

/-!
Specification of the bond dimension of a matrix product state.
-/

namespace Verif
section
variable {Q K : Type} [DecidableEq Q]

/-- A site next to bond number `j` (0 is the left edge) has a block with the label `q` on that bond. -/
def UsedOn [Zero Q] (phys : List (List (BondInfo Q))) (ts : List (SpT Q K)) : Nat → Q → Prop
  | 0, q => OccursOn (ts.getD 0 []) 0 q
  | j + 1, q => OccursOn (ts.getD j []) ((phys.getD j []).length + 1) q ∨ OccursOn (ts.getD (j + 1) []) 0 q

open Classical in
/-- The basis vectors of bond number `j` whose label is used. -/
noncomputable def usedStates [Zero Q] (bonds : List (BondInfo Q)) (phys : List (List (BondInfo Q))) (ts : List (SpT Q K)) (j : Nat) : List (Q × Nat) :=
  (legBasis (bonds.getD j [])).filter fun z => decide (UsedOn phys ts j z.1)

/-- Across the cut behind the first `k` sites the function of `n` sites is a sum of at most `d` products. -/
def RankAtMost [Zero K] [Add K] [Mul K] (n k d : Nat) (f : List (List (Q × Nat)) → K) : Prop :=
  ∃ terms : List ((List (List (Q × Nat)) → K) × (List (List (Q × Nat)) → K)), terms.length ≤ d ∧
    ∀ ps, ps.length = n → f ps = (terms.map fun t => t.1 (ps.take k) * t.2 (ps.drop k)).sum

end
end Verif
