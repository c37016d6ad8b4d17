import Verif.Spec.Tensor
import Verif.Spec.Fermion
import Verif.Model.FermAdd

/-!
Specification of sums of fermionic tensors.
-/

namespace Verif
variable {Q K : Type} [DecidableEq Q]

/-- A stored block covers the position `x`. -/
def InStoredBlock (T : SpT Q K) (x : List (Q × Nat)) : Prop := ∃ b ∈ T, b.1 = x.map Prod.fst ∧ inBox b.2.shape (x.map Prod.snd) = true

/-- A fermionic tensor on `legs`: as many signs as legs, all blocks fit. -/
structure OnLegs (T : FermT Q K) (legs : List (BondInfo Q)) : Prop where
  on : Conforms legs T.blocks
  plen : T.pattern.length = legs.length

/-- `R` has the signs of `A`, lives on the same legs, has distinct labels, and its entries are `val`. -/
structure IsSum [Zero K] [Add K] (R A : FermT Q K) (legs : List (BondInfo Q)) (val : List (Q × Nat) → K) : Prop where
  pattern : R.pattern = A.pattern
  onLegs : OnLegs R legs
  unique : UniqueLabels R.blocks
  entries : ∀ x, entry R.blocks x = val x

/-- Dimension of leg `i`, counting only the labels of the bond `leg` that occur on this leg in a block. -/
def seenDim (T : SpT Q K) (leg : BondInfo Q) (i : Nat) : Nat :=
  ((List.filter (fun p : Q × Nat => decide (∃ b ∈ T, b.1[i]? = some p.1)) leg).map Prod.snd).sum

end Verif
