import Verif.Spec.MpeSweep

/-!
Specification of the local problem of a sweep: operator of two tensors, bra and ket of one tensor each.
-/

namespace Verif
section
variable {Q K : Type} [DecidableEq Q] [AddCommGroup Q] [CommRing K] [StarRing K]

/-- Component `(a, b)` of the operator of two tensors applied to the ket `T`, which has the column legs of both sites: sum over all column
configurations of matrix element times component of the ket.  `m` is the bond between the operator tensors. -/
def appliedOne (isF : Q → Bool) (d0 d1 : List (BondInfo Q)) (m : BondInfo Q) (ws : List (OpT Q K)) (T : SpT Q K) (a b : List (Q × Nat)) : K :=
  ((legIndices d0).map fun p => ((legIndices d1).map fun q =>
    opAmpl isF ws [m] false (0, 0) [a, b] [p, q] (0, 0) * entry T ((0, 0) :: (p ++ q) ++ [(0, 0)])).sum).sum

/-- `⟨bra| operator |ket⟩` for the bra `B` and the ket `T` of one tensor each. -/
def sandwichOne (isF : Q → Bool) (ph0 ph1 : List (BondInfo Q) × List (BondInfo Q)) (m : BondInfo Q) (B : SpT Q K) (ws : List (OpT Q K)) (T : SpT Q K) : K :=
  ((legIndices ph0.1).map fun a => ((legIndices ph1.1).map fun b =>
    star (entry B ((0, 0) :: (a ++ b) ++ [(0, 0)])) * appliedOne isF ph0.2 ph1.2 m ws T a b).sum).sum

/-- An operator of two tensors and a ket of one tensor that fit together: edges with the label 0, all physical legs of the ket in one tensor. -/
structure LocalOp (isF : Q → Bool) (ph0 ph1 : List (BondInfo Q) × List (BondInfo Q)) (m : BondInfo Q) (ws : List (OpT Q K)) (T : SpT Q K) : Prop where
  op : OpOnBonds isF [[(0, 1)], m, [(0, 1)]] [ph0, ph1] ws
  ket : Conforms ([(0, 1)] :: (ph0.2 ++ ph1.2) ++ [[(0, 1)]]) T
  ketEven : EvenBlocks isF T
  bond : GoodBond m
  legs : ∀ ph ∈ [ph0, ph1], ph.1 ≠ [] ∧ ph.1.length = ph.2.length ∧ ∀ c ∈ ph.1 ++ ph.2, GoodBond c

/-- The same with a bra of one tensor, which has the row legs of both sites. -/
structure LocalProblem (isF : Q → Bool) (ph0 ph1 : List (BondInfo Q) × List (BondInfo Q)) (m : BondInfo Q) (B : SpT Q K) (ws : List (OpT Q K)) (T : SpT Q K) : Prop
    extends LocalOp isF ph0 ph1 m ws T where
  bra : Conforms ([(0, 1)] :: (ph0.1 ++ ph1.1) ++ [[(0, 1)]]) B
  braEven : EvenBlocks isF B

end
end Verif
