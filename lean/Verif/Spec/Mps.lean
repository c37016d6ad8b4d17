import Verif.Spec.Tensor
import Verif.Model.Mps

/-!
Specification of matrix product states: which numbers a chain of site tensors stands for.
-/

namespace Verif
section
variable {Q K : Type} [DecidableEq Q]

/-- The amplitude of a chain of site tensors.  `inner` are the bonds between the sites, `x` and `y` are the basis vectors on the two outer
bonds, `ps` has the basis vectors of the physical legs of each site.  The basis vectors of the inner bonds are summed over. -/
def ampl [Zero K] [Add K] [Mul K] : List (SpT Q K) → List (BondInfo Q) → Q × Nat → List (List (Q × Nat)) → Q × Nat → K
  | [T], [], x, [p], y => entry T (x :: p ++ [y])
  | T :: ts, b :: bs, x, p :: ps, y => ((legBasis b).map fun z => entry T (x :: p ++ [z]) * ampl ts bs z ps y).sum
  | _, _, _, _, _ => 0

/-- The site tensors live on the given bonds (left bond, inner bonds and right bond; one more than sites) and physical legs. -/
def OnBonds : List (BondInfo Q) → List (List (BondInfo Q)) → List (SpT Q K) → Prop
  | [_], [], [] => True
  | l :: r :: bonds, ph :: phys, T :: ts => Conforms (l :: ph ++ [r]) T ∧ OnBonds (r :: bonds) phys ts
  | _, _, _ => False

/-- A bond without repeated labels and without empty sectors. -/
def GoodBond (b : BondInfo Q) : Prop := Dict.WF b ∧ ∀ x ∈ b, 0 < x.2

/-- The label `q` occurs on leg number `i` of some block. -/
def OccursOn [Zero Q] (T : SpT Q K) (i : Nat) (q : Q) : Prop := ∃ b ∈ T, b.1.getD i 0 = q

open Classical in
/-- Dimension of the label `q` that the sites use on a bond: that of the leg when one of the neighbours has a block with the label. -/
noncomputable def usedDim [Zero Q] (b : BondInfo Q) (T T' : SpT Q K) (k : Nat) (q : Q) : Nat :=
  if OccursOn T k q ∨ OccursOn T' 0 q then Counter.count b q else 0

/-- The two states live on the same edges and physical legs, and the outer edges of `b` use no label that `a` does not use there. -/
structure Addable [Zero Q] (l r : BondInfo Q) (X Y : List (BondInfo Q)) (phys : List (List (BondInfo Q))) (a b : List (SpT Q K)) : Prop where
  onA : OnBonds (l :: X ++ [r]) phys a
  onB : OnBonds (l :: Y ++ [r]) phys b
  good : ∀ c ∈ l :: r :: X ++ Y, GoodBond c
  left : ∀ q, OccursOn (b.headD []) 0 q → OccursOn (a.headD []) 0 q
  right : ∀ q, OccursOn (b.getLastD []) ((phys.getLastD []).length + 1) q → OccursOn (a.getLastD []) ((phys.getLastD []).length + 1) q

end
end Verif
