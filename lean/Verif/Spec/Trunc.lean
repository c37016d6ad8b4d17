import Verif.Spec.Canon
import Verif.Model.Trunc

/-!
Specification of the truncation of singular values.  The singular values belong to the basis vectors of a bond: label and position.  A truncation is
described by the set of basis vectors that are kept.
-/

namespace Verif
section
variable {Q K V : Type} [DecidableEq Q]

/-- The bond of a tensor of singular values: its labels with the number of values. -/
def valueBond [Zero Q] (s : SpT Q V) : BondInfo Q := s.map fun b => (b.1.headD 0, b.2.shape.headD 0)

/-- Each block has one label and one axis, no label occurs twice, no block is empty. -/
structure ValueBlocks [Zero Q] (s : SpT Q V) : Prop where
  label : ∀ b ∈ s, b.1.length = 1
  axis : ∀ b ∈ s, b.2.shape.length = 1
  good : GoodBond (valueBond s)

/-- The blocks come sorted by a label: first those with the first label of `keys`, then those with the second one, and so on. -/
def InOrderOf {β : Type} (keys : List Q) (f : β → Q) (l : List β) : Prop := l = keys.flatMap fun q => l.filter fun b => decide (f b = q)

/-- The blocks come sorted by a label, and every label occurs. -/
structure SortedBy {β : Type} (keys : List Q) (f : β → Q) (l : List β) : Prop where
  order : InOrderOf keys f l
  all : ∀ q ∈ keys, ∃ b ∈ l, f b = q

/-- The kept positions of label `q` with `n` positions, in increasing order. -/
def keptAt (keep : Q × Nat → Bool) (q : Q) (n : Nat) : List Nat := (List.range n).filter fun j => keep (q, j)

/-- The bond after the truncation. -/
def keptBond (keep : Q × Nat → Bool) (m : BondInfo Q) : BondInfo Q :=
  m.filterMap fun x => if keptAt keep x.1 x.2 = [] then none else some (x.1, (keptAt keep x.1 x.2).length)

/-- The basis vector of the old bond that a basis vector of the new bond comes from. -/
def cameFrom (keep : Q × Nat → Bool) (m : BondInfo Q) (z : Q × Nat) : Q × Nat :=
  (z.1, (keptAt keep z.1 (Counter.count m z.1)).getD z.2 0)

/-- The truncated factors are the old ones restricted to the kept basis vectors of the bond `m`. -/
structure Restricted [Zero K] [Add K] [Zero V] [Add V] (keep : Q × Nat → Bool) (m : BondInfo Q) (legsL legsR : List (BondInfo Q))
    (l : SpT Q K) (s : SpT Q V) (r : SpT Q K) (l' : SpT Q K) (s' : SpT Q V) (r' : SpT Q K) : Prop where
  left : Conforms (legsL ++ [keptBond keep m]) l'
  values : Conforms [keptBond keep m] s'
  right : Conforms (keptBond keep m :: legsR) r'
  leftEntry : ∀ x, x.length = legsL.length → ∀ z ∈ legBasis (keptBond keep m), entry l' (x ++ [z]) = entry l (x ++ [cameFrom keep m z])
  valueEntry : ∀ z ∈ legBasis (keptBond keep m), entry s' [z] = entry s [cameFrom keep m z]
  rightEntry : ∀ y, y.length = legsR.length → ∀ z ∈ legBasis (keptBond keep m), entry r' (z :: y) = entry r (cameFrom keep m z :: y)

/-- Contract of the test in `deflate` with `norm_cutoff = 0`: only zero arrays are removed. -/
def RemovesZeros [Zero K] (big : Arr K → Bool) : Prop := ∀ a ix, inBox a.shape ix = true → big a = false → a.get ix = 0

end
end Verif
