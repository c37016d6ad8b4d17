import Verif.Spec.Canon
import Verif.Spec.Svd
import Verif.Spec.TrimSvd
import Verif.Model.FermSvd

/-!
Specification of factorisations of fermionic tensors.
-/

namespace Verif
namespace FermSplit
variable {Q K V : Type} [DecidableEq Q]

/-- The legs with the given numbers. -/
def legsAt (legs : List (BondInfo Q)) (idx : List Nat) : List (BondInfo Q) := idx.map fun i => legs.getD i []

/-- The signs of the legs with the given numbers. -/
def signsAt (pattern : List Bool) (idx : List Nat) : List Bool := idx.map fun i => pattern.getD i true

/-- A tensor on the legs `legs`, with one charge: what the library calls a valid tensor. -/
structure Valid [AddCommGroup Q] (legs : List (BondInfo Q)) (dq : Q) (T : FermT Q K) : Prop where
  good : ∀ b ∈ legs, GoodBond b
  conforms : Conforms legs T.blocks
  unique : UniqueLabels T.blocks
  signs : T.pattern.length = legs.length
  charge : Conserves T.pattern dq T.blocks
  nonempty : T.blocks ≠ []

/-- `left` and `right` together are all legs, and neither is empty. -/
structure Bipartition (n : Nat) (left right : List Nat) : Prop where
  all : (left ++ right).Perm (List.range n)
  left : left ≠ []
  right : right ≠ []

/-- `u` and `v` are valid tensors with the charges `dl`, `dr`; they share the bond `m`, which is the last leg of `u` with sign "-" and the first leg of `v`
with sign "+".  The other legs of `u` are `legsL`, those of `v` are `legsR`. -/
structure Halves [AddCommGroup Q] (legsL legsR : List (BondInfo Q)) (patL patR : List Bool) (m : BondInfo Q) (dl dr : Q) (u v : FermT Q K) : Prop where
  left : Valid (legsL ++ [m]) dl u
  right : Valid (m :: legsR) dr v
  leftSigns : u.pattern = patL ++ [false]
  rightSigns : v.pattern = true :: patR

/-- `X` is `T` with its legs in the order `left`, `right` (signs of the reordering included). -/
structure Reordered [Zero Q] [Ring K] (par : Q → Nat) (legs : List (BondInfo Q)) (T X : FermT Q K) (left right : List Nat) : Prop where
  signs : X.pattern = signsAt T.pattern (left ++ right)
  conforms : Conforms (legsAt legs left ++ legsAt legs right) X.blocks
  entries : ∀ x : List (Q × Nat), x.length = legs.length → entry X.blocks x = entry (T.transpose par (some (left ++ right))).blocks x

/-- Contract the last leg of `u` with the first leg of `v`. -/
def contract [Zero Q] [Ring K] (par : Q → Nat) (u v : FermT Q K) : Option (FermT Q K) := FermT.tensordot par u v [-1] [0]

/-- Contract of `np.linalg.svd`: the singular values are not negative and decrease. -/
def SvdSorted [Zero V] [LE V] (svd : Arr K → Arr K × Arr V × Arr K) : Prop :=
  ∀ (a : Arr K) m n, a.shape = [m, n] → 0 < m → 0 < n →
    ((List.range (min m n)).map fun t => (svd a).2.1.get [t]).Pairwise (· ≥ ·) ∧ ∀ t < min m n, 0 ≤ (svd a).2.1.get [t]

/-- The singular value decomposition of `A` across the cut between `legsL` and `legsR`: isometries `u`, `v` and a value `s z` that is not negative for each
basis vector `z` of the bond `m`. -/
structure Spectral [Zero K] [One K] [Add K] [Mul K] [Star K] [Zero V] [LE V] (c : V → K) (legsL legsR : List (BondInfo Q)) (A : SpT Q K) (m : BondInfo Q)
    (u : SpT Q K) (s : Q × Nat → V) (v : SpT Q K) : Prop where
  bond : GoodBond m
  left : LeftIsometric legsL m u
  right : RightIsometric m legsR v
  values : ∀ z ∈ legBasis m, 0 ≤ s z
  product : ∀ x y, x.length = legsL.length → y.length = legsR.length →
    ((legBasis m).map fun z => entry u (x ++ [z]) * c (s z) * entry v (z :: y)).sum = entry A (x ++ y)

/-- Contract what `tensor_svd` returns: `u · v`, or `u · (s · v)` if there are three tensors. -/
def recombine [Zero Q] [Ring K] (par : Q → Nat) (d : Svd Q K) : Option (FermT Q K) :=
  match d.s with
  | none => contract par d.u d.v
  | some s => (contract par s d.v).bind fun sv => contract par d.u sv

/-- What the options `cutoff`, `cutoff_mode` and `max_bond` promise, if the values above the threshold of 1E-10 are `kept` and `lost`.  No lost value is larger than a kept one;
the number of kept values respects `max_bond`.  Mode 1: kept values are above `cutoff`, and if `max_bond` is not reached, lost ones are not.  Mode 2: the same with `cutoff` times
the largest value.  Modes 3 to 6: if `max_bond` is not reached, the sum (of squares) of the lost values is within the budget; one value more would exceed it. -/
structure Rule [Zero V] [LinearOrder V] [Add V] [Mul V] [Pow V Nat] (mode : Nat) (cutoff : V) (maxBond : Option Int) (kept lost : List V) : Prop where
  order : ∀ x ∈ lost, ∀ y ∈ kept, x ≤ y
  within : Trim.Within maxBond kept.length
  threshold : ∀ thr, (mode = 1 ∧ thr = cutoff ∨ mode = 2 ∧ ∃ smax ∈ kept ++ lost, (∀ x ∈ kept ++ lost, x ≤ smax) ∧ thr = cutoff * smax) →
    (∀ y ∈ kept, thr < y) ∧ (Trim.HasRoom maxBond kept.length → ∀ x ∈ lost, x ≤ thr)
  weight : 3 ≤ mode → (Trim.HasRoom maxBond kept.length → (lost.map (· ^ Trim.power mode)).sum ≤ Trim.budget mode cutoff [kept ++ lost]) ∧
    ∀ y ∈ kept, Trim.budget mode cutoff [kept ++ lost] < (lost.map (· ^ Trim.power mode)).sum + y ^ Trim.power mode

/-- `d` is the decomposition of which `keep` says what is kept, with all kept values multiplied by `f`; `X` is the tensor that its parts give when they are contracted.
The new bond `m` has one basis vector for each kept value.  Without `absorb` the values are the diagonal of a third tensor, and both other tensors are isometries.  With
`absorb=-1` (`absorb=1`) the right (left) tensor is an isometry. -/
structure Truncated [AddCommGroup Q] [Ring K] [StarRing K] [Mul V] (par : Q → Nat) (c : V → K) (legsL legsR : List (BondInfo Q)) (patL patR : List Bool) (dl dr : Q)
    (absorb : Option Int) (m₀ : BondInfo Q) (u₀ : SpT Q K) (s₀ : Q × Nat → V) (v₀ : SpT Q K) (keep : Q × Nat → Bool) (f : V) (d : Svd Q K) (m : BondInfo Q)
    (X : FermT Q K) : Prop where
  halves : Halves legsL legsR patL patR m dl dr d.u d.v
  size : (legBasis m).length = ((legBasis m₀).filter keep).length
  three : d.s.isSome ↔ absorb = none
  values : ∀ s, d.s = some s → Conforms [m, m] s.blocks ∧ s.pattern = [true, false] ∧
    (legBasis m).map (fun z => entry s.blocks [z, z]) = ((legBasis m₀).filter keep).map (fun z => c (s₀ z * f)) ∧ ∀ z ∈ legBasis m, ∀ z' ∈ legBasis m, z ≠ z' → entry s.blocks [z, z'] = 0
  leftIso : absorb = none ∨ absorb = some 1 → LeftIsometric legsL m d.u.blocks
  rightIso : absorb = none ∨ absorb = some (-1) → RightIsometric m legsR d.v.blocks
  whole : recombine par d = some X
  signs : X.pattern = patL ++ patR
  conforms : Conforms (legsL ++ legsR) X.blocks
  entries : ∀ x y, x.length = legsL.length → y.length = legsR.length →
    entry X.blocks (x ++ y) = (((legBasis m₀).filter keep).map fun z => entry u₀ (x ++ [z]) * c (s₀ z * f) * entry v₀ (z :: y)).sum

end FermSplit
end Verif
