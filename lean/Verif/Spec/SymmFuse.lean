import Verif.Spec.Tensor
import Verif.Spec.Mps

/-! Specification of the change to a lower symmetry. -/

namespace Verif
variable {H L : Type} [DecidableEq H] [DecidableEq L]

/-- `b'` is the bond `b` seen with the lower symmetry and `ψ` says which basis vector of `b'` each basis vector of `b` becomes: the label is mapped by `f`, no two basis vectors
become the same, every basis vector of `b'` is reached, and the labels of `b'` are those of `b` mapped. -/
structure Relabels (f : H → L) (b : BondInfo H) (b' : BondInfo L) (ψ : H × Nat → L × Nat) : Prop where
  label : ∀ z ∈ legBasis b, (ψ z).1 = f z.1
  inj : ∀ z ∈ legBasis b, ∀ z' ∈ legBasis b, ψ z = ψ z' → z = z'
  onto : ∀ y, y ∈ legBasis b' ↔ ∃ z ∈ legBasis b, ψ z = y
  wf : Dict.WF b'
  labels : ∀ q, q ∈ Dict.keys b' ↔ ∃ k ∈ Dict.keys b, f k = q

/-- The multi-index with every basis vector replaced. -/
def relabelAll (ψ : BondInfo H → H × Nat → L × Nat) (legs : List (BondInfo H)) (x : List (H × Nat)) : List (L × Nat) :=
  List.zipWith ψ legs x

/-- The tensor `R` on the legs `lower b` is the tensor `T` on the legs `b`, with other names for the basis vectors. -/
def SameTensor {K : Type} [Zero K] [Add K] (ψ : BondInfo H → H × Nat → L × Nat) (lower : BondInfo H → BondInfo L) (legs : List (BondInfo H)) (T : SpT H K) (R : SpT L K) : Prop :=
  Conforms (legs.map lower) R ∧ UniqueLabels R ∧ (∀ x ∈ legIndices legs, entry R (relabelAll ψ legs x) = entry T x)

/-- `b'` has some of the sectors of `b`, with the same dimensions. -/
def SubBond (b' b : BondInfo H) : Prop := Dict.WF b' ∧ ∀ q s, Dict.get? b' q = some s → Dict.get? b q = some s

/-- The bases given by the caller are those of the physical legs: one for each site, used for all its physical legs, or one for each physical leg. -/
def BasisOf (basis : List (BondInfo H)) (phys : List (List (BondInfo H))) : Prop :=
  (basis.length = phys.length ∧ List.Forall₂ (fun b ph => ∀ c ∈ ph, c = b) basis phys) ∨ (basis.length ≠ phys.length ∧ basis = phys.flatten)

end Verif
