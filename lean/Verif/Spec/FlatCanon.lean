import Verif.Spec.Flat

/-! Specification of factorisations of flat tensors. -/

namespace Verif
variable {C Q K : Type}

/-- The blocks of the two tensors agree up to their order in the list. -/
def SameUpToOrder (S T : SpT Q K) : Prop := ∃ S', S'.Perm S ∧ SameBlocks S' T

/-- Every block has at least one leg, and no leg of dimension zero. -/
def Flat.ProperBlocks (F : Flat C K) : Prop :=
  (∀ q ∈ F.qs, q ≠ []) ∧ ∀ s ∈ F.shs, s ≠ [] ∧ ∀ d ∈ s, 0 < d

/-- Unpacking tells the codes of the tensor apart. -/
def Flat.DistinctCodes (dec : C → Q) (F : Flat C K) : Prop :=
  ∀ q ∈ F.qs, ∀ q' ∈ F.qs, ∀ c ∈ q, ∀ c' ∈ q', dec c = dec c' → c = c'

end Verif
