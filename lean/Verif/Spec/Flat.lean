import Verif.Model.Flat
import Verif.Spec.Tensor

/-! Specification of flat storage. -/

namespace Verif
variable {C Q K : Type}

/-- Two block lists have the same labels in the same order, the same shapes and the same entries. -/
def SameBlocks (S T : SpT Q K) : Prop :=
  List.Forall₂ (fun b c => b.1 = c.1 ∧ b.2.shape = c.2.shape ∧
    ∀ ix, inBox b.2.shape ix = true → b.2.get ix = c.2.get ix) S T

/-- A well-formed flat tensor: as many shapes as label rows; block `i` starts after the entries of the blocks before it;
the data has the total size. -/
def Flat.WellFormed (F : Flat C K) : Prop :=
  F.qs.length = F.shs.length ∧
  F.idxs = ((List.range (F.shs.length + 1)).map fun i => ((F.shs.take i).map List.prod).sum) ∧
  F.data.length = (F.shs.map List.prod).sum

instance (F : Flat C K) : Decidable F.WellFormed := by unfold Flat.WellFormed; infer_instance

end Verif
