import Verif.Spec.Tensor
import Verif.Spec.Flat

/-! Specification for the conversion of tensors to vectors. -/

namespace Verif
variable {Q C K : Type} [DecidableEq Q] [AddCommGroup Q]

/-- `T` is a stored tensor on the given legs with charge `dq`: well-formed arrays, blocks with the dimensions of their sectors, no
repeated labels, all blocks of charge `dq`, and packed labels that unpack and pack to themselves. -/
structure TensorOf [Zero K] (legs : List (BondInfo Q)) (pattern : List Bool) (enc : Q → C) (dec : C → Q) (dq : Q) (T : Flat C K) : Prop where
  wf : T.WellFormed
  conf : Conforms legs (T.toSparse dec)
  uniq : UniqueLabels (T.toSparse dec)
  charge : Conserves pattern dq (T.toSparse dec)
  codes : ∀ row ∈ T.qs, ∀ c ∈ row, enc (dec c) = c

/-- Bonds for which a class of tensors can be made: at least two legs, one sign for each, distinct labels, packing reversible. -/
structure GoodBonds (legs : List (BondInfo Q)) (pattern : List Bool) (enc : Q → C) (dec : C → Q) : Prop where
  two : 2 ≤ legs.length
  pat : pattern.length = legs.length
  wf : ∀ b ∈ legs, Dict.WF b
  pack : ∀ b ∈ legs, ∀ p ∈ b, dec (enc p.1) = p.1

/-- The multi-indices allowed by the charge. -/
def allowedIndices (legs : List (BondInfo Q)) (pattern : List Bool) (dq : Q) : List (List (Q × Nat)) :=
  (legIndices legs).filter fun x => signedSum pattern (x.map Prod.fst) = dq

end Verif
