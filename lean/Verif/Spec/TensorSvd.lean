import Verif.Model.TensorSvd
import Verif.Spec.Canon
import Verif.Spec.FermSvd

/-! Specification of the decomposition of a tensor at a cut between its legs. -/

namespace Verif
namespace TSvd
variable {Q K : Type} [DecidableEq Q]

/-- `leL` is a total order of tuples of labels, as Python's `sort` needs it. -/
structure IsOrder (leL : List Q → List Q → Bool) : Prop where
  total : ∀ a b, leL a b = true ∨ leL b a = true
  trans : ∀ a b c, leL a b = true → leL b c = true → leL a c = true
  antisymm : ∀ a b, leL a b = true → leL b a = true → a = b

/-- The tensor with each number replaced by what a matrix of real numbers keeps of it. -/
def stored (real : K → K) (T : SpT Q K) : SpT Q K := T.map fun b => (b.1, b.2.mapK real)

/-- A tensor with the legs `legsL` on the left and `legsR` on the right of the cut: blocks that fit the legs, no two with the same labels, no empty dimension,
signs for the legs on both sides, and labels that add up to zero with these signs. -/
structure Input [AddCommGroup Q] (legsL legsR : List (BondInfo Q)) (patL patR : List Bool) (T : SpT Q K) : Prop where
  conf : Conforms (legsL ++ legsR) T
  uniq : UniqueLabels T
  good : ∀ b ∈ legsL ++ legsR, GoodBond b
  lenL : patL.length = legsL.length
  lenR : patR.length = legsR.length
  charge : Conserves (patL ++ patR) 0 T

end TSvd
end Verif
