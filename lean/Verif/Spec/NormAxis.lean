import Verif.Spec.Tensor
import Mathlib.Analysis.RCLike.Basic

/-!
Specification for C81: the weight of a tensor in one sector of one leg.
-/

namespace Verif
variable {Q 𝕜 : Type} [DecidableEq Q] [RCLike 𝕜]

/-- The sum of the squared absolute values of the entries whose label on leg `k` is `q`. -/
def sectorWeight (legs : List (BondInfo Q)) (T : SpT Q 𝕜) (k : Nat) (q : Q) : ℝ :=
  ((legIndices legs).map fun x => if (x[k]?).map Prod.fst = some q then ‖entry T x‖ ^ 2 else 0).sum

end Verif
