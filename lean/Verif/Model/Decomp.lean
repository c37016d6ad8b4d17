import Verif.Model.TensorSvd
import Verif.Model.MpeSweep
import Verif.Model.Trunc
import Mathlib.Algebra.Field.Defs

/-!
Model of `SweepAlgorithm.decomp_two_site`, `/repo/pyblock3/algorithms/core.py:101-180`, without MPI: the tensor of two sites is split into two tensors.

The noise of `add_dm_noise` (lines 67-92) is a parameter; for noise 0 it is `some`, which leaves the density matrix as it is (line 68).  `re` is what `.real` does
to a number; what is stored in the matrices of `tensor_svd` is real as well.
-/

namespace Verif
namespace Decomp
variable {Q K V : Type} [DecidableEq Q] [AddCommGroup Q]

/-- algorithms/core.py:107-108 and 129-130: the density matrix of one state; `W` is the merged tensor with its six legs. -/
def densityOf [Zero K] [Add K] [Mul K] [Star K] (re : K → K) (forward : Bool) (W : SpT Q K) : Option (SpT Q K) :=
  let ax : List Int := if forward then [-3, -2, -1] else [0, 1, 2]
  (SpT.tensordot W.conj W ax ax).map fun T => T.map fun b => (b.1, b.2.mapK re)

/-- algorithms/core.py:107-113 and 129-135: the weighted sum for a list of states.  `none`: no state or no weight. -/
def densitySum [Zero K] [Add K] [Mul K] [Star K] (re : K → K) (forward : Bool) : List (SpT Q K) → List K → Option (SpT Q K)
  | W :: Ws, w :: ws => (densityOf re forward W).bind fun d =>
    (Ws.zip ws).foldlM (fun d p => (densityOf re forward p.1).map fun t => d.add (t.smul p.2)) (d.smul w)
  | _, _ => none

/-- algorithms/core.py:101-180 for `DecompositionTypes.DensityMatrix` and a list of states, as `DMRG.solve` calls it.  `weights = none` stands for equal weights
(lines 103-104).  Returned are the two tensors of each state and the error.  (Lines 151-152: for `DecompositionTypes.SVD` a list of states raises.) -/
def decompTwoSite [Field K] [Star K] [Zero V] [Add V] [Mul V] [LE V] [DecidableLE V] [DecidableEq V] (leL : List Q → List Q → Bool)
    (svd : Arr K → Arr K × Arr V × Arr K) (re : K → K) (sqrt : V → V) (big : Arr K → Bool) (cutoff : V) (bondDim : Int) (noise : SpT Q K → Option (SpT Q K))
    (forward : Bool) (wfns : List (SpT Q K)) (weights : Option (List K)) : Option (List (SpT Q K × SpT Q K) × V) :=
  let ws := weights.getD (List.replicate wfns.length (1 / (wfns.length : K)))
  (densitySum re forward wfns ws).bind fun dm => (noise dm).bind fun dm =>
  (dm.tensorSvd leL svd re 3 (if forward then [false, true, true, false, false, false] else [false, true, false, true, false, false])).bind fun lsr =>
  let t := SpT.truncateSvd ⟨bondDim, cutoff, 0, true⟩ sqrt big lsr.1 lsr.2.1 lsr.2.2
  if forward then
    (wfns.mapM fun W => (SpT.tensordot t.l.conj W [0, 1, 2] [0, 1, 2]).map fun R => (t.l, R)).map fun ps => (ps, t.error)
  else
    (wfns.mapM fun W => (SpT.tensordot W t.r.conj [-3, -2, -1] [-3, -2, -1]).map fun L => (L, t.r)).map fun ps => (ps, t.error)

end Decomp
end Verif
