import Verif.Model.MpeLocal
import Mathlib.Analysis.RCLike.Basic
import Mathlib.Analysis.Real.Sqrt

/-!
Model of the local step of the linear solver (`/repo/pyblock3/algorithms/linear.py` with `multiply` of `/repo/pyblock3/algebra/mpe.py`).
-/

namespace Verif
namespace Mpe
variable {Q 𝕜 : Type} [DecidableEq Q] [RCLike 𝕜] [DecidableEq 𝕜]

/-- mpe.py:363-377 `multiply` in the version without `FlatSparseFunctor`, for a ket of one tensor: the new bra `operator @ ket` and its norm, the root of
`⟨v|v⟩` (mps.py:480-484; the assertion there and the absolute value for tiny numbers concern rounding only).  The number of multiplications is left out. -/
noncomputable def multiply [AddCommGroup Q] (isF : Q → Bool) (le : Q → Q → Bool) (o : Mpo Q 𝕜) (ket : Mps Q 𝕜) : Option (ℝ × Mps Q 𝕜) :=
  (Mps.applyOne isF le o ket).bind fun v => (Mps.dot v.conj v).map fun d => (Real.sqrt (RCLike.re d), v)

end Mpe
end Verif
