import Verif.Model.Sparse
import Mathlib.Analysis.RCLike.Basic
import Mathlib.Analysis.Real.Sqrt

/-!
Model of `normalize_along_axis` (`/repo/pyblock3/algebra/core.py:573-585`) and of the noise added to a density matrix or a
wavefunction (`/repo/pyblock3/algorithms/core.py:67-99`).

Simplified: exact arithmetic; the threshold `1E-12` is the parameter `thr`; the method changes the block list in place, here the
new list is returned.
-/

namespace Verif
namespace NormAxis
variable {Q 𝕜 : Type} [DecidableEq Q] [RCLike 𝕜]

/-- `np.linalg.norm(b) ** 2` of a block. -/
noncomputable def sqNorm (a : Arr 𝕜) : ℝ := ((box a.shape).map fun ix => ‖a.get ix‖ ^ 2).sum

/-- core.py:578, 583 `b.q_labels[axis]`: Python indexing of a tuple; `none` is the `IndexError`. -/
def labelAt (axis : Int) (qs : List Q) : Option Q :=
  if 0 ≤ axis then qs[axis.toNat]?
  else if 0 ≤ axis + (qs.length : Int) then qs[(axis + (qs.length : Int)).toNat]? else none

/-- core.py:577-581, one round of the first loop. -/
noncomputable def accumStep (axis : Int) (normsq : Dict Q ℝ) (b : List Q × Arr 𝕜) : Option (Dict Q ℝ) := do
  let q ← labelAt axis b.1
  let normsq := if Dict.has normsq q then normsq else Dict.set normsq q 0
  some (Dict.set normsq q ((Dict.get? normsq q).getD 0 + sqNorm b.2))

open Classical in
/-- core.py:582-585, one round of the second loop: `self.blocks[ib] = b / np.sqrt(normsq[q])` above the threshold. -/
noncomputable def scaleStep (thr : ℝ) (axis : Int) (normsq : Dict Q ℝ) (b : List Q × Arr 𝕜) : Option (List Q × Arr 𝕜) := do
  let q ← labelAt axis b.1
  let w ← Dict.get? normsq q
  some (if w > thr then (b.1, ⟨b.2.shape, fun ix => b.2.get ix / ((Real.sqrt w : ℝ) : 𝕜)⟩) else b)

/-- core.py:573-585 `normalize_along_axis`. -/
noncomputable def normalizeAlongAxis (thr : ℝ) (axis : Int) (T : SpT Q 𝕜) : Option (SpT Q 𝕜) := do
  let axis := if axis < 0 then axis + (SpT.ndim T : Int) else axis
  let normsq ← T.foldlM (accumStep axis) []
  T.mapM (scaleStep thr axis normsq)

section noise
variable {E : Type} [NormedAddCommGroup E] [NormedSpace ℝ E]

open Classical in
/-- algorithms/core.py:67-89 `add_dm_noise`, perturbative: `pdm` is the perturbation built from the Hamiltonian. -/
noncomputable def addDmNoise (thr : ℝ) (dm pdm : E) (noise : ℝ) : E :=
  if noise = 0 then dm else if |‖pdm‖| > thr then dm + (noise / ‖pdm‖) • pdm else dm

open Classical in
/-- algorithms/core.py:67-72 `add_dm_noise`, random: `pdm` is the random tensor.  `none`: division by the norm zero. -/
noncomputable def addDmNoiseRandom (dm pdm : E) (noise : ℝ) : Option E :=
  if noise = 0 then some dm else if ‖pdm‖ = 0 then none else some (dm + (noise / ‖pdm‖) • pdm)

open Classical in
/-- algorithms/core.py:91-97 `add_wfn_noise`: `pwfn` is the random tensor. -/
noncomputable def addWfnNoise (wfn pwfn : E) (noise : ℝ) : Option E :=
  if noise = 0 then some wfn else if ‖pwfn‖ = 0 then none else some (wfn + (Real.sqrt noise / ‖pwfn‖) • pwfn)

end noise
end NormAxis
end Verif
