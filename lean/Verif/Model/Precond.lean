import Verif.Model.Linalg
import Mathlib.Analysis.RCLike.Basic

/-!
Model of the preconditioners of the iterative solvers, `/repo/pyblock3/algebra/linalg.py:85-102`.

Simplified: vectors are functions on the positions; the diagonal is real (the matrices are Hermitian); the threshold `1E-12` is the parameter `thr`.
-/

namespace Verif
namespace Precond
variable {𝕜 : Type} [RCLike 𝕜] {n : Nat}

open Classical in
/-- linalg.py:88-89 and 93: `v[mask] /= ld - diag[mask]` with `mask = np.abs(ld - diag) > 1E-12`. -/
noncomputable def divGap (thr ld : ℝ) (diag : Fin n → ℝ) (v : Fin n → 𝕜) : Fin n → 𝕜 :=
  fun i => if |ld - diag i| > thr then v i / ((ld - diag i : ℝ) : 𝕜) else v i

/-- `np.dot(u.conj(), v)`. -/
def dotc (u v : Fin n → 𝕜) : 𝕜 := ∑ i, (starRingEnd 𝕜) (u i) * v i

open Classical in
/-- linalg.py:85-93 `_olsen_precondition`: the new value of `q`.  `none`: division by a zero denominator (the entries become `nan`). -/
noncomputable def olsen (thr ld : ℝ) (diag : Fin n → ℝ) (q c : Fin n → 𝕜) : Option (Fin n → 𝕜) :=
  let t := divGap thr ld diag c
  let numerator := dotc t q
  let denominator := dotc c t
  if denominator = 0 then none else
  some (divGap thr ld diag fun i => q i + (- numerator / denominator) * c i)

open Classical in
/-- linalg.py:96-102 `_precondition`. -/
noncomputable def precondition (thr : ℝ) (diag : Option (Fin n → ℝ)) (r : Fin n → 𝕜) : Fin n → 𝕜 :=
  match diag with
  | none => r
  | some d => fun i => if |d i| > thr then r i / ((d i : ℝ) : 𝕜) else r i

end Precond
end Verif
