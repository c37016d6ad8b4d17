import Verif.Spec.Svd
import Mathlib.Analysis.Matrix.Spectrum
import Mathlib.Analysis.SpecialFunctions.Log.NegMulLog

/-!
Specification of the entanglement of a state across a cut: the entropy of the density matrix of the sites before the cut.
-/

namespace Verif
section
variable {Q : Type} [DecidableEq Q]
open Matrix

/-- The basis of the sites before a cut: a basis vector of the left edge and one for the physical legs of each site. -/
def heads (l : BondInfo Q) (phys : List (List (BondInfo Q))) : List ((Q × Nat) × List (List (Q × Nat))) :=
  (legBasis l).flatMap fun x => (cart (phys.map legIndices)).map fun ps => (x, ps)

/-- The basis of the sites behind a cut. -/
def tails (phys : List (List (BondInfo Q))) (r : BondInfo Q) : List (List (List (Q × Nat)) × (Q × Nat)) :=
  (cart (phys.map legIndices)).flatMap fun ps => (legBasis r).map fun y => (ps, y)

/-- The amplitudes `A` of a state as a matrix: its rows belong to the first `k` sites, its columns to the others. -/
def cutMatrix {𝕜 : Type} (l r : BondInfo Q) (phys : List (List (BondInfo Q))) (k : Nat) (A : Q × Nat → List (List (Q × Nat)) → Q × Nat → 𝕜) :
    Matrix (Fin (heads l (phys.take k)).length) (Fin (tails (phys.drop k) r).length) 𝕜 :=
  Matrix.of fun i j => A (heads l (phys.take k))[i].1 ((heads l (phys.take k))[i].2 ++ (tails (phys.drop k) r)[j].1) (tails (phys.drop k) r)[j].2

variable {𝕜 : Type} [RCLike 𝕜] {m n : Type} [Fintype m] [Fintype n]

/-- The normalised density matrix of the row space: `M Mᴴ` divided by its trace. -/
noncomputable def reduced (M : Matrix m n 𝕜) : Matrix m m 𝕜 := (M * Mᴴ).trace⁻¹ • (M * Mᴴ)

theorem reduced_hermitian (M : Matrix m n 𝕜) : (reduced M).IsHermitian := by
  have h := isHermitian_mul_conjTranspose_self M
  unfold reduced IsHermitian
  rw [conjTranspose_smul, h.eq, star_inv₀, ← trace_conjTranspose, h.eq]

/-- The entropy `-tr (ρ log ρ)` of the density matrix of the row space. -/
noncomputable def vonNeumann [DecidableEq m] (M : Matrix m n 𝕜) : ℝ := ∑ i, Real.negMulLog ((reduced_hermitian M).eigenvalues i)

end
end Verif
