import Verif.Spec.Entangle
import Mathlib.LinearAlgebra.Matrix.Charpoly.Basic

/-! The entropy of a density matrix from a singular value decomposition. -/

set_option linter.unusedSectionVars false

namespace Verif
section
open Matrix Polynomial
variable {𝕜 : Type} [RCLike 𝕜] {m n k : Type} [Fintype m] [Fintype n] [Fintype k] [DecidableEq m] [DecidableEq k]

theorem eigenvalues_of_factor {R : Matrix m m 𝕜} (hR : R.IsHermitian) (U : Matrix m k 𝕜) (w : k → ℝ) (hU : Uᴴ * U = 1)
    (h : R = U * diagonal (fun z => (w z : 𝕜)) * Uᴴ) :
    Multiset.replicate (Fintype.card k) (0 : ℝ) + Finset.univ.val.map hR.eigenvalues = Multiset.replicate (Fintype.card m) 0 + Finset.univ.val.map w := by
  have h1 := charpoly_mul_comm' (U * diagonal (fun z => (w z : 𝕜))) Uᴴ
  rw [← h, ← Matrix.mul_assoc, hU, Matrix.one_mul, charpoly_diagonal] at h1
  have h2 := congrArg Polynomial.roots h1
  have hp : (∏ i, (X - C ((w i : 𝕜)))) ≠ 0 := by simp [Finset.prod_ne_zero_iff, X_sub_C_ne_zero]
  rw [roots_mul (mul_ne_zero (pow_ne_zero _ X_ne_zero) (charpoly_monic R).ne_zero), roots_mul (mul_ne_zero (pow_ne_zero _ X_ne_zero) hp),
    roots_X_pow, roots_X_pow, hR.roots_charpoly_eq_eigenvalues, Polynomial.roots_prod _ _ hp] at h2
  have h3 : (Finset.univ.val.bind fun i : k => (X - C (w i : 𝕜)).roots) = Finset.univ.val.map fun i => (w i : 𝕜) := by simp
  rw [h3, Multiset.nsmul_singleton, Multiset.nsmul_singleton] at h2
  apply Multiset.map_injective (RCLike.ofReal_injective (K := 𝕜))
  rw [Multiset.map_add, Multiset.map_add, Multiset.map_replicate, Multiset.map_replicate, Multiset.map_map, Multiset.map_map, RCLike.ofReal_zero]
  exact h2

theorem trace_factor (U : Matrix m k 𝕜) (w : k → 𝕜) (hU : Uᴴ * U = 1) : (U * diagonal w * Uᴴ).trace = ∑ z, w z := by
  rw [Matrix.trace_mul_comm, ← Matrix.mul_assoc, hU, Matrix.one_mul, trace_diagonal]

/-- The entropy is that of the normalised squares of the Schmidt values. -/
theorem vonNeumann_schmidt (M : Matrix m n 𝕜) (U : Matrix m k 𝕜) (σ : k → ℝ) (W : Matrix k n 𝕜) (hU : Uᴴ * U = 1) (hW : W * Wᴴ = 1)
    (h : M = U * diagonal (fun z => (σ z : 𝕜)) * W) : vonNeumann M = ∑ z, Real.negMulLog (σ z ^ 2 / ∑ z, σ z ^ 2) := by
  have hMM : M * Mᴴ = U * diagonal (fun z => ((σ z ^ 2 : ℝ) : 𝕜)) * Uᴴ := by
    rw [h, conjTranspose_mul, conjTranspose_mul, diagonal_conjTranspose]
    have : U * diagonal (fun z => (σ z : 𝕜)) * W * (Wᴴ * (diagonal (star fun z => (σ z : 𝕜)) * Uᴴ)) =
        U * (diagonal (fun z => (σ z : 𝕜)) * ((W * Wᴴ) * diagonal (star fun z => (σ z : 𝕜)))) * Uᴴ := by
      simp only [Matrix.mul_assoc]
    rw [this, hW, Matrix.one_mul, diagonal_mul_diagonal]
    congr 3
    funext z
    simp [sq]
  have hR : reduced M = U * diagonal (fun z => ((σ z ^ 2 / ∑ z, σ z ^ 2 : ℝ) : 𝕜)) * Uᴴ := by
    unfold reduced
    rw [hMM, trace_factor U _ hU]
    rw [← Matrix.smul_mul, ← Matrix.mul_smul]
    congr 2
    ext i j
    by_cases e : i = j
    · subst e
      simp [div_eq_mul_inv, mul_comm]
    · simp [diagonal_apply_ne _ e]
  have key := eigenvalues_of_factor (reduced_hermitian M) U _ hU hR
  have := congrArg (fun s => (Multiset.map Real.negMulLog s).sum) key
  simp only [Multiset.map_add, Multiset.sum_add, Multiset.map_replicate, Real.negMulLog_zero, Multiset.sum_replicate, smul_zero, zero_add,
    Multiset.map_map] at this
  exact this

end
end Verif
