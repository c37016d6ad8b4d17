import Verif.Model.Linalg
import Mathlib.Analysis.InnerProductSpace.Basic
import Mathlib.Analysis.InnerProductSpace.Orthonormal

/-!
Property C60: what the Davidson solver is expected to report.  Nothing here mentions how the solver works; `DavidsonEnv` is only
the record of its numerical ingredients.
-/

namespace Verif
variable {𝕜 V : Type} [RCLike 𝕜] [NormedAddCommGroup V] [InnerProductSpace 𝕜 V]

/-- The contract of `np.linalg.eigh` for the Hermitian matrix whose entries `i, j < m` are `M i j`: real eigenvalues in
ascending order, orthonormal columns of eigenvectors. -/
structure IsEigh (m : Nat) (M : Nat → Nat → 𝕜) (ld : Nat → 𝕜) (alpha : Nat → Nat → 𝕜) : Prop where
  real : ∀ j, j < m → ((RCLike.re (ld j) : ℝ) : 𝕜) = ld j
  sorted : ∀ i j, i ≤ j → j < m → RCLike.re (ld i) ≤ RCLike.re (ld j)
  ortho : ∀ j k, j < m → k < m →
    ∑ i ∈ Finset.range m, (starRingEnd 𝕜) (alpha i j) * alpha i k = if j = k then 1 else 0
  eigen : ∀ i k, i < m → k < m → ∑ j ∈ Finset.range m, M i j * alpha j k = alpha i k * ld k

/-- A dense eigensolver that keeps its contract on every Hermitian matrix. -/
def EighWorks (eigh : Nat → (Nat → Nat → 𝕜) → (Nat → 𝕜) × (Nat → Nat → 𝕜)) : Prop :=
  ∀ m M, (∀ i j, i < m → j < m → M i j = (starRingEnd 𝕜) (M j i)) → IsEigh m M (eigh m M).1 (eigh m M).2

open Classical in
/-- The solver in an inner-product space: `np.dot(u.conj(), v)`, complex conjugation and division by the Euclidean norm. -/
noncomputable def davidsonIn (eigh : Nat → (Nat → Nat → 𝕜) → (Nat → 𝕜) × (Nat → Nat → 𝕜))
    (pre : Option (V → V → 𝕜 → V)) (small : 𝕜 → Bool) : DavidsonEnv 𝕜 V :=
  { dot := fun u v => inner 𝕜 u v, conj := starRingEnd 𝕜, normalize := fun v => if v = 0 then none else some (((‖v‖ : ℝ) : 𝕜)⁻¹ • v)
    eigh := eigh, precondition := pre, small := small }

theorem davidsonIn_normalize {eigh : Nat → (Nat → Nat → 𝕜) → (Nat → 𝕜) × (Nat → Nat → 𝕜)} {pre : Option (V → V → 𝕜 → V)}
    {small : 𝕜 → Bool} {v u : V} :
    (davidsonIn eigh pre small).normalize v = some u ↔ v ≠ 0 ∧ u = ((‖v‖ : ℝ) : 𝕜)⁻¹ • v := by
  unfold davidsonIn
  by_cases h : v = 0
  · simp [h]
  · simp [h, eq_comm]

/-- The preconditioner, if there is one, never moves a non-zero residual into the space already searched.  (Otherwise the code
divides a zero vector by its norm.)  This is needed only for the claim that the solver returns. -/
def NoBreakdown (pre : Option (V → V → 𝕜 → V)) : Prop :=
  ∀ f, pre = some f → ∀ (s : Set V) (q c : V) (l : 𝕜), (∀ u ∈ s, inner 𝕜 u q = 0) → q ≠ 0 → c ∈ s →
    f q c l ∉ Submodule.span 𝕜 s

end Verif
