import Verif.Model.Precond
import Verif.Thm.Linalg
import Mathlib.Tactic.NormNum
import Mathlib.Tactic.Positivity
import Mathlib.Data.Fin.VecNotation

set_option linter.unusedSectionVars false

/-!
C80: the preconditioners of the iterative solvers.
-/

namespace Verif
open Precond
variable {𝕜 : Type} [RCLike 𝕜] {n : Nat}

theorem dotc_divGap (thr ld : ℝ) (diag : Fin n → ℝ) (u v : Fin n → 𝕜) : dotc (divGap thr ld diag u) v = dotc u (divGap thr ld diag v) := by
  unfold dotc divGap
  apply Finset.sum_congr rfl
  intro i _
  split_ifs
  · rw [map_div₀, RCLike.conj_ofReal]; ring
  · rfl

theorem divGap_add (thr ld : ℝ) (diag : Fin n → ℝ) (u v : Fin n → 𝕜) (a : 𝕜) :
    divGap thr ld diag (fun i => u i + a * v i) = fun i => divGap thr ld diag u i + a * divGap thr ld diag v i := by
  unfold divGap
  funext i
  split_ifs <;> ring

theorem dotc_add (c u v : Fin n → 𝕜) (a : 𝕜) : dotc c (fun i => u i + a * v i) = dotc c u + a * dotc c v := by
  unfold dotc
  rw [Finset.mul_sum, ← Finset.sum_add_distrib]
  apply Finset.sum_congr rfl
  intro i _
  ring

theorem divGap_pos {thr ld : ℝ} {diag : Fin n → ℝ} {v : Fin n → 𝕜} {i : Fin n} (h : thr < |ld - diag i|) :
    divGap thr ld diag v i = v i / ((ld - diag i : ℝ) : 𝕜) := by
  unfold divGap
  rw [if_pos h]

theorem divGap_neg {thr ld : ℝ} {diag : Fin n → ℝ} {v : Fin n → 𝕜} {i : Fin n} (h : |ld - diag i| ≤ thr) : divGap thr ld diag v i = v i := by
  unfold divGap
  rw [if_neg (by linarith)]

/-- C80: the corrected vector is orthogonal to the current approximation `c` of the eigenvector. -/
theorem C80_orthogonal (thr ld : ℝ) (diag : Fin n → ℝ) (q c z : Fin n → 𝕜) (h : olsen thr ld diag q c = some z) :
    ∑ i, (starRingEnd 𝕜) (c i) * z i = 0 := by
  unfold olsen at h
  simp only at h
  split_ifs at h with hd
  rw [Option.some.injEq] at h
  show dotc c z = 0
  rw [← h, divGap_add, dotc_add, dotc_divGap]
  field_simp
  ring

/-- C80: it solves the correction equation `(ld - diag) z = q - ε c` with one number `ε`, at each position whose gap is above the threshold; at the
other positions `z = q - ε c`. -/
theorem C80_equation (thr ld : ℝ) (hthr : 0 ≤ thr) (diag : Fin n → ℝ) (q c z : Fin n → 𝕜) (h : olsen thr ld diag q c = some z) :
    ∃ ε : 𝕜, ∀ i, (thr < |ld - diag i| → ((ld - diag i : ℝ) : 𝕜) * z i = q i - ε * c i) ∧ (|ld - diag i| ≤ thr → z i = q i - ε * c i) := by
  unfold olsen at h
  simp only at h
  split_ifs at h with hd
  rw [Option.some.injEq] at h
  refine ⟨dotc (divGap thr ld diag c) q / dotc c (divGap thr ld diag c), fun i => ⟨fun hi => ?_, fun hi => ?_⟩⟩
  · have hne : ((ld - diag i : ℝ) : 𝕜) ≠ 0 := by
      intro e
      have e' : ld - diag i = 0 := by exact_mod_cast e
      rw [e', abs_zero] at hi
      linarith
    rw [← h, divGap_pos hi, mul_div_cancel₀ _ hne]
    ring
  · rw [← h]
    rw [divGap_neg hi]
    ring

/-- C80: a zero residual stays zero. -/
theorem C80_zero_residual (thr ld : ℝ) (diag : Fin n → ℝ) (c z : Fin n → 𝕜) (h : olsen thr ld diag 0 c = some z) : z = 0 := by
  unfold olsen at h
  simp only at h
  split_ifs at h with hd
  rw [Option.some.injEq] at h
  rw [← h]
  have : dotc (divGap thr ld diag c) (0 : Fin n → 𝕜) = 0 := by simp [dotc]
  rw [this]
  funext i
  simp [divGap]

theorem dotc_gap (thr ld : ℝ) (diag : Fin n → ℝ) (c : Fin n → 𝕜) (hthr : ∀ i, thr < |ld - diag i|) :
    dotc c (divGap thr ld diag c) = ((∑ i, ‖c i‖ ^ 2 / (ld - diag i) : ℝ) : 𝕜) := by
  unfold dotc divGap
  rw [RCLike.ofReal_sum]
  apply Finset.sum_congr rfl
  intro i _
  rw [if_pos (hthr i)]
  rw [← mul_div_assoc, RCLike.conj_mul]
  push_cast
  rfl

/-- C80: there is no division by zero if the estimate of the eigenvalue lies below the diagonal by more than the threshold and `c` is not zero. -/
theorem C80_defined (thr ld : ℝ) (hthr : 0 ≤ thr) (diag : Fin n → ℝ) (q c : Fin n → 𝕜) (hc : c ≠ 0) (hg : ∀ i, ld + thr < diag i) :
    ∃ z, olsen thr ld diag q c = some z := by
  have hlt : ∀ i, ld - diag i < 0 := fun i => by have := hg i; linarith
  have ha : ∀ i, thr < |ld - diag i| := fun i => by rw [abs_of_neg (hlt i)]; have := hg i; linarith
  unfold olsen
  simp only
  rw [if_neg]
  · exact ⟨_, rfl⟩
  · rw [dotc_gap thr ld diag c ha]
    intro e
    have e' : (∑ i, ‖c i‖ ^ 2 / (ld - diag i) : ℝ) = 0 := by exact_mod_cast e
    obtain ⟨i, hi⟩ := Function.ne_iff.1 hc
    have : (∑ i, ‖c i‖ ^ 2 / (ld - diag i) : ℝ) < 0 := by
      have hp : 0 < ‖c i‖ := norm_pos_iff.2 hi
      refine Finset.sum_neg' (fun j _ => div_nonpos_of_nonneg_of_nonpos (by positivity) (hlt j).le)
        ⟨i, Finset.mem_univ i, div_neg_of_pos_of_neg (by positivity) (hlt i)⟩
    linarith

/-- C80, violation: otherwise the denominator can vanish for a vector `c` of norm one and a non-zero residual, and the entries become `nan`. -/
theorem C80_breakdown : ∃ (ld : ℝ) (diag : Fin 2 → ℝ) (q c : Fin 2 → ℝ), c 0 ^ 2 + c 1 ^ 2 = 1 ∧ q ≠ 0 ∧ c 0 * q 0 + c 1 * q 1 = 0 ∧
    olsen (1 / 10 ^ 12) ld diag q c = none := by
  refine ⟨0, ![1, -(16 / 9)], ![4, -3], ![3 / 5, 4 / 5], ?_, ?_, ?_, ?_⟩
  · norm_num
  · intro h; have := congrFun h 0; norm_num at this
  · norm_num
  · unfold olsen
    simp only
    rw [if_pos]
    unfold dotc divGap
    rw [Fin.sum_univ_two]
    norm_num [abs_of_pos, abs_of_neg]

/-- C80: `_precondition` divides by the diagonal where it is above the threshold and copies the vector elsewhere. -/
theorem C80_precondition (thr : ℝ) (hthr : 0 ≤ thr) (d : Fin n → ℝ) (r : Fin n → 𝕜) (i : Fin n) :
    (thr < |d i| → ((d i : ℝ) : 𝕜) * precondition thr (some d) r i = r i) ∧ (|d i| ≤ thr → precondition thr (some d) r i = r i) ∧
    precondition thr none r i = r i := by
  unfold precondition
  refine ⟨fun h => ?_, fun h => ?_, rfl⟩
  · have hne : ((d i : ℝ) : 𝕜) ≠ 0 := by
      intro e
      have e' : d i = 0 := by exact_mod_cast e
      rw [e', abs_zero] at h
      linarith
    simp only
    rw [if_pos h, mul_div_cancel₀ _ hne]
  · simp only
    rw [if_neg (by linarith)]

/-- The squared norm. -/
noncomputable def normSq (r : Fin n → 𝕜) : ℝ := ∑ i, ‖r i‖ ^ 2

theorem dotc_precondition (thr : ℝ) (d : Fin n → ℝ) (r : Fin n → 𝕜) : ∃ w : Fin n → ℝ,
    dotc (precondition thr (some d) r) r = ((∑ i, w i * ‖r i‖ ^ 2 : ℝ) : 𝕜) ∧ ∀ i, w i = if |d i| > thr then (d i)⁻¹ else 1 := by
  classical
  refine ⟨fun i => if |d i| > thr then (d i)⁻¹ else 1, ?_, fun i => by congr⟩
  unfold dotc precondition
  rw [RCLike.ofReal_sum]
  apply Finset.sum_congr rfl
  intro i _
  simp only
  split_ifs
  · rw [map_div₀, RCLike.conj_ofReal, div_mul_eq_mul_div, RCLike.conj_mul]
    push_cast
    rw [mul_comm, div_eq_mul_inv, mul_comm]
  · rw [RCLike.conj_mul, one_mul]
    push_cast
    rfl

/-- C80: if the diagonal is not negative and at most `D ≥ 1`, the quantity tested by the conjugate-gradient solver bounds the residual: it is a real number,
and the squared norm of the residual is at most `D` times it. -/
theorem C80_error_bound (thr D : ℝ) (hthr : 0 ≤ thr) (hD : 1 ≤ D) (d : Fin n → ℝ) (hd : ∀ i, 0 ≤ d i ∧ d i ≤ D) (r : Fin n → 𝕜) :
    ∃ e : ℝ, dotc (precondition thr (some d) r) r = (e : 𝕜) ∧ 0 ≤ e ∧ normSq r ≤ D * e := by
  obtain ⟨w, hw, hwi⟩ := dotc_precondition thr d r
  have hw0 : ∀ i, 1 ≤ D * w i := by
    intro i
    rw [hwi]
    split_ifs with h
    · have hp : 0 < d i := by
        rw [abs_of_nonneg (hd i).1] at h; linarith
      rw [← div_eq_mul_inv, le_div_iff₀ hp, one_mul]
      exact (hd i).2
    · simpa using hD
  have hwp : ∀ i, 0 ≤ w i := by
    intro i
    by_contra hc
    push Not at hc
    have := hw0 i
    nlinarith
  refine ⟨_, hw, Finset.sum_nonneg fun i _ => mul_nonneg (hwp i) (by positivity), ?_⟩
  unfold normSq
  rw [Finset.mul_sum]
  apply Finset.sum_le_sum
  intro i _
  have := mul_le_mul_of_nonneg_right (hw0 i) (by positivity : (0 : ℝ) ≤ ‖r i‖ ^ 2)
  linarith

/-- C80: what `conjugate_gradient` returns solves the equation up to the threshold, when the diagonal of the matrix is not negative and at most `D ≥ 1`. -/
theorem C80_solution (thr D tol : ℝ) (hthr : 0 ≤ thr) (hD : 1 ≤ D) (htol : 0 < tol) (d : Fin n → ℝ) (hd : ∀ i, 0 ≤ d i ∧ d i ≤ D)
    (a : (Fin n → 𝕜) →ₗ[𝕜] (Fin n → 𝕜)) (small : 𝕜 → Bool) (hsmall : ∀ e, small e = true ↔ Real.sqrt ‖e‖ < tol) (maxIter : Nat) (x b x' : Fin n → 𝕜) (f : 𝕜)
    (it : Nat) (h : conjugateGradient a dotc (precondition thr (some d)) small maxIter x b = some (f, x', it)) : normSq (b - a x') ≤ D * tol ^ 2 := by
  have h1 := (C36_residual a dotc (precondition thr (some d)) small maxIter x b x' f it h).1
  obtain ⟨e, he, he0, hb⟩ := C80_error_bound thr D hthr hD d hd (b - a x')
  rw [hsmall, he, RCLike.norm_ofReal, abs_of_nonneg he0, Real.sqrt_lt' htol] at h1
  refine hb.trans ?_
  exact mul_le_mul_of_nonneg_left h1.le (by linarith)

/-- C80, violation: with entries of both signs on the diagonal the solver returns the starting vector as the solution although it is wrong.  Witness: the
matrix `diag(1, -1)` with right-hand side `(1, 1)`. -/
theorem C80_false_convergence : ∃ (a : (Fin 2 → ℝ) →ₗ[ℝ] (Fin 2 → ℝ)) (d : Fin 2 → ℝ) (b : Fin 2 → ℝ), (∀ v i, a v i = d i * v i) ∧
    ∀ (small : ℝ → Bool) (tol : ℝ), 0 < tol → (∀ e, small e = true ↔ Real.sqrt ‖e‖ < tol) → ∀ maxIter,
      conjugateGradient a dotc (precondition (1 / 10 ^ 12) (some d)) small maxIter 0 b = some (0, 0, 1) ∧ normSq (b - a 0) = 2 := by
  refine ⟨{ toFun := fun v i => (![1, -1] : Fin 2 → ℝ) i * v i, map_add' := fun u v => by funext i; simp; ring, map_smul' := fun c v => by funext i; simp; ring },
    ![1, -1], ![1, 1], fun v i => rfl, fun small tol htol hsmall maxIter => ⟨?_, ?_⟩⟩
  · unfold conjugateGradient
    have h0 : dotc (precondition (1 / 10 ^ 12) (some (![1, -1] : Fin 2 → ℝ)) (![1, 1] : Fin 2 → ℝ)) (![1, 1] : Fin 2 → ℝ) = 0 := by
      unfold dotc precondition
      rw [Fin.sum_univ_two]
      norm_num [abs_of_pos]
    have hs : small 0 = true := by rw [hsmall]; simpa using htol
    simp only [map_zero, neg_zero, zero_add, h0, hs, if_true]
    simp [dotc]
  · unfold normSq
    rw [map_zero, Fin.sum_univ_two]
    norm_num

/-- A case of `C80_defined`: two positions, the estimate below both diagonal entries; the correction is computed. -/
example : olsen (1 / 10 ^ 12) 0 ![1, 2] ![2, -1] (![1, 2] : Fin 2 → ℝ) = some ![-(5 / 3), 5 / 6] := by
  unfold olsen dotc divGap
  simp only [Fin.sum_univ_two]
  rw [if_neg (by norm_num [abs_of_pos])]
  congr 1
  funext i
  fin_cases i <;> norm_num [abs_of_pos]

example : ∀ i, (0 : ℝ) + 1 / 10 ^ 12 < (![1, 2] : Fin 2 → ℝ) i := by
  intro i
  fin_cases i <;> norm_num

open Classical in
/-- A case of `C80_solution`: the matrix `2`, right-hand side 1, starting vector 0; the solver returns the solution `1 / 2`. -/
example : conjugateGradient ((2 : ℝ) • (LinearMap.id : (Fin 1 → ℝ) →ₗ[ℝ] (Fin 1 → ℝ))) dotc (precondition (1 / 10 ^ 12) (some ![2]))
    (fun e => decide (Real.sqrt ‖e‖ < 1 / 10)) 5 0 ![1] = some (1 / 2, ![1 / 2], 2) := by
  have hp : ∀ y : ℝ, precondition (1 / 10 ^ 12) (some (![2] : Fin 1 → ℝ)) ![y] = ![y / 2] := by
    intro y
    funext i
    fin_cases i
    norm_num [precondition, abs_of_pos]
  have hd : ∀ y w : ℝ, dotc (![y] : Fin 1 → ℝ) ![w] = y * w := by
    intro y w
    simp [dotc]
  have h1 : ¬ Real.sqrt ‖(1 / 2 : ℝ) * 1‖ < 1 / 10 := by
    rw [Real.sqrt_lt' (by norm_num)]
    norm_num
  have hz : ∀ v : Fin 1 → ℝ, dotc v 0 = 0 := by
    intro v
    simp [dotc]
  unfold conjugateGradient
  simp only [map_zero, neg_zero, zero_add, hp, hd, h1, decide_false]
  simp [cgLoop, cgUpdate, hd, hz]

example : ∀ i, 0 ≤ (![2] : Fin 1 → ℝ) i ∧ (![2] : Fin 1 → ℝ) i ≤ 2 := by
  intro i
  fin_cases i
  norm_num

end Verif
