import Verif.Model.TimeStep
import Mathlib.Analysis.InnerProductSpace.Spectrum
import Mathlib.Analysis.Normed.Algebra.Exponential
import Mathlib.Analysis.Complex.Exponential
import Mathlib.Analysis.SpecialFunctions.Exponential
import Mathlib.Tactic.Module

/-!
Property C65: the time steps of the time-dependent DMRG.
-/

set_option linter.unusedSectionVars false

namespace Verif
section
variable {K V : Type} [Field K] [CharZero K] [AddCommGroup V] [Module K V]

/-- C65: the last vector of a step is the Taylor polynomial of degree four of `exp(dt H) b`. -/
theorem C65_step (h : V →ₗ[K] V) (dt : K) (b : V) :
    (mpeRk4 h dt b).2.2.2 = b + dt • h b + (dt ^ 2 / 2) • h (h b) + (dt ^ 3 / 6) • h (h (h b)) + (dt ^ 4 / 24) • h (h (h (h b))) := by
  unfold mpeRk4
  simp only [map_add, map_smul]
  match_scalars <;> ring

/-- C65: the vectors for the state average are those at the times `dt / 3` and `2 dt / 3`, up to and including third order: with `s = dt / 3` (`s = 2 dt / 3`)
they are the Taylor polynomial of degree three of `exp(s H) b` and a term of fourth order. -/
theorem C65_intermediate (h : V →ₗ[K] V) (dt : K) (b : V) :
    (mpeRk4 h dt b).1 = b ∧
    (mpeRk4 h dt b).2.1 = b + (dt / 3) • h b + ((dt / 3) ^ 2 / 2) • h (h b) + ((dt / 3) ^ 3 / 6) • h (h (h b)) + (-5 / 648 * dt ^ 4) • h (h (h (h b))) ∧
    (mpeRk4 h dt b).2.2.1 = b + (2 * dt / 3) • h b + ((2 * dt / 3) ^ 2 / 2) • h (h b) + ((2 * dt / 3) ^ 3 / 6) • h (h (h b)) + (-1 / 162 * dt ^ 4) • h (h (h (h b))) := by
  unfold mpeRk4
  simp only [map_add, map_smul]
  refine ⟨trivial, ?_, ?_⟩ <;> match_scalars <;> ring

end

/-! ### Distance from the exact evolution -/

section
variable {𝕜 E : Type} [RCLike 𝕜] [NormedAddCommGroup E] [NormedSpace 𝕜 E] [CompleteSpace E]

theorem exp_tail (A : E →L[𝕜] E) (hA : ‖A‖ ≤ 1) (n : Nat) (hn : 0 < n) :
    ‖NormedSpace.exp A - ∑ m ∈ Finset.range n, ((m.factorial : 𝕜)⁻¹ • A ^ m)‖ ≤ ‖A‖ ^ n * ((n.succ : ℝ) * ((n.factorial : ℝ) * n)⁻¹) := by
  have h1 : HasSum (fun m : Nat => (m.factorial : 𝕜)⁻¹ • A ^ m) (NormedSpace.exp A) := NormedSpace.exp_series_hasSum_exp' A
  have h2 := (hasSum_nat_add_iff' n).2 h1
  have h3 : HasSum (fun m : Nat => (m.factorial : ℝ)⁻¹ • ‖A‖ ^ m) (NormedSpace.exp ‖A‖) := NormedSpace.exp_series_hasSum_exp' (𝕂 := ℝ) ‖A‖
  have h4 := (hasSum_nat_add_iff' n).2 h3
  have h5 : ‖NormedSpace.exp A - ∑ m ∈ Finset.range n, ((m.factorial : 𝕜)⁻¹ • A ^ m)‖ ≤
      NormedSpace.exp ‖A‖ - ∑ m ∈ Finset.range n, ((m.factorial : ℝ)⁻¹ • ‖A‖ ^ m) := by
    rw [← h2.tsum_eq]
    refine tsum_of_norm_bounded h4 fun m => ?_
    rw [norm_smul, norm_inv, RCLike.norm_natCast, smul_eq_mul]
    exact mul_le_mul_of_nonneg_left (norm_pow_le' _ (by omega)) (by positivity)
  refine le_trans h5 (le_trans (le_abs_self _) ?_)
  have h6 := Real.exp_bound (x := ‖A‖) (by rw [abs_of_nonneg (norm_nonneg _)]; exact hA) hn
  rw [abs_of_nonneg (norm_nonneg A)] at h6
  rw [← Real.exp_eq_exp_ℝ]
  refine le_trans (le_of_eq ?_) h6
  congr 2
  refine Finset.sum_congr rfl fun m _ => ?_
  rw [smul_eq_mul, div_eq_inv_mul]

/-- C65: if `‖dt H‖ ≤ 1` one step is within `‖dt H‖⁵ / 100` of the exact evolution. -/
theorem C65_error (A : E →L[𝕜] E) (dt : 𝕜) (hA : ‖dt • A‖ ≤ 1) (b : E) :
    ‖(mpeRk4 (A : E →ₗ[𝕜] E) dt b).2.2.2 - NormedSpace.exp (dt • A) b‖ ≤ ‖dt • A‖ ^ 5 / 100 * ‖b‖ := by
  have h := exp_tail (dt • A) hA 5 (by norm_num)
  have e : (mpeRk4 (A : E →ₗ[𝕜] E) dt b).2.2.2 = (∑ m ∈ Finset.range 5, ((m.factorial : 𝕜)⁻¹ • (dt • A) ^ m)) b := by
    rw [C65_step]
    simp only [Finset.sum_range_succ, Finset.sum_range_zero, zero_add, ContinuousLinearMap.add_apply, ContinuousLinearMap.smul_apply, smul_pow, pow_succ, pow_zero, one_mul,
      ContinuousLinearMap.one_apply, ContinuousLinearMap.mul_apply, ContinuousLinearMap.coe_coe, Nat.factorial, smul_smul]
    match_scalars <;> push_cast <;> ring
  rw [e, norm_sub_rev, ← ContinuousLinearMap.sub_apply]
  refine le_trans (ContinuousLinearMap.le_opNorm _ _) (mul_le_mul_of_nonneg_right (le_trans h (le_of_eq ?_)) (norm_nonneg _))
  norm_num [Nat.factorial]
  ring

end

/-! ### Norm and energy for Hermitian operators -/

section
variable {𝕜 E : Type} [RCLike 𝕜] [NormedAddCommGroup E] [InnerProductSpace 𝕜 E] [FiniteDimensional 𝕜 E]

/-- The factor of a step for an eigenvalue. -/
noncomputable def rkFactor (z : 𝕜) : 𝕜 := 1 + z + z ^ 2 / 2 + z ^ 3 / 6 + z ^ 4 / 24

theorem step_coord {h : E →ₗ[𝕜] E} (hh : h.IsSymmetric) {n : Nat} (hn : Module.finrank 𝕜 E = n) (dt : 𝕜) (b : E) (i : Fin n) :
    (hh.eigenvectorBasis hn).repr (mpeRk4 h dt b).2.2.2 i = rkFactor (dt * (hh.eigenvalues hn i : 𝕜)) * (hh.eigenvectorBasis hn).repr b i := by
  rw [C65_step]
  simp only [map_add, map_smul, PiLp.add_apply, PiLp.smul_apply, LinearMap.IsSymmetric.eigenvectorBasis_apply_self_apply, smul_eq_mul]
  unfold rkFactor
  ring

theorem normSq_coord {h : E →ₗ[𝕜] E} (hh : h.IsSymmetric) {n : Nat} (hn : Module.finrank 𝕜 E = n) (v : E) :
    ‖v‖ ^ 2 = ∑ i, ‖(hh.eigenvectorBasis hn).repr v i‖ ^ 2 := by
  rw [← (hh.eigenvectorBasis hn).repr.norm_map v, EuclideanSpace.norm_sq_eq]

theorem energy_coord {h : E →ₗ[𝕜] E} (hh : h.IsSymmetric) {n : Nat} (hn : Module.finrank 𝕜 E = n) (v : E) :
    RCLike.re (inner 𝕜 v (h v)) = ∑ i, hh.eigenvalues hn i * ‖(hh.eigenvectorBasis hn).repr v i‖ ^ 2 := by
  rw [← (hh.eigenvectorBasis hn).repr.inner_map_map v (h v), PiLp.inner_apply, map_sum]
  refine Finset.sum_congr rfl fun i _ => ?_
  rw [LinearMap.IsSymmetric.eigenvectorBasis_apply_self_apply, RCLike.inner_apply, mul_assoc, RCLike.mul_conj, ← RCLike.ofReal_pow, ← RCLike.ofReal_mul, RCLike.ofReal_re]

/-- Chebyshev's inequality for weights: what is decreasing in the eigenvalue lowers the average. -/
theorem weighted_cheb {n : Nat} (l P w : Fin n → ℝ) (hw : ∀ i, 0 ≤ w i) (hP : ∀ i j, l i ≤ l j → P j ≤ P i) :
    (∑ i, l i * (P i * w i)) * (∑ i, w i) ≤ (∑ i, l i * w i) * ∑ i, P i * w i := by
  have h : 0 ≤ ∑ i, ∑ j, w i * w j * ((l i - l j) * (P j - P i)) := by
    refine Finset.sum_nonneg fun i _ => Finset.sum_nonneg fun j _ => mul_nonneg (mul_nonneg (hw i) (hw j)) ?_
    rcases le_total (l i) (l j) with hij | hij
    · exact mul_nonneg_of_nonpos_of_nonpos (by linarith) (by linarith [hP i j hij])
    · exact mul_nonneg (by linarith) (by linarith [hP j i hij])
  have e : ∑ i, ∑ j, w i * w j * ((l i - l j) * (P j - P i)) = 2 * ((∑ i, l i * w i) * (∑ i, P i * w i) - (∑ i, l i * (P i * w i)) * ∑ i, w i) := by
    have e1 : ∀ i j, w i * w j * ((l i - l j) * (P j - P i)) =
        (l i * w i) * (P j * w j) - (l i * (P i * w i)) * w j - w i * (l j * (P j * w j)) + (P i * w i) * (l j * w j) := fun i j => by ring
    simp only [e1, Finset.sum_add_distrib, Finset.sum_sub_distrib, ← Finset.mul_sum, ← Finset.sum_mul]
    ring
  linarith

theorem rkFactor_pos (x : ℝ) : 0 < 1 + x + x ^ 2 / 2 + x ^ 3 / 6 + x ^ 4 / 24 := by
  nlinarith [sq_nonneg (x ^ 2 + 2 * x), sq_nonneg (x + 3 / 2)]

theorem rkFactor_mono {x y : ℝ} (hx : -(3 / 2) ≤ x) (hxy : x ≤ y) :
    1 + x + x ^ 2 / 2 + x ^ 3 / 6 + x ^ 4 / 24 ≤ 1 + y + y ^ 2 / 2 + y ^ 3 / 6 + y ^ 4 / 24 := by
  obtain ⟨a, ha, rfl⟩ : ∃ a, 0 ≤ a ∧ x = -(3 / 2) + a := ⟨x + 3 / 2, by linarith, by ring⟩
  obtain ⟨c, hc, rfl⟩ : ∃ c, 0 ≤ c ∧ y = -(3 / 2) + c := ⟨y + 3 / 2, by linarith, by ring⟩
  have hca : 0 ≤ c - a := by linarith
  have hb : 0 ≤ 1 / 16 + (5 / 16 - 3 / 32) * (a + c) + a * (a - 3 / 2) ^ 2 / 24 + c * (c - 3 / 2) ^ 2 / 24 + (a - c) ^ 2 / 24 + (a ^ 2 * c + a * c ^ 2) / 24 := by
    have h1 := mul_nonneg ha (sq_nonneg (a - 3 / 2))
    have h2 := mul_nonneg hc (sq_nonneg (c - 3 / 2))
    have h3 := mul_nonneg (sq_nonneg a) hc
    have h4 := mul_nonneg ha (sq_nonneg c)
    have h5 := sq_nonneg (a - c)
    linarith
  have := mul_nonneg hca hb
  nlinarith [this]

/-- C65: a step in imaginary time (`dt = -β`) does not raise the energy, as long as `β H ≤ 3/2`, and the result is not zero. -/
theorem C65_imaginary {h : E →ₗ[𝕜] E} (hh : h.IsSymmetric) {β : ℝ} (hβ : 0 ≤ β) (hbd : ∀ v, β * RCLike.re (inner 𝕜 v (h v)) ≤ 3 / 2 * ‖v‖ ^ 2) {b : E} (hb : b ≠ 0) :
    (mpeRk4 h (-β : 𝕜) b).2.2.2 ≠ 0 ∧
    RCLike.re (inner 𝕜 (mpeRk4 h (-β : 𝕜) b).2.2.2 (h (mpeRk4 h (-β : 𝕜) b).2.2.2)) / ‖(mpeRk4 h (-β : 𝕜) b).2.2.2‖ ^ 2 ≤
      RCLike.re (inner 𝕜 b (h b)) / ‖b‖ ^ 2 := by
  obtain ⟨n, hn⟩ : ∃ n, Module.finrank 𝕜 E = n := ⟨_, rfl⟩
  set l := hh.eigenvalues hn with hl
  set w : Fin n → ℝ := fun i => ‖(hh.eigenvectorBasis hn).repr b i‖ ^ 2 with hw
  set p : ℝ → ℝ := fun x => 1 + x + x ^ 2 / 2 + x ^ 3 / 6 + x ^ 4 / 24 with hp
  have hbl : ∀ i, -(3 / 2) ≤ -β * l i := by
    intro i
    have h1 := hbd (hh.eigenvectorBasis hn i)
    rw [LinearMap.IsSymmetric.apply_eigenvectorBasis, inner_smul_right, inner_self_eq_norm_sq_to_K, OrthonormalBasis.norm_eq_one] at h1
    simp at h1
    linarith
  have hco : ∀ i, ‖(hh.eigenvectorBasis hn).repr (mpeRk4 h (-β : 𝕜) b).2.2.2 i‖ ^ 2 = p (-β * l i) ^ 2 * w i := by
    intro i
    rw [step_coord, norm_mul, mul_pow]
    congr 1
    have : rkFactor ((-β : 𝕜) * (l i : 𝕜)) = ((p (-β * l i) : ℝ) : 𝕜) := by
      simp only [rkFactor, hp]
      push_cast
      ring
    rw [this, RCLike.norm_ofReal, sq_abs]
  have hN := normSq_coord hh hn b
  have hN' := normSq_coord hh hn (mpeRk4 h (-β : 𝕜) b).2.2.2
  have hE := energy_coord hh hn b
  have hE' := energy_coord hh hn (mpeRk4 h (-β : 𝕜) b).2.2.2
  simp only [hco] at hN' hE'
  have hnb : 0 < ‖b‖ ^ 2 := by positivity
  have hpos : 0 < ‖(mpeRk4 h (-β : 𝕜) b).2.2.2‖ ^ 2 := by
    rw [hN']
    by_contra hcon
    have h0 : ∀ i, 0 ≤ p (-β * l i) ^ 2 * w i := fun i => mul_nonneg (sq_nonneg _) (sq_nonneg _)
    have hz := (Finset.sum_eq_zero_iff_of_nonneg fun i _ => h0 i).1 (le_antisymm (not_lt.1 hcon) (Finset.sum_nonneg fun i _ => h0 i))
    have : ∀ i, w i = 0 := fun i => by
      rcases mul_eq_zero.1 (hz i (Finset.mem_univ _)) with h | h
      · exact absurd h (pow_ne_zero 2 (rkFactor_pos _).ne')
      · exact h
    rw [hN] at hnb
    simp only [hw] at this
    simp [this] at hnb
  refine ⟨fun hz => by rw [hz] at hpos; simp at hpos, ?_⟩
  rw [div_le_div_iff₀ hpos hnb, hE, hE', hN, hN']
  refine weighted_cheb l (fun i => p (-β * l i) ^ 2) w (fun i => sq_nonneg _) fun i j hij => ?_
  have hx : -β * l j ≤ -β * l i := by nlinarith
  exact pow_le_pow_left₀ (rkFactor_pos _).le (rkFactor_mono (hbl j) hx) 2

/-- C65: the sub-steps of a sweep in imaginary time do not raise the energy. -/
theorem C65_substeps {h : E →ₗ[𝕜] E} (hh : h.IsSymmetric) {β : ℝ} (hβ : 0 ≤ β) (n : Nat) (hbd : ∀ v, β / n * RCLike.re (inner 𝕜 v (h v)) ≤ 3 / 2 * ‖v‖ ^ 2) {b : E} (hb : b ≠ 0) :
    tdSubSteps h (-β : 𝕜) n b ≠ 0 ∧
    RCLike.re (inner 𝕜 (tdSubSteps h (-β : 𝕜) n b) (h (tdSubSteps h (-β : 𝕜) n b))) / ‖tdSubSteps h (-β : 𝕜) n b‖ ^ 2 ≤ RCLike.re (inner 𝕜 b (h b)) / ‖b‖ ^ 2 := by
  unfold tdSubSteps
  have e : (-β : 𝕜) / (n : 𝕜) = -((β / n : ℝ) : 𝕜) := by push_cast; ring
  rw [e]
  generalize List.range n = L
  induction L using List.reverseRecOn with
  | nil => exact ⟨hb, le_refl _⟩
  | append_singleton L i ih =>
    rw [List.foldl_append]
    obtain ⟨h1, h2⟩ := C65_imaginary hh (β := β / n) (by positivity) hbd ih.1
    exact ⟨h1, le_trans h2 ih.2⟩

end

section
variable {E : Type} [NormedAddCommGroup E] [InnerProductSpace ℂ E] [FiniteDimensional ℂ E]

/-- C65: a step in real time (`dt = -i t`) does not raise the norm if `‖t H‖ ≤ θ` with `θ² ≤ 8`, and loses at most `θ⁶ / 72` of its square. -/
theorem C65_real_time {h : E →ₗ[ℂ] E} (hh : h.IsSymmetric) {t θ : ℝ} (hθ : θ ^ 2 ≤ 8) (hbd : ∀ v, ‖(t : ℂ) • h v‖ ≤ θ * ‖v‖) (b : E) :
    ‖(mpeRk4 h (-Complex.I * t) b).2.2.2‖ ≤ ‖b‖ ∧ (1 - θ ^ 6 / 72) * ‖b‖ ^ 2 ≤ ‖(mpeRk4 h (-Complex.I * t) b).2.2.2‖ ^ 2 := by
  obtain ⟨n, hn⟩ : ∃ n, Module.finrank ℂ E = n := ⟨_, rfl⟩
  set l := hh.eigenvalues hn with hl
  have hbl : ∀ i, (t * l i) ^ 2 ≤ θ ^ 2 := by
    intro i
    have h1 := hbd (hh.eigenvectorBasis hn i)
    rw [LinearMap.IsSymmetric.apply_eigenvectorBasis, norm_smul, norm_smul, OrthonormalBasis.norm_eq_one] at h1
    simp only [mul_one, Complex.norm_real, Real.norm_eq_abs] at h1
    have h2 : |t * l i| ≤ θ := by
      rw [abs_mul]
      simpa [hl] using h1
    exact sq_le_sq' (by linarith [neg_abs_le (t * l i)]) (le_trans (le_abs_self _) h2)
  have hfac : ∀ i, ‖rkFactor (-Complex.I * t * (l i : ℂ))‖ ^ 2 = 1 - (t * l i) ^ 6 / 72 + (t * l i) ^ 8 / 576 := by
    intro i
    have : rkFactor (-Complex.I * t * (l i : ℂ)) = (((1 - (t * l i) ^ 2 / 2 + (t * l i) ^ 4 / 24 : ℝ)) : ℂ) + ((-(t * l i) + (t * l i) ^ 3 / 6 : ℝ) : ℂ) * Complex.I := by
      have i2 : Complex.I ^ 2 = -1 := Complex.I_sq
      have i3 : Complex.I ^ 3 = -Complex.I := by rw [pow_succ, i2]; ring
      have i4 : Complex.I ^ 4 = 1 := by rw [pow_succ, i3]; rw [neg_mul, Complex.I_mul_I, neg_neg]
      simp only [rkFactor]
      push_cast
      have e2 : (-Complex.I * t * (l i : ℂ)) ^ 2 = Complex.I ^ 2 * (t * l i) ^ 2 := by ring
      have e3 : (-Complex.I * t * (l i : ℂ)) ^ 3 = -(Complex.I ^ 3 * (t * l i) ^ 3) := by ring
      have e4 : (-Complex.I * t * (l i : ℂ)) ^ 4 = Complex.I ^ 4 * (t * l i) ^ 4 := by ring
      rw [e2, e3, e4, i2, i3, i4]
      ring
    rw [this, ← Complex.normSq_eq_norm_sq, Complex.normSq_add_mul_I]
    ring
  have hN := normSq_coord hh hn b
  have hN' := normSq_coord hh hn (mpeRk4 h (-Complex.I * t) b).2.2.2
  have hco : ∀ i, ‖(hh.eigenvectorBasis hn).repr (mpeRk4 h (-Complex.I * t) b).2.2.2 i‖ ^ 2 =
      (1 - (t * l i) ^ 6 / 72 + (t * l i) ^ 8 / 576) * ‖(hh.eigenvectorBasis hn).repr b i‖ ^ 2 := by
    intro i
    rw [step_coord, norm_mul, mul_pow, ← hfac]
    rfl
  simp only [hco] at hN'
  have up : ∀ i, 1 - (t * l i) ^ 6 / 72 + (t * l i) ^ 8 / 576 ≤ 1 := by
    intro i
    have h1 := hbl i
    have h2 : 0 ≤ (t * l i) ^ 6 := by positivity
    nlinarith [mul_nonneg h2 (by linarith : 0 ≤ 8 - (t * l i) ^ 2)]
  have lo : ∀ i, 1 - θ ^ 6 / 72 ≤ 1 - (t * l i) ^ 6 / 72 + (t * l i) ^ 8 / 576 := by
    intro i
    have h1 := pow_le_pow_left₀ (sq_nonneg _) (hbl i) 3
    have h2 : 0 ≤ (t * l i) ^ 8 := by positivity
    have e1 : (θ ^ 2) ^ 3 = θ ^ 6 := by ring
    have e2 : ((t * l i) ^ 2) ^ 3 = (t * l i) ^ 6 := by ring
    rw [e1, e2] at h1
    linarith
  constructor
  · refine le_of_sq_le_sq ?_ (norm_nonneg _)
    rw [hN, hN']
    refine Finset.sum_le_sum fun i _ => ?_
    nlinarith [up i, sq_nonneg ‖(hh.eigenvectorBasis hn).repr b i‖]
  · rw [hN, hN', Finset.mul_sum]
    exact Finset.sum_le_sum fun i _ => mul_le_mul_of_nonneg_right (lo i) (sq_nonneg _)

end

section
/-- Non-trivial cases: `exp(-2)` and its parts in one step; sub-steps. -/
example : mpeRk4 ((2 : ℚ) • (LinearMap.id : ℚ →ₗ[ℚ] ℚ)) (-1) 1 = (1, 1 - 2 / 3 + (2 / 3) ^ 2 / 2 - (2 / 3) ^ 3 / 6 - 5 / 648 * 16,
    1 - 4 / 3 + (4 / 3) ^ 2 / 2 - (4 / 3) ^ 3 / 6 - 1 / 162 * 16, 1 / 3) := by
  decide +kernel

example : tdSubSteps ((2 : ℚ) • (LinearMap.id : ℚ →ₗ[ℚ] ℚ)) (-2) 2 1 = 1 / 9 := by decide +kernel

/-- C65: beyond the limit the energy may go up: eigenvalues 0 and 4 with `β = 1` (`β H ≤ 4`). -/
theorem C65_limit_needed : ∃ (h : EuclideanSpace ℝ (Fin 2) →ₗ[ℝ] EuclideanSpace ℝ (Fin 2)) (b : EuclideanSpace ℝ (Fin 2)), h.IsSymmetric ∧ b ≠ 0 ∧
    inner ℝ b (h b) / ‖b‖ ^ 2 < inner ℝ (mpeRk4 h (-1) b).2.2.2 (h (mpeRk4 h (-1) b).2.2.2) / ‖(mpeRk4 h (-1) b).2.2.2‖ ^ 2 := by
  have hm : ∀ x y : ℝ, Matrix.toEuclideanLin !![0, 0; 0, 4] (!₂[x, y] : EuclideanSpace ℝ (Fin 2)) = !₂[0, 4 * y] := by
    intro x y
    ext i
    fin_cases i <;> simp [Matrix.toLpLin_apply, mul_comm]
  refine ⟨Matrix.toEuclideanLin !![0, 0; 0, 4], !₂[1, 1], ?_, ?_, ?_⟩
  · intro u v
    have hv : ∀ w : EuclideanSpace ℝ (Fin 2), w = !₂[w 0, w 1] := by
      intro w
      ext i
      fin_cases i <;> rfl
    rw [hv u, hv v, hm, hm]
    simp [PiLp.inner_apply, Fin.sum_univ_two]
    ring
  · intro hz
    have := congrArg (fun v : EuclideanSpace ℝ (Fin 2) => v 0) hz
    simp at this
  · have e : (mpeRk4 (Matrix.toEuclideanLin !![0, 0; 0, 4]) (-1) (!₂[1, 1] : EuclideanSpace ℝ (Fin 2))).2.2.2 = !₂[1, 5] := by
      rw [C65_step]
      simp only [hm]
      ext i
      fin_cases i <;> norm_num
    rw [e]
    simp only [hm]
    simp [EuclideanSpace.norm_sq_eq, PiLp.inner_apply, Fin.sum_univ_two]
    norm_num

/-- The hypotheses of `C65_imaginary` and `C65_real_time` can be met: multiplication by 4, `β = 1/4`; and multiplication by 2, `t = 1`. -/
example : ∃ h : EuclideanSpace ℝ (Fin 2) →ₗ[ℝ] EuclideanSpace ℝ (Fin 2), h ≠ 0 ∧ h.IsSymmetric ∧ ∀ v, (1 / 4 : ℝ) * RCLike.re (inner ℝ v (h v)) ≤ 3 / 2 * ‖v‖ ^ 2 := by
  refine ⟨(4 : ℝ) • LinearMap.id, ?_, ?_, ?_⟩
  · intro h
    have := congrArg (fun v : EuclideanSpace ℝ (Fin 2) => v 0) (LinearMap.congr_fun h !₂[1, 1])
    simp at this
  · intro u v
    simp [inner_smul_left, inner_smul_right]
  · intro v
    simp only [LinearMap.smul_apply, LinearMap.id_apply, inner_smul_right, real_inner_self_eq_norm_sq, RCLike.re_to_real]
    nlinarith [sq_nonneg ‖v‖]

example : ∀ v : ℂ, ‖((1 : ℝ) : ℂ) • ((2 : ℂ) • (LinearMap.id : ℂ →ₗ[ℂ] ℂ)) v‖ ≤ 2 * ‖v‖ := by
  intro v; simp

end
end Verif
