import Verif.Model.Green
import Verif.Thm.Linalg
import Mathlib.Analysis.InnerProductSpace.PiL2
import Mathlib.LinearAlgebra.Matrix.NonsingularInverse
import Mathlib.Analysis.Matrix.Hermitian

/-!
Property C64: the local step of the Green's function solver gives the Green's function `⟨ket|(H + ω + iη)⁻¹|ket⟩`, up to the residual the linear solver stopped at.
-/

set_option linter.unusedSectionVars false

namespace Verif
section
variable {K V : Type} [Field K] [DecidableEq K] [AddCommGroup V] [Module K V]

/-- C64: the operator of the solver is `(H + ω)² + η²`. -/
theorem C64_operator (h : V →ₗ[K] V) (omega eta : K) (x : V) :
    greenMatmul h omega eta x = (h + omega • (LinearMap.id : V →ₗ[K] V)) ((h + omega • (LinearMap.id : V →ₗ[K] V)) x) + (eta ^ 2) • x := by
  unfold greenMatmul
  by_cases hw : omega = 0 <;> by_cases he : eta = 0 <;> simp [hw, he, pow_two]

/-- C64: with `b` the right-hand side and `ρ` the residual at which the linear solver stopped, the two vectors returned solve
`(H + ω + iη)(r + i x) = ket + ρ/η`, written for real and imaginary part, and the number returned is the product of `ket` with them. -/
theorem C64_equations (dot : V → V → K) (hdot : ∀ u v c, dot u (c • v) = c * dot u v) (pre : V → V) (small : K → Bool) (maxIter : Nat) (h : V →ₗ[K] V) (omega eta : K) (he : eta ≠ 0)
    (x0 ket : V) {rw' iw : K} {x r : V} {it : Nat} (hs : solveGf dot pre small maxIter h omega eta x0 ket = some (rw', iw, x, r, it)) :
    ∃ ρ : V, small (dot (pre ρ) ρ) = true ∧
      h r + omega • r - eta • x = ket + (1 / eta) • ρ ∧
      h x + omega • x + eta • r = 0 ∧
      rw' = dot r ket ∧ iw = dot x ket := by
  simp only [solveGf] at hs
  cases hc : conjugateGradient (greenMap h omega eta) dot pre small maxIter x0 ((- eta) • ket) with
  | none => rw [hc] at hs; simp at hs
  | some p =>
    obtain ⟨f, x', it'⟩ := p
    rw [hc] at hs
    simp only [Option.map_some, Option.some.injEq, Prod.mk.injEq] at hs
    obtain ⟨h1, h2, rfl, h4, -⟩ := hs
    obtain ⟨g1, g2, -⟩ := C36_residual _ _ _ _ _ _ _ _ _ _ hc
    have hr : r = (1 / (- eta)) • (h x' + omega • x') := by
      rw [← h4]
      unfold greenRealPart
      by_cases hw : omega = 0 <;> simp [hw]
    have hop : greenMap h omega eta x' = (h + omega • (LinearMap.id : V →ₗ[K] V)) ((h + omega • (LinearMap.id : V →ₗ[K] V)) x') + (eta ^ 2) • x' := C64_operator h omega eta x'
    simp only [LinearMap.add_apply, LinearMap.smul_apply, LinearMap.id_apply, map_add, map_smul] at hop
    refine ⟨_, g1, ?_, ?_, ?_, ?_⟩
    · rw [hop, hr]
      simp only [map_smul, map_add, smul_add]
      match_scalars <;> field_simp <;> ring
    · rw [hr]
      match_scalars <;> field_simp <;> ring
    · rw [← h1, h4, hdot]
      field_simp
    · rw [← h2, g2, hdot]
      field_simp

end

section
variable {n : Type} [Fintype n] [DecidableEq n]
open Matrix Complex

/-- `H + ω + iη` as a complex matrix. -/
noncomputable def shifted (H : Matrix n n ℝ) (omega eta : ℝ) : Matrix n n ℂ := H.map ofReal + ((omega : ℂ) + eta * I) • 1

theorem shifted_lower {H : Matrix n n ℝ} (hH : H.IsSymm) (omega eta : ℝ) (w : EuclideanSpace ℂ n) :
    |eta| * ‖w‖ ≤ ‖WithLp.toLp 2 (shifted H omega eta *ᵥ w.ofLp)‖ := by
  have hherm : (H.map ofReal : Matrix n n ℂ).IsHermitian := by
    ext i j
    simp [Matrix.conjTranspose_apply, hH.apply i j]
  have him : (inner ℂ w (WithLp.toLp 2 ((H.map ofReal : Matrix n n ℂ) *ᵥ w.ofLp))).im = 0 := by
    have := hherm.im_star_dotProduct_mulVec_self w.ofLp
    rw [EuclideanSpace.inner_eq_star_dotProduct, dotProduct_comm]
    simpa using this
  have hin : inner ℂ w (WithLp.toLp 2 (shifted H omega eta *ᵥ w.ofLp)) =
      inner ℂ w (WithLp.toLp 2 ((H.map ofReal : Matrix n n ℂ) *ᵥ w.ofLp)) + ((omega : ℂ) + eta * I) * ((‖w‖ : ℂ) ^ 2) := by
    have : WithLp.toLp 2 (shifted H omega eta *ᵥ w.ofLp) = WithLp.toLp 2 ((H.map ofReal : Matrix n n ℂ) *ᵥ w.ofLp) + ((omega : ℂ) + eta * I) • w := by
      ext i
      simp [shifted, Matrix.add_mulVec, Matrix.smul_mulVec]
    rw [this, inner_add_right, inner_smul_right, inner_self_eq_norm_sq_to_K]
    rfl
  have hi : (inner ℂ w (WithLp.toLp 2 (shifted H omega eta *ᵥ w.ofLp))).im = eta * ‖w‖ ^ 2 := by
    rw [hin, add_im, him, ← ofReal_pow, mul_im, ofReal_re, ofReal_im]
    simp
  have hb : |eta| * ‖w‖ ^ 2 ≤ ‖w‖ * ‖WithLp.toLp 2 (shifted H omega eta *ᵥ w.ofLp)‖ := by
    calc |eta| * ‖w‖ ^ 2 = |(inner ℂ w (WithLp.toLp 2 (shifted H omega eta *ᵥ w.ofLp))).im| := by
          rw [hi, abs_mul, abs_of_nonneg (a := ‖w‖ ^ 2) (by positivity)]
      _ ≤ ‖inner ℂ w (WithLp.toLp 2 (shifted H omega eta *ᵥ w.ofLp))‖ := abs_im_le_norm _
      _ ≤ _ := norm_inner_le_norm _ _
  rcases (norm_nonneg w).eq_or_lt with h0 | h0
  · rw [← h0, mul_zero]; exact norm_nonneg _
  · nlinarith

/-- `H + ω + iη` is invertible. -/
theorem shifted_unit {H : Matrix n n ℝ} (hH : H.IsSymm) (omega : ℝ) {eta : ℝ} (he : eta ≠ 0) : IsUnit (shifted H omega eta) := by
  rw [← Matrix.mulVec_injective_iff_isUnit]
  intro u v huv
  have h := shifted_lower hH omega eta (WithLp.toLp 2 (u - v))
  have h0 : shifted H omega eta *ᵥ (u - v) = 0 := by rw [Matrix.mulVec_sub]; exact sub_eq_zero.2 huv
  dsimp only at h
  rw [h0] at h
  have : ‖WithLp.toLp 2 (u - v)‖ ≤ 0 := by
    have := abs_pos.2 he
    simp only [WithLp.toLp_zero, norm_zero] at h
    nlinarith [norm_nonneg (WithLp.toLp 2 (u - v) : EuclideanSpace ℂ n)]
  have h1 := norm_le_zero_iff.1 this
  have h2 : u - v = 0 := by
    have := congrArg WithLp.ofLp h1
    simpa using this
  exact sub_eq_zero.1 h2

/-- C64: for a real symmetric matrix `H` and `η ≠ 0`, the complex number the solver returns differs from the Green's function `⟨ket|(H + ω + iη)⁻¹|ket⟩` by at most
`‖ket‖ ‖ρ‖ / η²`, where `ρ` is the residual at which the linear solver stopped (its test `small` accepted it).  `ρ = 0` gives the Green's function itself. -/
theorem C64_green {H : Matrix n n ℝ} (hH : H.IsSymm) (pre : EuclideanSpace ℝ n → EuclideanSpace ℝ n) (small : ℝ → Bool) (maxIter : Nat) (omega : ℝ) {eta : ℝ} (he : eta ≠ 0)
    (x0 ket : EuclideanSpace ℝ n) {rw' iw : ℝ} {x r : EuclideanSpace ℝ n} {it : Nat}
    (hs : solveGf (fun u v => inner ℝ u v) pre small maxIter (Matrix.toEuclideanLin H) omega eta x0 ket = some (rw', iw, x, r, it)) :
    ∃ ρ : EuclideanSpace ℝ n, small (inner ℝ (pre ρ) ρ) = true ∧
      ‖((rw' : ℂ) + iw * I) - (fun i => (ket i : ℂ)) ⬝ᵥ ((shifted H omega eta)⁻¹ *ᵥ fun i => (ket i : ℂ))‖ ≤ ‖ket‖ * ‖ρ‖ / eta ^ 2 := by
  obtain ⟨ρ, h1, h2, h3, h4, h5⟩ := C64_equations (fun u v : EuclideanSpace ℝ n => inner ℝ u v) (fun u v c => inner_smul_right u v c) pre small maxIter _ omega eta he x0 ket hs
  refine ⟨ρ, h1, ?_⟩
  set b : n → ℂ := fun i => (ket i : ℂ) with hb
  set M := shifted H omega eta with hM
  set z : n → ℂ := fun i => (r i : ℂ) + x i * I with hz
  have hMz : M *ᵥ z = fun i => (ket i : ℂ) + ((1 / eta * ρ i : ℝ) : ℂ) := by
    funext i
    have e2 : (H *ᵥ r.ofLp) i + omega * r i - eta * x i = ket i + 1 / eta * ρ i := by
      have := congrArg (fun v : EuclideanSpace ℝ n => v i) h2
      simpa [Matrix.toLpLin_apply] using this
    have e3 : (H *ᵥ x.ofLp) i + omega * x i + eta * r i = 0 := by
      have := congrArg (fun v : EuclideanSpace ℝ n => v i) h3
      simpa [Matrix.toLpLin_apply] using this
    have e4 : ((H.map ofReal : Matrix n n ℂ) *ᵥ z) i = ((H *ᵥ r.ofLp) i : ℂ) + ((H *ᵥ x.ofLp) i : ℂ) * I := by
      simp only [Matrix.mulVec, dotProduct, Matrix.map_apply, hz, ofReal_sum, ofReal_mul, mul_add, Finset.sum_add_distrib, Finset.sum_mul, mul_assoc]
    have : (M *ᵥ z) i = ((H *ᵥ r.ofLp) i : ℂ) + ((H *ᵥ x.ofLp) i : ℂ) * I + ((omega : ℂ) + eta * I) * ((r i : ℂ) + x i * I) := by
      rw [hM, shifted, Matrix.add_mulVec, Pi.add_apply, e4, Matrix.smul_mulVec, Matrix.one_mulVec]
      rfl
    rw [this]
    have c2 := congrArg (ofReal : ℝ → ℂ) e2
    have c3 := congrArg (ofReal : ℝ → ℂ) e3
    push_cast at c2 c3 ⊢
    linear_combination c2 + I * c3 + eta * x i * I_mul_I
  have hU := shifted_unit hH omega he
  have hdet : IsUnit M.det := (Matrix.isUnit_iff_isUnit_det M).1 hU
  set d : n → ℂ := z - M⁻¹ *ᵥ b with hd
  have hMd : M *ᵥ d = fun i => ((1 / eta * ρ i : ℝ) : ℂ) := by
    rw [hd, Matrix.mulVec_sub, hMz, Matrix.mulVec_mulVec, Matrix.mul_nonsing_inv _ hdet, Matrix.one_mulVec]
    funext i
    simp [hb]
  have hval : ((rw' : ℂ) + iw * I) - b ⬝ᵥ (M⁻¹ *ᵥ b) = b ⬝ᵥ d := by
    rw [hd, dotProduct_sub]
    congr 1
    rw [h4, h5]
    simp only [EuclideanSpace.inner_eq_star_dotProduct, dotProduct, hz, hb, Pi.star_apply, star_trivial, ofReal_sum, ofReal_mul, Finset.sum_mul, mul_add, Finset.sum_add_distrib]
    congr 1
    exact Finset.sum_congr rfl fun i _ => by ring
  have hnd : |eta| * ‖(WithLp.toLp 2 d : EuclideanSpace ℂ n)‖ ≤ ‖ρ‖ / |eta| := by
    refine le_trans (shifted_lower hH omega eta (WithLp.toLp 2 d)) (le_of_eq ?_)
    dsimp only
    rw [← hM, hMd]
    rw [EuclideanSpace.norm_eq, EuclideanSpace.norm_eq]
    have : ∀ i, ‖((1 / eta * ρ i : ℝ) : ℂ)‖ ^ 2 = (1 / eta) ^ 2 * ‖ρ i‖ ^ 2 := fun i => by
      rw [Complex.norm_real, norm_mul, mul_pow]
      congr 1
      rw [Real.norm_eq_abs, sq_abs]
    simp only [this]
    rw [← Finset.mul_sum, Real.sqrt_mul (by positivity), Real.sqrt_sq_eq_abs, abs_div, abs_one]
    ring
  have hcs : ‖b ⬝ᵥ d‖ ≤ ‖ket‖ * ‖(WithLp.toLp 2 d : EuclideanSpace ℂ n)‖ := by
    have h := norm_inner_le_norm (𝕜 := ℂ) (WithLp.toLp 2 b : EuclideanSpace ℂ n) (WithLp.toLp 2 d)
    have e1 : inner ℂ (WithLp.toLp 2 b : EuclideanSpace ℂ n) (WithLp.toLp 2 d) = b ⬝ᵥ d := by
      rw [EuclideanSpace.inner_eq_star_dotProduct, dotProduct_comm]
      congr 1
      funext i
      simp [hb]
    have e2 : ‖(WithLp.toLp 2 b : EuclideanSpace ℂ n)‖ = ‖ket‖ := by
      rw [EuclideanSpace.norm_eq, EuclideanSpace.norm_eq]
      simp [hb]
    rwa [e1, e2] at h
  rw [hval]
  have hpos := abs_pos.2 he
  refine le_trans hcs ?_
  rw [← sq_abs eta, mul_div_assoc]
  refine mul_le_mul_of_nonneg_left ?_ (norm_nonneg _)
  rw [le_div_iff₀ (by positivity)]
  rw [le_div_iff₀ hpos] at hnd
  nlinarith

end

section
/-- Non-trivial case: `H = (2)`, `ω = 1`, `η = 1`, `ket = 1`: `1 / (3 + i) = 3/10 - i/10`; found in one step. -/
example : solveGf (K := ℚ) (V := ℚ) (· * ·) id (fun y => decide (y = 0)) 5 ((2 : ℚ) • LinearMap.id) 1 1 0 1 = some (3 / 10, -1 / 10, -1 / 10, 3 / 10, 2) := by
  decide +kernel

/-- The hypothesis of `C64_green` can be met for every `H`: with a test that accepts everything the guess is returned, and the bound holds for its residual. -/
example {n : Type} [Fintype n] [DecidableEq n] (H : Matrix n n ℝ) (omega eta : ℝ) (x0 ket : EuclideanSpace ℝ n) :
    ∃ y, solveGf (fun u v => inner ℝ u v) id (fun _ => true) 10 (Matrix.toEuclideanLin H) omega eta x0 ket = some y ∧ y.2.2.1 = x0 := by
  refine ⟨_, by simp only [solveGf, conjugateGradient, if_true]; rfl, rfl⟩
end
end Verif
