import Mathlib.Data.Real.Basic
import Mathlib.Algebra.BigOperators.Ring.Finset
import Mathlib.Algebra.Order.BigOperators.Ring.Finset
import Mathlib.Algebra.BigOperators.Group.Finset.Piecewise
import Mathlib.Tactic.Linarith
import Mathlib.Tactic.Ring
import Mathlib.Tactic.LinearCombination

/-! A singular value decomposition of a density matrix of real numbers is a spectral decomposition, and the projection to its leading vectors loses least. -/

namespace Verif
namespace DensMat
open Finset

variable {α β ζ ι κ : Type} [DecidableEq ζ] [DecidableEq κ] {X : Finset α} {Y : Finset β} {Z : Finset ζ} {I : Finset ι} {J : Finset κ}

/-- Vectors with unit norm, any two of them orthogonal. -/
def Ortho (X : Finset α) (J : Finset κ) (q : κ → α → ℝ) : Prop := ∀ j ∈ J, ∀ k ∈ J, ∑ x ∈ X, q j x * q k x = if j = k then 1 else 0

/-- What a projection leaves of the square norm. -/
theorem ortho_rest {q : κ → α → ℝ} (h : Ortho X J q) (a : α → ℝ) :
    ∑ x ∈ X, (a x - ∑ j ∈ J, q j x * ∑ x' ∈ X, q j x' * a x') ^ 2 = ∑ x ∈ X, a x ^ 2 - ∑ j ∈ J, (∑ x ∈ X, q j x * a x) ^ 2 := by
  set c : κ → ℝ := fun j => ∑ x ∈ X, q j x * a x with hc
  have e1 : ∑ x ∈ X, a x * ∑ j ∈ J, q j x * c j = ∑ j ∈ J, c j ^ 2 := by
    simp_rw [mul_sum]
    rw [sum_comm]
    refine sum_congr rfl fun j _ => ?_
    rw [pow_two]
    conv_rhs => arg 1; rw [hc]
    simp only
    rw [sum_mul]
    exact sum_congr rfl fun x _ => by ring
  have e2 : ∑ x ∈ X, (∑ j ∈ J, q j x * c j) * ∑ k ∈ J, q k x * c k = ∑ j ∈ J, c j ^ 2 := by
    have : ∀ x, (∑ j ∈ J, q j x * c j) * ∑ k ∈ J, q k x * c k = ∑ j ∈ J, ∑ k ∈ J, (c j * c k) * (q j x * q k x) := by
      intro x
      rw [sum_mul]
      refine sum_congr rfl fun j _ => ?_
      rw [mul_sum]
      exact sum_congr rfl fun k _ => by ring
    simp_rw [this]
    rw [sum_comm]
    refine sum_congr rfl fun j hj => ?_
    rw [sum_comm]
    have : ∀ k ∈ J, ∑ x ∈ X, (c j * c k) * (q j x * q k x) = if j = k then c j * c k else 0 := by
      intro k hk
      rw [← mul_sum, h j hj k hk]
      split_ifs <;> simp
    rw [sum_congr rfl this, sum_ite_eq, if_pos hj, pow_two]
  have : ∀ x ∈ X, (a x - ∑ j ∈ J, q j x * c j) ^ 2 = a x ^ 2 - 2 * (a x * ∑ j ∈ J, q j x * c j) + (∑ j ∈ J, q j x * c j) * ∑ k ∈ J, q k x * c k := by
    intro x _; ring
  rw [sum_congr rfl this, sum_add_distrib, sum_sub_distrib, ← mul_sum, e1, e2]
  ring

theorem bessel {q : κ → α → ℝ} (h : Ortho X J q) (a : α → ℝ) : ∑ j ∈ J, (∑ x ∈ X, q j x * a x) ^ 2 ≤ ∑ x ∈ X, a x ^ 2 := by
  have := ortho_rest h a
  have h2 : 0 ≤ ∑ x ∈ X, (a x - ∑ j ∈ J, q j x * ∑ x' ∈ X, q j x' * a x') ^ 2 := sum_nonneg fun _ _ => sq_nonneg _
  linarith

/-- The density matrix of states `A i` with weights `w i`. -/
def dens (Y : Finset β) (I : Finset ι) (w : ι → ℝ) (A : ι → α → β → ℝ) (x x' : α) : ℝ := ∑ i ∈ I, w i * ∑ y ∈ Y, A i x y * A i x' y

variable {w : ι → ℝ} {A : ι → α → β → ℝ}

theorem dens_symm (x x' : α) : dens Y I w A x x' = dens Y I w A x' x := by
  unfold dens
  exact sum_congr rfl fun i _ => by
    congr 1
    exact sum_congr rfl fun y _ => mul_comm _ _

/-- Expectation value of the density matrix. -/
theorem dens_form (f : α → ℝ) : ∑ x ∈ X, ∑ x' ∈ X, f x * dens Y I w A x x' * f x' = ∑ i ∈ I, w i * ∑ y ∈ Y, (∑ x ∈ X, f x * A i x y) ^ 2 := by
  unfold dens
  have e : ∀ x x', f x * (∑ i ∈ I, w i * ∑ y ∈ Y, A i x y * A i x' y) * f x' = ∑ i ∈ I, ∑ y ∈ Y, w i * ((f x * A i x y) * (f x' * A i x' y)) := by
    intro x x'
    rw [mul_sum, sum_mul]
    refine sum_congr rfl fun i _ => ?_
    rw [mul_sum, mul_sum, sum_mul]
    exact sum_congr rfl fun y _ => by ring
  simp_rw [e]
  have e2 : ∀ i y, (∑ x ∈ X, f x * A i x y) ^ 2 = ∑ x ∈ X, ∑ x' ∈ X, (f x * A i x y) * (f x' * A i x' y) := by
    intro i y
    rw [pow_two, sum_mul]
    exact sum_congr rfl fun x _ => by rw [mul_sum]
  simp_rw [e2]
  calc _ = ∑ x ∈ X, ∑ i ∈ I, ∑ x' ∈ X, ∑ y ∈ Y, w i * ((f x * A i x y) * (f x' * A i x' y)) := sum_congr rfl fun x _ => sum_comm
    _ = ∑ i ∈ I, ∑ x ∈ X, ∑ x' ∈ X, ∑ y ∈ Y, w i * ((f x * A i x y) * (f x' * A i x' y)) := sum_comm
    _ = ∑ i ∈ I, ∑ x ∈ X, ∑ y ∈ Y, ∑ x' ∈ X, w i * ((f x * A i x y) * (f x' * A i x' y)) := sum_congr rfl fun i _ => sum_congr rfl fun x _ => sum_comm
    _ = ∑ i ∈ I, ∑ y ∈ Y, ∑ x ∈ X, ∑ x' ∈ X, w i * ((f x * A i x y) * (f x' * A i x' y)) := sum_congr rfl fun i _ => sum_comm
    _ = _ := by simp_rw [mul_sum]

theorem dens_trace : ∑ x ∈ X, dens Y I w A x x = ∑ i ∈ I, w i * ∑ x ∈ X, ∑ y ∈ Y, A i x y ^ 2 := by
  unfold dens
  rw [sum_comm]
  refine sum_congr rfl fun i _ => ?_
  rw [← mul_sum]
  congr 1
  exact sum_congr rfl fun x _ => sum_congr rfl fun y _ => (pow_two _).symm

/-- A singular value decomposition of the density matrix, in terms of entries. -/
structure IsSvdOf (X : Finset α) (Z : Finset ζ) (D : α → α → ℝ) (l : ζ → α → ℝ) (s : ζ → ℝ) (r : ζ → α → ℝ) : Prop where
  left : Ortho X Z l
  right : Ortho X Z r
  nonneg : ∀ z ∈ Z, 0 ≤ s z
  product : ∀ x ∈ X, ∀ x' ∈ X, ∑ z ∈ Z, l z x * s z * r z x' = D x x'

variable {l r : ζ → α → ℝ} {s : ζ → ℝ}

/-- Left and right singular vectors agree where the value is not zero: for a density matrix the decomposition is the spectral one. -/
theorem spectral (hw : ∀ i ∈ I, 0 ≤ w i) (h : IsSvdOf X Z (dens Y I w A) l s r) : ∀ z ∈ Z, ∀ x ∈ X, s z * r z x = s z * l z x := by
  intro z hz
  have hR : ∀ x ∈ X, ∑ x' ∈ X, dens Y I w A x x' * r z x' = s z * l z x := by
    intro x hx
    have : ∀ x' ∈ X, dens Y I w A x x' * r z x' = ∑ k ∈ Z, (l k x * s k) * (r k x' * r z x') := by
      intro x' hx'
      rw [← h.product x hx x' hx', sum_mul]
      exact sum_congr rfl fun k _ => by ring
    rw [sum_congr rfl this, sum_comm]
    have : ∀ k ∈ Z, ∑ x' ∈ X, (l k x * s k) * (r k x' * r z x') = if k = z then l k x * s k else 0 := by
      intro k hk
      rw [← mul_sum, h.right k hk z hz]
      split_ifs <;> simp
    rw [sum_congr rfl this, sum_ite_eq', if_pos hz, mul_comm]
  have hL : ∀ x ∈ X, ∑ x' ∈ X, dens Y I w A x x' * l z x' = s z * r z x := by
    intro x hx
    have : ∀ x' ∈ X, dens Y I w A x x' * l z x' = ∑ k ∈ Z, (r k x * s k) * (l k x' * l z x') := by
      intro x' hx'
      rw [dens_symm, ← h.product x' hx' x hx, sum_mul]
      exact sum_congr rfl fun k _ => by ring
    rw [sum_congr rfl this, sum_comm]
    have : ∀ k ∈ Z, ∑ x' ∈ X, (r k x * s k) * (l k x' * l z x') = if k = z then r k x * s k else 0 := by
      intro k hk
      rw [← mul_sum, h.left k hk z hz]
      split_ifs <;> simp
    rw [sum_congr rfl this, sum_ite_eq', if_pos hz, mul_comm]
  have key : ∑ x ∈ X, ∑ x' ∈ X, (l z x - r z x) * dens Y I w A x x' * (l z x' - r z x') = - (s z * ∑ x ∈ X, (l z x - r z x) ^ 2) := by
    rw [mul_sum, ← sum_neg_distrib]
    refine sum_congr rfl fun x hx => ?_
    have : ∀ x' ∈ X, (l z x - r z x) * dens Y I w A x x' * (l z x' - r z x') =
        (l z x - r z x) * (dens Y I w A x x' * l z x') - (l z x - r z x) * (dens Y I w A x x' * r z x') := by
      intro x' _; ring
    rw [sum_congr rfl this, sum_sub_distrib, ← mul_sum, ← mul_sum, hL x hx, hR x hx]
    ring
  have pos : 0 ≤ ∑ x ∈ X, ∑ x' ∈ X, (l z x - r z x) * dens Y I w A x x' * (l z x' - r z x') := by
    rw [dens_form fun x => l z x - r z x]
    exact sum_nonneg fun i hi => mul_nonneg (hw i hi) (sum_nonneg fun _ _ => sq_nonneg _)
  have sq0 : 0 ≤ ∑ x ∈ X, (l z x - r z x) ^ 2 := sum_nonneg fun _ _ => sq_nonneg _
  have zero : s z * ∑ x ∈ X, (l z x - r z x) ^ 2 = 0 := le_antisymm (by linarith) (mul_nonneg (h.nonneg z hz) sq0)
  intro x hx
  rcases mul_eq_zero.1 zero with h0 | h0
  · rw [h0]; ring
  · have := (sum_eq_zero_iff_of_nonneg fun _ _ => sq_nonneg _).1 h0 x hx
    have : l z x - r z x = 0 := by simpa using this
    rw [show r z x = l z x by linarith]

theorem spectral_form (hw : ∀ i ∈ I, 0 ≤ w i) (h : IsSvdOf X Z (dens Y I w A) l s r) : ∀ x ∈ X, ∀ x' ∈ X, dens Y I w A x x' = ∑ z ∈ Z, s z * (l z x * l z x') := by
  intro x hx x' hx'
  rw [← h.product x hx x' hx']
  refine sum_congr rfl fun z hz => ?_
  have := spectral hw h z hz x' hx'
  linear_combination l z x * this

/-- The weight of the states along a vector. -/
theorem weight_along (hw : ∀ i ∈ I, 0 ≤ w i) (h : IsSvdOf X Z (dens Y I w A) l s r) (f : α → ℝ) :
    ∑ i ∈ I, w i * ∑ y ∈ Y, (∑ x ∈ X, f x * A i x y) ^ 2 = ∑ z ∈ Z, s z * (∑ x ∈ X, l z x * f x) ^ 2 := by
  rw [← dens_form]
  have : ∀ x ∈ X, ∀ x' ∈ X, f x * dens Y I w A x x' * f x' = ∑ z ∈ Z, s z * ((l z x * f x) * (l z x' * f x')) := by
    intro x hx x' hx'
    rw [spectral_form hw h x hx x' hx', mul_sum, sum_mul]
    exact sum_congr rfl fun z _ => by ring
  rw [sum_congr rfl fun x hx => sum_congr rfl (this x hx)]
  calc _ = ∑ x ∈ X, ∑ z ∈ Z, ∑ x' ∈ X, s z * ((l z x * f x) * (l z x' * f x')) := sum_congr rfl fun x _ => sum_comm
    _ = ∑ z ∈ Z, ∑ x ∈ X, ∑ x' ∈ X, s z * ((l z x * f x) * (l z x' * f x')) := sum_comm
    _ = _ := by
      refine sum_congr rfl fun z _ => ?_
      rw [pow_two, sum_mul, mul_sum]
      refine sum_congr rfl fun x _ => ?_
      rw [mul_sum, mul_sum]

/-- All the weight is in the values. -/
theorem weight_total (hw : ∀ i ∈ I, 0 ≤ w i) (h : IsSvdOf X Z (dens Y I w A) l s r) :
    ∑ i ∈ I, w i * ∑ x ∈ X, ∑ y ∈ Y, A i x y ^ 2 = ∑ z ∈ Z, s z := by
  rw [← dens_trace, sum_congr rfl fun x hx => spectral_form hw h x hx x hx, sum_comm]
  refine sum_congr rfl fun z hz => ?_
  rw [← mul_sum, h.left z hz z hz, if_pos rfl, mul_one]

/-- Weighted square distance of the states from their projections to the space of the vectors `q`. -/
def lost (X : Finset α) (Y : Finset β) (I : Finset ι) (w : ι → ℝ) (A : ι → α → β → ℝ) (J : Finset κ) (q : κ → α → ℝ) : ℝ :=
  ∑ i ∈ I, w i * ∑ x ∈ X, ∑ y ∈ Y, (A i x y - ∑ j ∈ J, q j x * ∑ x' ∈ X, q j x' * A i x' y) ^ 2

theorem lost_eq (hw : ∀ i ∈ I, 0 ≤ w i) (h : IsSvdOf X Z (dens Y I w A) l s r) {q : κ → α → ℝ} (hq : Ortho X J q) :
    lost X Y I w A J q = ∑ z ∈ Z, s z - ∑ z ∈ Z, s z * ∑ j ∈ J, (∑ x ∈ X, l z x * q j x) ^ 2 := by
  have e : lost X Y I w A J q = ∑ i ∈ I, w i * ∑ x ∈ X, ∑ y ∈ Y, A i x y ^ 2 - ∑ j ∈ J, ∑ i ∈ I, w i * ∑ y ∈ Y, (∑ x ∈ X, q j x * A i x y) ^ 2 := by
    unfold lost
    rw [sum_comm (s := J), ← sum_sub_distrib]
    refine sum_congr rfl fun i _ => ?_
    rw [← mul_sum, ← mul_sub]
    congr 1
    rw [sum_comm, sum_comm (s := J), sum_comm (s := X), ← sum_sub_distrib]
    exact sum_congr rfl fun y _ => ortho_rest hq fun x => A i x y
  rw [e, weight_total hw h, sum_congr rfl fun j _ => weight_along hw h (q j), sum_comm]
  congr 1
  exact sum_congr rfl fun z _ => by rw [mul_sum]

/-- Projection to some of the singular vectors loses the sum of the other values. -/
theorem lost_svd (hw : ∀ i ∈ I, 0 ≤ w i) (h : IsSvdOf X Z (dens Y I w A) l s r) {K : Finset ζ} (hK : K ⊆ Z) : lost X Y I w A K l = ∑ z ∈ Z \ K, s z := by
  rw [lost_eq hw h (fun j hj k hk => h.left j (hK hj) k (hK hk))]
  have : ∀ z ∈ Z, s z * ∑ j ∈ K, (∑ x ∈ X, l z x * l j x) ^ 2 = if z ∈ K then s z else 0 := by
    intro z hz
    have : ∀ j ∈ K, (∑ x ∈ X, l z x * l j x) ^ 2 = if z = j then 1 else 0 := by
      intro j hj
      rw [h.left z hz j (hK hj)]
      split_ifs <;> simp
    rw [sum_congr rfl this, sum_ite_eq]
    split_ifs <;> simp
  rw [sum_congr rfl this, ← sum_filter, filter_mem_eq_inter, inter_eq_right.2 hK, ← sum_sdiff hK]
  ring

/-- No family of orthonormal vectors that is not larger loses less, if the values kept are the largest. -/
theorem lost_least (hw : ∀ i ∈ I, 0 ≤ w i) (h : IsSvdOf X Z (dens Y I w A) l s r) {K : Finset ζ} (hK : K ⊆ Z)
    (hbig : ∀ z ∈ K, ∀ z' ∈ Z \ K, s z' ≤ s z) {q : κ → α → ℝ} (hq : Ortho X J q) (hc : J.card ≤ K.card) : lost X Y I w A K l ≤ lost X Y I w A J q := by
  rw [lost_svd hw h hK, lost_eq hw h hq, ← sum_sdiff hK (f := s), ← sum_sdiff hK (f := fun z => s z * _)]
  set c : ζ → ℝ := fun z => ∑ j ∈ J, (∑ x ∈ X, l z x * q j x) ^ 2 with hcdef
  have c0 : ∀ z, 0 ≤ c z := fun z => sum_nonneg fun _ _ => sq_nonneg _
  have c1 : ∀ z ∈ Z, c z ≤ 1 := by
    intro z hz
    have := bessel hq (l z)
    have e : ∑ x ∈ X, l z x ^ 2 = 1 := by
      have := h.left z hz z hz
      rw [if_pos rfl] at this
      rw [← this]
      exact sum_congr rfl fun x _ => pow_two _
    rw [e] at this
    refine le_trans (le_of_eq ?_) this
    exact sum_congr rfl fun j _ => by
      congr 1
      exact sum_congr rfl fun x _ => mul_comm _ _
  have ct : ∑ z ∈ Z, c z ≤ K.card := by
    have e : ∑ z ∈ Z, c z = ∑ j ∈ J, ∑ z ∈ Z, (∑ x ∈ X, l z x * q j x) ^ 2 := sum_comm
    rw [e]
    have : ∀ j ∈ J, ∑ z ∈ Z, (∑ x ∈ X, l z x * q j x) ^ 2 ≤ 1 := by
      intro j hj
      refine le_trans (bessel h.left (q j)) (le_of_eq ?_)
      have := hq j hj j hj
      rw [if_pos rfl] at this
      rw [← this]
      exact sum_congr rfl fun x _ => pow_two _
    refine le_trans (sum_le_sum this) ?_
    simpa using hc
  rw [← sum_sdiff hK] at ct
  -- a value between the kept and the dropped ones
  obtain ⟨t, t1, t2⟩ : ∃ t, (∀ z ∈ K, t ≤ s z) ∧ ∀ z ∈ Z \ K, s z ≤ t ∧ 0 ≤ t := by
    by_cases hne : (Z \ K).Nonempty
    · obtain ⟨m, hm, hmax⟩ := exists_max_image (Z \ K) s hne
      exact ⟨s m, fun z hz => hbig z hz m hm, fun z hz => ⟨hmax z hz, h.nonneg m (mem_sdiff.1 hm).1⟩⟩
    · refine ⟨0, fun z hz => h.nonneg z (hK hz), fun z hz => absurd ⟨z, hz⟩ hne⟩
  have b1 : t * (K.card - ∑ z ∈ K, c z) ≤ ∑ z ∈ K, s z - ∑ z ∈ K, s z * c z := by
    have e : (K.card : ℝ) - ∑ z ∈ K, c z = ∑ z ∈ K, (1 - c z) := by simp
    rw [e, mul_sum, ← sum_sub_distrib]
    refine sum_le_sum fun z hz => ?_
    have := mul_le_mul_of_nonneg_right (t1 z hz) (sub_nonneg.2 (c1 z (hK hz)))
    linarith
  have b2 : ∑ z ∈ Z \ K, s z * c z ≤ t * ∑ z ∈ Z \ K, c z := by
    rw [mul_sum]
    exact sum_le_sum fun z hz => mul_le_mul_of_nonneg_right (t2 z hz).1 (c0 z)
  by_cases hne : (Z \ K).Nonempty
  · obtain ⟨m, hm⟩ := hne
    have b3 : t * ∑ z ∈ Z \ K, c z ≤ t * (K.card - ∑ z ∈ K, c z) := mul_le_mul_of_nonneg_left (by linarith) (t2 m hm).2
    linarith
  · have : Z \ K = ∅ := not_nonempty_iff_eq_empty.1 hne
    rw [this]
    simp only [sum_empty, zero_add]
    have : ∑ z ∈ K, s z * c z ≤ ∑ z ∈ K, s z := sum_le_sum fun z hz => by
      have := mul_le_mul_of_nonneg_left (c1 z (hK hz)) (h.nonneg z (hK hz))
      linarith
    linarith

end DensMat
end Verif
