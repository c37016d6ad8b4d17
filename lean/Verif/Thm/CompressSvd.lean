import Mathlib.Analysis.Matrix.Spectrum
import Mathlib.Analysis.Matrix.PosDef
import Verif.Thm.CanonQR
import Verif.Thm.Compress

/-! C50: the contract of the dense decomposition can be met. -/

set_option linter.unusedSectionVars false

namespace Verif
section
open scoped InnerProductSpace ComplexOrder
open Matrix

theorem svd_tall {𝕜 : Type} [RCLike 𝕜] {m n : Nat} (h : n ≤ m) (A : Matrix (Fin m) (Fin n) 𝕜) :
    ∃ (u : Fin m → Fin m → 𝕜) (v : Fin n → Fin n → 𝕜) (σ : Fin n → ℝ),
      (∀ i j, A i j = ∑ t : Fin n, u i (Fin.castLE h t) * (σ t : 𝕜) * star (v j t)) ∧
      (∀ s t, ∑ i, star (u i s) * u i t = if s = t then 1 else 0) ∧
      (∀ s t, ∑ i, star (v i s) * v i t = if s = t then 1 else 0) ∧ ∀ t, 0 ≤ σ t := by
  have hA : (Aᴴ * A).IsHermitian := isHermitian_conjTranspose_mul_self A
  let v := hA.eigenvectorBasis
  let lam := hA.eigenvalues
  have hlam : ∀ j, 0 ≤ lam j := (posSemidef_conjTranspose_mul_self A).eigenvalues_nonneg
  let w : Fin n → EuclideanSpace 𝕜 (Fin m) := fun j => WithLp.toLp 2 (A *ᵥ (v j).ofLp)
  have hw : ∀ s t, ⟪w s, w t⟫_𝕜 = if s = t then (lam t : 𝕜) else 0 := by
    intro s t
    have h1 : ⟪w s, w t⟫_𝕜 = star (v s).ofLp ⬝ᵥ ((Aᴴ * A) *ᵥ (v t).ofLp) := by
      rw [EuclideanSpace.inner_eq_star_dotProduct, dotProduct_comm]
      simp only [w]
      rw [star_mulVec, ← mulVec_mulVec, dotProduct_mulVec, dotProduct_mulVec, dotProduct_mulVec]
    rw [h1, hA.mulVec_eigenvectorBasis, dotProduct_smul]
    have h2 := v.inner_eq_ite s t
    rw [EuclideanSpace.inner_eq_star_dotProduct, dotProduct_comm] at h2
    rw [h2]
    split <;> simp [lam, RCLike.real_smul_eq_coe_mul]
  let f : Fin m → EuclideanSpace 𝕜 (Fin m) := fun i => if hi : (i : Nat) < n then ((Real.sqrt (lam ⟨i, hi⟩) : 𝕜)⁻¹) • w ⟨i, hi⟩ else 0
  let S : Set (Fin m) := {i | ∃ hi : (i : Nat) < n, lam ⟨i, hi⟩ ≠ 0}
  have horth : Orthonormal 𝕜 (S.domRestrict f) := by
    rw [orthonormal_iff_ite]
    rintro ⟨s, hs, hs'⟩ ⟨t, ht, ht'⟩
    simp only [Set.domRestrict_apply, f, hs, ht, dite_true, inner_smul_left, inner_smul_right, hw]
    by_cases e : s = t
    · subst e
      have hne : (Real.sqrt (lam ⟨s, hs⟩) : 𝕜) ≠ 0 := by
        rw [Ne, RCLike.ofReal_eq_zero, Real.sqrt_eq_zero (hlam _)]
        exact hs'
      have hsq : (lam ⟨s, hs⟩ : 𝕜) = (Real.sqrt (lam ⟨s, hs⟩) : 𝕜) * (Real.sqrt (lam ⟨s, hs⟩) : 𝕜) := by
        rw [← RCLike.ofReal_mul, Real.mul_self_sqrt (hlam _)]
      simp only [if_true, map_inv₀, RCLike.conj_ofReal]
      rw [hsq]
      field_simp
    · rw [if_neg (by intro e'; apply e; exact Fin.ext (by simpa using e')), if_neg (by intro e'; exact e (by simpa using e'))]
      simp
  obtain ⟨b, hb⟩ := horth.exists_orthonormalBasis_extension_of_card_eq (by simp)
  have key : ∀ t : Fin n, w t = (Real.sqrt (lam t) : 𝕜) • b (Fin.castLE h t) := by
    intro t
    by_cases ht : lam t = 0
    · have : ⟪w t, w t⟫_𝕜 = 0 := by rw [hw]; simp [ht]
      rw [inner_self_eq_zero.1 this, ht]
      simp
    · rw [hb (Fin.castLE h t) ⟨by simp, by simpa using ht⟩]
      have hne : (Real.sqrt (lam t) : 𝕜) ≠ 0 := by
        rw [Ne, RCLike.ofReal_eq_zero, Real.sqrt_eq_zero (hlam _)]
        exact ht
      simp [f, smul_smul, hne]
  have orth : ∀ {k : Nat} (b : OrthonormalBasis (Fin k) 𝕜 (EuclideanSpace 𝕜 (Fin k))) (s t : Fin k), ∑ i, star (b s i) * b t i = if s = t then 1 else 0 := by
    intro k b s t
    have := b.inner_eq_ite s t
    rw [PiLp.inner_apply] at this
    rw [← this]
    apply Finset.sum_congr rfl
    intro i _
    rw [RCLike.inner_apply', RCLike.star_def]
  refine ⟨fun i t => b t i, fun j t => v t j, fun t => Real.sqrt (lam t), ?_, fun s t => orth b s t, fun s t => orth v s t, fun t => Real.sqrt_nonneg _⟩
  intro i j
  have h1 : ∀ t, b (Fin.castLE h t) i * (Real.sqrt (lam t) : 𝕜) = ∑ k, A i k * v t k := by
    intro t
    have := congrArg (fun x : EuclideanSpace 𝕜 (Fin m) => x i) (key t)
    simp only [w, WithLp.ofLp_smul, Pi.smul_apply, smul_eq_mul] at this
    rw [mul_comm, ← this]
    rfl
  simp only [h1, Finset.sum_mul]
  rw [Finset.sum_comm]
  have h3 : ∀ k, ∑ t, v t k * star (v t j) = if k = j then 1 else 0 := by
    intro k
    have := congrArg (fun x : EuclideanSpace 𝕜 (Fin n) => x k) (v.sum_repr' (EuclideanSpace.single j 1))
    simp only [WithLp.ofLp_sum, Finset.sum_apply, WithLp.ofLp_smul, Pi.smul_apply, smul_eq_mul, EuclideanSpace.inner_single_right, one_mul] at this
    rw [show (EuclideanSpace.single j (1 : 𝕜)) k = if k = j then 1 else 0 by simp [Pi.single_apply]] at this
    rw [← this]
    apply Finset.sum_congr rfl
    intro t _
    rw [mul_comm]
    rfl
  have h4 : ∀ k, ∑ t, A i k * v t k * star (v t j) = if k = j then A i k else 0 := by
    intro k
    simp only [mul_assoc]
    rw [← Finset.mul_sum, h3]
    simp
  rw [Finset.sum_congr rfl fun k _ => h4 k]
  simp

/-- Every real or complex matrix has a reduced singular value decomposition. -/
theorem exists_svd {𝕜 : Type} [RCLike 𝕜] (a : Arr 𝕜) (m n : Nat) :
    ∃ (u : List Nat → 𝕜) (s : List Nat → ℝ) (w : List Nat → 𝕜),
      (∀ i < m, ∀ j < n, ((List.range (min m n)).map fun t => u [i, t] * (s [t] : 𝕜) * w [t, j]).sum = a.get [i, j]) ∧
      (∀ p < min m n, ∀ t < min m n, ((List.range m).map fun i => star (u [i, p]) * u [i, t]).sum = if p = t then 1 else 0) ∧
      (∀ p < min m n, ∀ t < min m n, ((List.range n).map fun j => star (w [p, j]) * w [t, j]).sum = if p = t then 1 else 0) ∧ ∀ l, 0 ≤ s l := by
  let ext : ∀ {k l : Nat}, (Fin k → Fin l → 𝕜) → Nat → Nat → 𝕜 := fun {k l} f i j => if h : i < k ∧ j < l then f ⟨i, h.1⟩ ⟨j, h.2⟩ else 0
  let extv : ∀ {k : Nat}, (Fin k → ℝ) → Nat → ℝ := fun {k} f i => if h : i < k then f ⟨i, h⟩ else 0
  have hsum : ∀ {k l : Nat} (f : Fin k → Fin l → 𝕜) p t (hp : p < l) (ht : t < l),
      ((List.range k).map fun i => star (ext f i p) * ext f i t).sum = ∑ i, star (f i ⟨p, hp⟩) * f i ⟨t, ht⟩ := by
    intro k l f p t hp ht
    rw [← sum_fin_range]
    apply Finset.sum_congr rfl
    intro i _
    simp [ext, hp, ht]
  rcases Nat.le_total n m with h | h
  · obtain ⟨u, v, σ, h1, h2, h3, h4⟩ := svd_tall h (fun (i : Fin m) (j : Fin n) => a.get [i, j])
    rw [min_eq_right h]
    refine ⟨fun l => ext u (l.getD 0 0) (l.getD 1 0), fun l => extv σ (l.getD 0 0), fun l => star (ext v (l.getD 1 0) (l.getD 0 0)), ?_, ?_, ?_, fun l => by
        show 0 ≤ extv σ (l.getD 0 0)
        simp only [extv]
        split
        · exact h4 _
        · exact le_refl _⟩
    · intro i hi j hj
      show ((List.range n).map fun t => ext u i t * (extv σ t : 𝕜) * star (ext v j t)).sum = _
      rw [← sum_fin_range]
      refine Eq.trans ?_ (h1 ⟨i, hi⟩ ⟨j, hj⟩).symm
      apply Finset.sum_congr rfl
      intro t _
      have ht : (t : Nat) < m := by omega
      simp [ext, extv, hi, hj, ht, Fin.castLE]
    · intro p hp t ht
      refine (hsum u p t (by omega) (by omega)).trans ((h2 _ _).trans ?_)
      simp
    · intro p hp t ht
      have := hsum v t p ht hp
      show ((List.range n).map fun j => star (star (ext v j p)) * star (ext v j t)).sum = _
      rw [show (fun j => star (star (ext v j p)) * star (ext v j t)) = fun j => star (ext v j t) * ext v j p by
        funext j; rw [star_star, mul_comm]]
      refine this.trans ((h3 _ _).trans ?_)
      simp [eq_comm]
  · obtain ⟨u, v, σ, h1, h2, h3, h4⟩ := svd_tall h (fun (j : Fin n) (i : Fin m) => star (a.get [i, j]))
    rw [min_eq_left h]
    refine ⟨fun l => ext v (l.getD 0 0) (l.getD 1 0), fun l => extv σ (l.getD 0 0), fun l => star (ext u (l.getD 1 0) (l.getD 0 0)), ?_, ?_, ?_, fun l => by
        show 0 ≤ extv σ (l.getD 0 0)
        simp only [extv]
        split
        · exact h4 _
        · exact le_refl _⟩
    · intro i hi j hj
      show ((List.range m).map fun t => ext v i t * (extv σ t : 𝕜) * star (ext u j t)).sum = _
      rw [← sum_fin_range]
      have := congrArg star (h1 ⟨j, hj⟩ ⟨i, hi⟩)
      rw [star_star] at this
      refine Eq.trans ?_ this.symm
      rw [star_sum]
      apply Finset.sum_congr rfl
      intro t _
      have ht : (t : Nat) < n := by omega
      simp [ext, extv, hi, hj, ht, Fin.castLE]
      ring
    · intro p hp t ht
      refine (hsum v p t (by omega) (by omega)).trans ((h3 _ _).trans ?_)
      simp
    · intro p hp t ht
      have := hsum u t p (by omega) (by omega)
      show ((List.range n).map fun j => star (star (ext u j p)) * star (ext u j t)).sum = _
      rw [show (fun j => star (star (ext u j p)) * star (ext u j t)) = fun j => star (ext u j t) * ext u j p by
        funext j; rw [star_star, mul_comm]]
      refine this.trans ((h2 _ _).trans ?_)
      simp [eq_comm]

/-- C50: over the real and over the complex numbers the contract assumed of the dense decomposition can be met. -/
theorem C50_contract (𝕜 : Type) [RCLike 𝕜] : ∃ svd : Arr 𝕜 → Arr 𝕜 × Arr ℝ × Arr 𝕜, IsSvd (algebraMap ℝ 𝕜) svd ∧ SvdUnitary svd := by
  choose u s w h1 h2 h3 _ using fun a : Arr 𝕜 => exists_svd a (a.shape.getD 0 0) (a.shape.getD 1 0)
  let k : Arr 𝕜 → Nat := fun a => min (a.shape.getD 0 0) (a.shape.getD 1 0)
  refine ⟨fun a => (⟨[a.shape.getD 0 0, k a], u a⟩, ⟨[k a], s a⟩, ⟨[k a, a.shape.getD 1 0], w a⟩), ⟨?_, ?_, ?_, ?_⟩, ⟨?_, ?_⟩⟩
  · intro a m n hs _ _
    simp [k, hs]
  · intro a m n hs _ _
    simp [k, hs]
  · intro a m n hs _ _
    simp [k, hs]
  · intro a m n hs _ _
    have := h1 a
    simpa [hs] using this
  · intro a m n hs _ _
    have := h2 a
    simpa [hs] using this
  · intro a m n hs _ _
    have := h3 a
    simpa [hs] using this

/-! ### Concrete cases -/

/-- Three sites over the reals; both bonds have more than one state. -/
def comprMps : Mps Int ℝ := ⟨[
  [([0, 0, 0], ⟨[1, 1, 1], fun _ => 2⟩), ([0, 1, 1], ⟨[1, 2, 2], fun l => (l.getD 1 0 + 2 * l.getD 2 0 + 1 : Nat)⟩)],
  [([0, 1, 1], ⟨[1, 2, 2], fun l => (l.getD 1 0 + 3 : Nat)⟩), ([1, 0, 1], ⟨[2, 1, 2], fun l => (5 - l.getD 0 0 : Nat)⟩)],
  [([1, 1, 2], ⟨[2, 2, 1], fun l => (l.getD 1 0 + 7 : Nat)⟩)]], 6⟩

def comprPhys : List (List (BondInfo Int)) := [[[(0, 1), (1, 2)]], [[(0, 1), (1, 2)]], [[(0, 1), (1, 2)]]]

/-- All hypotheses of `C50_compress` hold for this state, cut down to one state per bond, in both directions. -/
example (left : Bool) : ∃ X' b err qr svd, comprMps.compress (algebraMap ℝ ℝ) qr svd ⟨1, 0, 0, false⟩ Real.sqrt (fun _ => true) left = some (b, err) ∧
    b.const = 6 ∧ OnBonds ([(0, 1)] :: X' ++ [[(2, 1)]]) comprPhys b.tensors ∧ (∀ b ∈ X', (legBasis b).length ≤ 1) ∧
    ∃ D : ℝ, sqDist [(0, 1)] [(2, 1)] comprPhys (ampl comprMps.tensors [[(0, 1), (1, 2)], [(1, 2)]]) (ampl b.tensors X') = D ∧ err ≤ D ∧ D ≤ 2 * err := by
  obtain ⟨qr, q1, q2⟩ := C21_contract ℝ
  obtain ⟨svd, s1, s2⟩ := C50_contract ℝ
  obtain ⟨X', b, err, h1, h2, h3, _, h5, _, h7⟩ := C50_compress (algebraMap ℝ ℝ) qr q1 svd s1 ⟨1, 0, 0, false⟩ Real.sqrt (fun _ => true)
    (fun _ _ _ h => by simp at h) left [(0, 1)] [(2, 1)] [[(0, 1), (1, 2)], [(1, 2)]] comprPhys comprMps ⟨by decide, by decide, by decide, trivial⟩
    (by intro b hb
        simp at hb
        rcases hb with rfl | rfl | rfl | rfl <;> simp [GoodBond, Dict.WF])
    (by intro ph hph b hb
        simp [comprPhys] at hph
        subst hph
        simp at hb
        subst hb
        simp [GoodBond, Dict.WF])
  obtain ⟨_, _, h8⟩ := h7 (by simp) q2 s2 (by
      intro T hT
      simp [comprMps] at hT
      rcases hT with rfl | rfl | rfl <;> simp [UniqueLabels])
    (by intro i hi
        have hi' : i = 0 ∨ i = 1 ∨ i = 2 := by simp [comprMps] at hi; omega
        rcases hi' with rfl | rfl | rfl
        · exact ⟨[true, true, false], 0, rfl, by decide⟩
        · exact ⟨[true, true, false], 0, rfl, by decide⟩
        · exact ⟨[true, true, false], 0, rfl, by decide⟩)
  obtain ⟨D, d1, d2, d3⟩ := h8 rfl
  exact ⟨X', b, err, qr, svd, h1, h2, h3, fun b hb => h5 (by decide) b hb, D, by simpa using d1, d2, by simpa using d3⟩

end
end Verif
