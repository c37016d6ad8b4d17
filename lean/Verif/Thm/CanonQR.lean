import Mathlib.Analysis.InnerProductSpace.GramSchmidtOrtho
import Mathlib.Analysis.InnerProductSpace.PiL2
import Verif.Thm.Canon

/-! C21: the contract of the dense routine can be met, and what is lost without a definite charge. -/

set_option linter.unusedSectionVars false

namespace Verif
section

theorem sum_fin_range {M : Type} [AddCommMonoid M] (n : Nat) (f : Nat → M) : ∑ i : Fin n, f i = ((List.range n).map f).sum := by
  rw [Fin.sum_univ_eq_sum_range f n]
  rfl

open scoped InnerProductSpace in
/-- Every real or complex matrix has a reduced QR factorisation. -/
theorem exists_qr {𝕜 : Type} [RCLike 𝕜] (a : Arr 𝕜) (m n : Nat) :
    ∃ q r : List Nat → 𝕜,
      (∀ i < m, ∀ j < n, ((List.range (min m n)).map fun t => q [i, t] * r [t, j]).sum = a.get [i, j]) ∧
      ∀ s < min m n, ∀ t < min m n, ((List.range m).map fun i => star (q [i, s]) * q [i, t]).sum = if s = t then 1 else 0 := by
  let f : Fin m → EuclideanSpace 𝕜 (Fin m) := fun j => WithLp.toLp 2 fun i => if (j : Nat) < n then a.get [i, j] else 0
  let c : Nat → EuclideanSpace 𝕜 (Fin m) := fun j => WithLp.toLp 2 fun i => a.get [i, j]
  let b := InnerProductSpace.gramSchmidtOrthonormalBasis (𝕜 := 𝕜) (E := EuclideanSpace 𝕜 (Fin m)) (ι := Fin m) (by simp) f
  let q : Nat → Nat → 𝕜 := fun i t => if h : i < m ∧ t < m then b ⟨t, h.2⟩ ⟨i, h.1⟩ else 0
  let r : Nat → Nat → 𝕜 := fun t j => if h : t < m then ⟪b ⟨t, h⟩, c j⟫_𝕜 else 0
  refine ⟨fun l => q (l.getD 0 0) (l.getD 1 0), fun l => r (l.getD 0 0) (l.getD 1 0), ?_, ?_⟩
  · intro i hi j hj
    show ((List.range (min m n)).map fun t => q i t * r t j).sum = _
    have h1 : ((List.range m).map fun t => q i t * r t j).sum = a.get [i, j] := by
      rw [← sum_fin_range]
      have := congrArg (fun v : EuclideanSpace 𝕜 (Fin m) => v ⟨i, hi⟩) (b.sum_repr' (c j))
      simp only [WithLp.ofLp_sum, Finset.sum_apply, WithLp.ofLp_smul, Pi.smul_apply, smul_eq_mul] at this
      refine Eq.trans ?_ this
      apply Finset.sum_congr rfl
      intro t _
      simp only [q, r, hi, t.2, and_self, dite_true, Fin.eta]
      ring
    rw [← h1]
    rcases Nat.le_total m n with hmn | hmn
    · rw [min_eq_left hmn]
    · rw [min_eq_right hmn]
      obtain ⟨d, rfl⟩ := Nat.exists_eq_add_of_le hmn
      rw [List.range_add, List.map_append, List.sum_append]
      rw [show ((List.map (fun x => n + x) (List.range d)).map fun t => q i t * r t j).sum = 0 from ?_]
      · simp
      apply List.sum_eq_zero
      intro x hx
      obtain ⟨t, ht, rfl⟩ := List.mem_map.1 hx
      obtain ⟨u, hu, rfl⟩ := List.mem_map.1 ht
      have hu' : n + u < n + d := by simp at hu; omega
      have hz : r (n + u) j = 0 := by
        simp only [r, hu', dite_true]
        have := InnerProductSpace.gramSchmidtOrthonormalBasis_inv_triangular (𝕜 := 𝕜) (E := EuclideanSpace 𝕜 (Fin (n + d))) (ι := Fin (n + d))
          (by simp) f (i := ⟨j, by omega⟩) (j := ⟨n + u, hu'⟩) (by simp [Fin.lt_def]; omega)
        have hc : f ⟨j, by omega⟩ = c j := by
          simp [f, c, hj]
        rw [hc] at this
        exact this
      rw [hz, mul_zero]
  · intro s hs t ht
    show ((List.range m).map fun i => star (q i s) * q i t).sum = _
    have hs' : s < m := by omega
    have ht' : t < m := by omega
    rw [← sum_fin_range]
    have := b.inner_eq_ite ⟨s, hs'⟩ ⟨t, ht'⟩
    rw [PiLp.inner_apply] at this
    refine Eq.trans ?_ (this.trans (by simp))
    apply Finset.sum_congr rfl
    intro i _
    simp only [q, i.2, hs', ht', and_self, dite_true, Fin.eta]
    rw [RCLike.inner_apply', RCLike.star_def]

/-- C21: over the real and over the complex numbers the contracts assumed of the dense routine can be met. -/
theorem C21_contract (𝕜 : Type) [RCLike 𝕜] : ∃ qr : Arr 𝕜 → Arr 𝕜 × Arr 𝕜, Factorises qr ∧ OrthonormalColumns qr := by
  choose q r h1 h2 using fun a : Arr 𝕜 => exists_qr a (a.shape.getD 0 0) (a.shape.getD 1 0)
  let k : Arr 𝕜 → Nat := fun a => min (a.shape.getD 0 0) (a.shape.getD 1 0)
  refine ⟨fun a => (⟨[a.shape.getD 0 0, k a], q a⟩, ⟨[k a, a.shape.getD 1 0], r a⟩), ⟨?_, ?_, ?_⟩, ?_⟩
  · intro a m n hs _ _
    simp [k, hs]
  · intro a m n hs _ _
    simp [k, hs]
  · intro a m n hs _ _
    have := h1 a
    simpa [hs] using this
  · intro a m n hs _ _
    have := h2 a
    simpa [hs] using this

/-! ### Without a definite charge -/

/-- A matrix with one row label and two column labels: it has no definite charge. -/
def mixedT : SpT Int ℝ := [([0, 0], ⟨[1, 1], fun _ => 1⟩), ([0, 1], ⟨[1, 1], fun _ => 1⟩)]

/-- C21: the isometry needs the definite charge.  The blocks are grouped by the label of the last bond only, so for a tensor that mixes charges
the first factor is not an isometry, whatever the dense routine returns. -/
theorem C21_charge_needed (qr : Arr ℝ → Arr ℝ × Arr ℝ) :
    Conforms [[(0, 1)], [(0, 1), (1, 1)]] mixedT ∧ UniqueLabels mixedT ∧
      ¬ LeftIsometric [[(0, 1)]] [(0, 1), (1, 1)] (SpT.leftCanonicalize qr mixedT).1 := by
  refine ⟨?_, by simp [UniqueLabels, mixedT], ?_⟩
  · intro b hb
    simp [mixedT] at hb
    rcases hb with rfl | rfl <;> decide
  · intro h
    have h0 := h (0, 0) (by simp [legBasis]) (0, 0) (by simp [legBasis])
    have h1 := h (1, 0) (by simp [legBasis]) (1, 0) (by simp [legBasis])
    have h2 := h (0, 0) (by simp [legBasis]) (1, 0) (by simp [legBasis])
    simp [legIndices, legBasis, cart] at h0 h1 h2
    rcases h2 with h2 | h2
    · rw [h2] at h0; simp at h0
    · rw [h2] at h1; simp at h1

/-! ### Concrete cases -/

/-- A routine meeting the product contract over any ring (its columns are orthogonal only for wide matrices). -/
def plainQR {K : Type} [CommRing K] (a : Arr K) : Arr K × Arr K :=
  let m := a.shape.getD 0 0
  let n := a.shape.getD 1 0
  if m ≤ n then (⟨[m, m], fun l => if l.getD 0 0 = l.getD 1 0 then 1 else 0⟩, a)
  else (a, ⟨[n, n], fun l => if l.getD 0 0 = l.getD 1 0 then 1 else 0⟩)

theorem plainQR_factorises {K : Type} [CommRing K] : Factorises (plainQR (K := K)) := by
  refine ⟨?_, ?_, ?_⟩
  · intro a m n hs _ _
    by_cases h : m ≤ n
    · simp [plainQR, hs, h]
    · simp [plainQR, hs, h]; omega
  · intro a m n hs _ _
    by_cases h : m ≤ n
    · simp [plainQR, hs, h]
    · simp [plainQR, hs, h]; omega
  · intro a m n hs _ _ i hi j hj
    by_cases h : m ≤ n
    · rw [min_eq_left h, ← sum_fin_range]
      simp only [plainQR, hs, List.getD_cons_zero, List.getD_cons_succ, h, if_true, ite_mul, one_mul, zero_mul]
      rw [Finset.sum_eq_single ⟨i, hi⟩]
      · simp
      · intro b _ hb
        rw [if_neg]
        intro e
        exact hb (Fin.ext e.symm)
      · simp
    · rw [min_eq_right (by omega), ← sum_fin_range]
      simp only [plainQR, hs, List.getD_cons_zero, List.getD_cons_succ, h, if_false, mul_ite, mul_one, mul_zero]
      rw [Finset.sum_eq_single ⟨j, hj⟩]
      · simp
      · intro b _ hb
        rw [if_neg]
        intro e
        exact hb (Fin.ext e)
      · simp

/-- Three sites, the middle bond has two labels, one of them with two states. -/
def canonMps : Mps Int Int := ⟨[
  [([0, 0, 0], ⟨[1, 1, 1], fun _ => 2⟩), ([0, 1, 1], ⟨[1, 2, 2], fun l => (l.getD 1 0 + 2 * l.getD 2 0 + 1 : Nat)⟩)],
  [([0, 1, 1], ⟨[1, 2, 1], fun l => (l.getD 1 0 + 3 : Nat)⟩), ([1, 0, 1], ⟨[2, 1, 1], fun l => (5 - l.getD 0 0 : Nat)⟩)],
  [([1, 1, 2], ⟨[1, 2, 1], fun l => (l.getD 1 0 + 7 : Nat)⟩)]], 6⟩

def canonPhys : List (List (BondInfo Int)) := [[[(0, 1), (1, 2)]], [[(0, 1), (1, 2)]], [[(0, 1), (1, 2)]]]

/-- The hypotheses of `C21_canonicalize` hold for this state and the last site as the centre. -/
example : ∃ X' b, canonMps.canonicalize plainQR (-1) = some b ∧ b.const = 6 ∧
    ∀ x ps y, List.Forall₂ (fun (p : List (Int × Nat)) ph => p.length = ph.length) ps canonPhys →
      ampl b.tensors X' x ps y = ampl canonMps.tensors [[(0, 1), (1, 2)], [(1, 1)]] x ps y := by
  obtain ⟨X', b, h1, h2, _, _, h3, _⟩ := C21_canonicalize plainQR plainQR_factorises [(0, 1)] [(2, 1)] [[(0, 1), (1, 2)], [(1, 1)]] canonPhys canonMps (-1) 2
    (by decide) (by decide) ⟨by decide, by decide, by decide, trivial⟩
    (by intro b hb
        simp at hb
        rcases hb with rfl | rfl | rfl | rfl <;> simp [GoodBond, Dict.WF, Dict.keys])
    (by intro ph hph b hb
        simp [canonPhys] at hph
        subst hph
        simp at hb
        subst hb
        simp [GoodBond, Dict.WF, Dict.keys])
  exact ⟨X', b, h1, h2, h3⟩

/-- Its first tensor has a definite charge. -/
example : HasCharge 3 (canonMps.tensors.getD 0 []) := ⟨[true, true, false], 0, rfl, by decide⟩

end
end Verif
