import Verif.Proof.Entangle
import Verif.Thm.CompressSvd
import Mathlib.Analysis.Matrix.PosDef

/-! C75: the bipartite entanglement of a matrix product state. -/

set_option linter.unusedSectionVars false

namespace Verif
section
open Matrix
open scoped ComplexOrder
variable {Q 𝕜 : Type} [DecidableEq Q] [AddCommGroup Q] [RCLike 𝕜]

/-- C75: what the specification calls a density matrix is one: its eigenvalues are not negative, and its trace is one unless the state vanishes. -/
theorem C75_density {m n : Type} [Fintype m] [Fintype n] (M : Matrix m n 𝕜) : (reduced M).PosSemidef ∧ (M ≠ 0 → (reduced M).trace = 1) := by
  have h := posSemidef_self_mul_conjTranspose M
  refine ⟨h.smul ?_, fun hM => ?_⟩
  · have := h.trace_nonneg
    exact inv_nonneg.2 this
  · unfold reduced
    rw [trace_smul, smul_eq_mul, inv_mul_cancel₀]
    intro e
    exact hM (trace_mul_conjTranspose_self_eq_zero_iff.1 e)

theorem matrix_of_schmidt {α β γ : Type} [DecidableEq γ] {I : List α} {J : List β} {A : α → β → 𝕜} {Z : List γ} {σ : γ → ℝ} (hZ : Z.Nodup)
    (h : Schmidt (algebraMap ℝ 𝕜) I J A Z σ) : ∃ (U : Matrix (Fin I.length) (Fin Z.length) 𝕜) (W : Matrix (Fin Z.length) (Fin J.length) 𝕜),
      Uᴴ * U = 1 ∧ W * Wᴴ = 1 ∧ Matrix.of (fun (i : Fin I.length) (j : Fin J.length) => A I[i] J[j]) = U * diagonal (fun z => ((σ Z[z] : ℝ) : 𝕜)) * W := by
  obtain ⟨u, v, hu, hv, hA⟩ := h
  refine ⟨Matrix.of fun i z => u I[i] Z[z], Matrix.of fun z j => v Z[z] J[j], ?_, ?_, ?_⟩
  · ext z z'
    rw [mul_apply]
    simp only [conjTranspose_apply, of_apply]
    have := hu Z[z] (List.getElem_mem _) Z[z'] (List.getElem_mem _)
    unfold ip at this
    refine (Fin.sum_univ_fun_getElem I fun i => star (u i Z[z]) * u i Z[z']).trans (this.trans ?_)
    rw [one_apply]
    refine if_congr ?_ rfl rfl
    simp [hZ.getElem_inj_iff, Fin.ext_iff]
  · ext z z'
    rw [mul_apply]
    simp only [conjTranspose_apply, of_apply]
    have := hv Z[z'] (List.getElem_mem _) Z[z] (List.getElem_mem _)
    unfold ip at this
    refine (Fin.sum_univ_fun_getElem J fun j => v Z[z] j * star (v Z[z'] j)).trans ?_
    simp only [mul_comm (v _ _) (star _)]
    rw [this, one_apply]
    refine if_congr ?_ rfl rfl
    simp [hZ.getElem_inj_iff, Fin.ext_iff, eq_comm]
  · ext i j
    rw [of_apply, hA I[i] (List.getElem_mem _) J[j] (List.getElem_mem _), mul_apply]
    simp only [mul_diagonal, of_apply]
    exact (Fin.sum_univ_fun_getElem Z fun z => u I[i] z * ((σ z : ℝ) : 𝕜) * v z J[j]).symm

theorem entropyOf_eq (data : List ℝ) (h : (data.map fun x => x ^ 2).sum ≠ 0) :
    entropyOf Real.log data = some (data.map fun x => Real.negMulLog (x ^ 2 / (data.map fun x => x ^ 2).sum)).sum := by
  unfold entropyOf
  simp only [if_neg h]
  congr 1
  clear h
  generalize (data.map fun x => x ^ 2).sum = t
  induction data with
  | nil => rfl
  | cons x data ih =>
    simp only [List.map_cons, List.filter_cons, List.sum_cons]
    by_cases e : x ^ 2 / t = 0
    · simp [e]
      simpa using ih
    · have ih' := ih
      simp [e] at ih' ⊢
      rw [ih']
      simp [Real.negMulLog]

/-- C75: `get_bipartite_entanglement` of a state on the edges `l`, `r`.  There is one number for each bond.  If the state is not zero, number `k` is the
entropy of the density matrix of the first `k + 1` sites, which is also the entropy of the density matrix of the other sites, and it is not negative.
For the zero state every entry is `nan`. -/
theorem C75_entropy (qr : Arr 𝕜 → Arr 𝕜 × Arr 𝕜) (hqr : Factorises qr) (hqo : OrthonormalColumns qr) (svd : Arr 𝕜 → Arr 𝕜 × Arr ℝ × Arr 𝕜)
    (hsvd : IsSvd (algebraMap ℝ 𝕜) svd) (hun : SvdUnitary svd) (l r : BondInfo Q) (X : List (BondInfo Q)) (phys : List (List (BondInfo Q))) (a : Mps Q 𝕜)
    (hon : OnBonds (l :: X ++ [r]) phys a.tensors) (hg : ∀ b ∈ l :: r :: X, GoodBond b) (hp : ∀ ph ∈ phys, ∀ b ∈ ph, GoodBond b)
    (hu : ∀ T ∈ a.tensors, UniqueLabels T)
    (hc : ∀ i < a.tensors.length, HasCharge ((phys.getD i []).length + 2) (a.tensors.getD i [])) :
    ∃ ents, a.bipartiteEntanglement (algebraMap ℝ 𝕜) qr svd Real.log = some ents ∧ ents.length + 1 = a.tensors.length ∧
      ∀ k (hk : k < ents.length),
        (cutMatrix l r phys (k + 1) (ampl a.tensors X) ≠ 0 →
          ents[k] = some (vonNeumann (cutMatrix l r phys (k + 1) (ampl a.tensors X))) ∧
          ents[k] = some (vonNeumann (cutMatrix l r phys (k + 1) (ampl a.tensors X))ᵀ) ∧
          0 ≤ vonNeumann (cutMatrix l r phys (k + 1) (ampl a.tensors X))) ∧
        (cutMatrix l r phys (k + 1) (ampl a.tensors X) = 0 → ents[k] = none) := by
  obtain ⟨T0, ts0, hT0⟩ : ∃ T ts, a.tensors = T :: ts := by
    have := hon.lengths
    cases ha : a.tensors with
    | nil => rw [ha] at this; simp at this
    | cons T ts => exact ⟨T, ts, rfl⟩
  rw [hT0] at hon
  obtain ⟨X1, ts1, hs, S⟩ := rightSweep_spec qr hqr hon hg hp
  rw [← hT0] at hs S
  have hl1 := S.on.lengths
  have hlen := hon.lengths
  rw [← hT0] at hlen
  obtain ⟨T, ts, rfl⟩ : ∃ T ts, ts1 = T :: ts := by
    cases ts1 with
    | nil => simp at hl1
    | cons T ts => exact ⟨T, ts, rfl⟩
  have hl0 : (T :: ts).length = a.tensors.length := by
    simp at hl1 hlen ⊢; omega
  have hR := S.right hqo hu hc
  have hgr : GoodBond r := hg r (by simp)
  have hrc : RightChain (X1 ++ [r]) phys.tail ts := by
    obtain ⟨b, X2, ph, phys', e1, rfl, _, hrest⟩ := onBonds_head S.on
    rw [e1]
    cases X1 with
    | nil =>
      cases e1
      cases ts with
      | nil => cases phys' <;> trivial
      | cons => cases phys' <;> exact hrest.elim
    | cons b1 X1 =>
      cases e1
      refine rightChain_of_index ?_
      intro i hi
      have := hR (i + 1) (by omega) (by rw [← hl0]; simpa using hi)
      simpa using this
  obtain ⟨vals, hv, hvl, hS⟩ := bondValues_spec (algebraMap ℝ 𝕜) svd hsvd hun S.on (fun b hb => by
      simp only [List.mem_cons] at hb
      rcases hb with rfl | rfl | hb
      · exact hg _ (by simp)
      · exact hgr
      · exact S.good b hb) hp (S.unique hu _ (by simp)) (by rw [hl0]; exact S.charge hc) hrc
  refine ⟨vals.map fun s => entropyOf Real.log (SpT.valueData s), ?_, ?_, ?_⟩
  · simp [Mps.bipartiteEntanglement, hs, hv]
  · rw [← hl0]; simp [hvl]
  · intro k hk
    obtain ⟨s, h1, h2, h3⟩ := hS k (by simpa [hvl] using hk)
    have e : (vals.map fun s => entropyOf Real.log (SpT.valueData s))[k] = entropyOf Real.log (SpT.valueData s) := by
      obtain ⟨hk', e⟩ := List.getElem?_eq_some_iff.1 h1
      rw [List.getElem_map, e]
    rw [e, valueData_eq h2]
    obtain ⟨U, W, hU, hW, hM⟩ := matrix_of_schmidt (legBasis_nodup h2.good.1) h3
    have hM' : cutMatrix l r phys (k + 1) (ampl a.tensors X) =
        U * diagonal (fun z => ((entry s [(legBasis (valueBond s))[z]] : ℝ) : 𝕜)) * W := by
      rw [← hM]
      ext i j
      unfold cutMatrix
      have hi := List.getElem_mem i.isLt
      have hj := List.getElem_mem j.isLt
      have hps : List.Forall₂ (fun (p : List (Q × Nat)) ph => p.length = ph.length)
          ((heads l (phys.take (k + 1)))[i].2 ++ (tails (phys.drop (k + 1)) r)[j].1) phys := by
        have h4 := cart_len (mem_heads.1 (show ((heads l (phys.take (k + 1)))[i].1, (heads l (phys.take (k + 1)))[i].2) ∈ _ from hi)).2
        have h5 := (mem_cells hj).1.imp fun _ _ h => legIndices_len h
        have : List.Forall₂ (fun (p : List (Q × Nat)) (ph : List (BondInfo Q)) => p.length = ph.length) (_ ++ _) (phys.take (k + 1) ++ phys.drop (k + 1)) :=
          List.rel_append h4 h5
        rwa [List.take_append_drop] at this
      rw [of_apply, of_apply, ← S.ampl _ _ _ hps]
      exact (chain_eq_ampl hgr.1 S.on hps.length_eq _ (mem_cells hj).2).symm
    have hsum : ∀ f : ℝ → ℝ, ((((legBasis (valueBond s)).map fun z => entry s [z]).map f).sum) = ∑ z : Fin (legBasis (valueBond s)).length,
        f (entry s [(legBasis (valueBond s))[z]]) := by
      intro f
      rw [List.map_map]
      exact (Fin.sum_univ_fun_getElem (legBasis (valueBond s)) fun z => f (entry s [z])).symm
    have hUT : (Wᵀ)ᴴ * Wᵀ = 1 := by
      rw [show (Wᵀ)ᴴ = (Wᴴ)ᵀ from rfl, ← transpose_mul, hW, transpose_one]
    have hWT : Uᵀ * (Uᵀ)ᴴ = 1 := by
      rw [show (Uᵀ)ᴴ = (Uᴴ)ᵀ from rfl, ← transpose_mul, hU, transpose_one]
    have hMT : (cutMatrix l r phys (k + 1) (ampl a.tensors X))ᵀ =
        Wᵀ * diagonal (fun z => ((entry s [(legBasis (valueBond s))[z]] : ℝ) : 𝕜)) * Uᵀ := by
      rw [hM', transpose_mul, transpose_mul, diagonal_transpose, Matrix.mul_assoc]
    have htr : (cutMatrix l r phys (k + 1) (ampl a.tensors X) = 0) ↔ (∑ z : Fin (legBasis (valueBond s)).length, (entry s [(legBasis (valueBond s))[z]]) ^ 2) = 0 := by
      rw [Finset.sum_eq_zero_iff_of_nonneg fun z _ => sq_nonneg _]
      constructor
      · intro h0 z _
        rw [h0] at hM'
        have h6 : Uᴴ * (U * diagonal (fun z => ((entry s [(legBasis (valueBond s))[z]] : ℝ) : 𝕜)) * W) * Wᴴ =
            diagonal (fun z => ((entry s [(legBasis (valueBond s))[z]] : ℝ) : 𝕜)) := by
          rw [← Matrix.mul_assoc, ← Matrix.mul_assoc, hU, Matrix.one_mul, Matrix.mul_assoc, hW, Matrix.mul_one]
        rw [← hM', Matrix.mul_zero, Matrix.zero_mul] at h6
        have := congrFun (congrFun h6 z) z
        rw [diagonal_apply_eq, Matrix.zero_apply] at this
        rw [RCLike.ofReal_eq_zero.1 this.symm]
        simp
      · intro h0
        rw [hM']
        have : (fun z => ((entry s [(legBasis (valueBond s))[z]] : ℝ) : 𝕜)) = fun _ : Fin (legBasis (valueBond s)).length => (0 : 𝕜) := by
          funext z
          have := h0 z (Finset.mem_univ _)
          simpa using this
        rw [this]
        simp
    have e1 := vonNeumann_schmidt _ U _ W hU hW hM'
    have e2 := vonNeumann_schmidt _ Wᵀ _ Uᵀ hUT hWT hMT
    refine ⟨fun hne => ?_, fun h0 => ?_⟩
    · have ht : (((legBasis (valueBond s)).map fun z => entry s [z]).map fun x => x ^ 2).sum ≠ 0 := by
        rw [hsum]
        exact fun h => hne (htr.2 h)
      rw [entropyOf_eq _ ht, hsum fun x => Real.negMulLog (x ^ 2 / _), hsum fun x => x ^ 2]
      refine ⟨by rw [e1], by rw [e2], ?_⟩
      rw [e1]
      refine Finset.sum_nonneg fun z _ => Real.negMulLog_nonneg ?_ ?_
      · exact div_nonneg (sq_nonneg _) (Finset.sum_nonneg fun z _ => sq_nonneg _)
      · exact div_le_one_of_le₀ (Finset.single_le_sum (f := fun z : Fin (legBasis (valueBond s)).length => (entry s [(legBasis (valueBond s))[z]]) ^ 2)
          (fun z _ => sq_nonneg _) (Finset.mem_univ z)) (Finset.sum_nonneg fun z _ => sq_nonneg _)
    · unfold entropyOf
      simp only
      rw [if_pos]
      rw [hsum]
      exact htr.1 h0

/-! ### Concrete case -/

/-- The state `|0 1⟩ + |1 0⟩` of two sites. -/
def bellMps : Mps Int ℝ := ⟨[
  [([0, 0, 0], ⟨[1, 1, 1], fun _ => 1⟩), ([0, 1, 1], ⟨[1, 1, 1], fun _ => 1⟩)],
  [([0, 1, 1], ⟨[1, 1, 1], fun _ => 1⟩), ([1, 0, 1], ⟨[1, 1, 1], fun _ => 1⟩)]], 0⟩

def bellPhys : List (List (BondInfo Int)) := [[[(0, 1), (1, 1)]], [[(0, 1), (1, 1)]]]

theorem bell_matrix : (cutMatrix [(0, 1)] [(1, 1)] bellPhys 1 (ampl bellMps.tensors [[(0, 1), (1, 1)]]) : Matrix (Fin 2) (Fin 2) ℝ) = !![0, 1; 1, 0] := by
  ext i j
  fin_cases i <;> fin_cases j
  · show ampl bellMps.tensors [[(0, 1), (1, 1)]] (0, 0) [[(0, 0)], [(0, 0)]] (1, 0) = (0 : ℝ)
    simp [bellMps, ampl, entry, blockEntry, inBox, legBasis, List.range_succ]
  · show ampl bellMps.tensors [[(0, 1), (1, 1)]] (0, 0) [[(0, 0)], [(1, 0)]] (1, 0) = (1 : ℝ)
    simp [bellMps, ampl, entry, blockEntry, inBox, legBasis, List.range_succ]
  · show ampl bellMps.tensors [[(0, 1), (1, 1)]] (0, 0) [[(1, 0)], [(0, 0)]] (1, 0) = (1 : ℝ)
    simp [bellMps, ampl, entry, blockEntry, inBox, legBasis, List.range_succ]
  · show ampl bellMps.tensors [[(0, 1), (1, 1)]] (0, 0) [[(1, 0)], [(1, 0)]] (1, 0) = (0 : ℝ)
    simp [bellMps, ampl, entry, blockEntry, inBox, legBasis, List.range_succ]

theorem bell_entropy : vonNeumann (!![0, 1; 1, 0] : Matrix (Fin 2) (Fin 2) ℝ) = Real.log 2 := by
  rw [vonNeumann_schmidt (k := Fin 2) _ 1 (fun _ => 1) !![0, 1; 1, 0] (by simp) (by ext i j; fin_cases i <;> fin_cases j <;> simp [Matrix.mul_apply, Fin.sum_univ_two]) (by simp)]
  simp [Real.negMulLog, Real.log_inv]

/-- All hypotheses of `C75_entropy` hold for this state, and its entanglement is `log 2`. -/
example : ∃ qr svd, bellMps.bipartiteEntanglement (algebraMap ℝ ℝ) qr svd Real.log = some [some (Real.log 2)] := by
  obtain ⟨qr, q1, q2⟩ := C21_contract ℝ
  obtain ⟨svd, s1, s2⟩ := C50_contract ℝ
  obtain ⟨ents, h1, h2, h3⟩ := C75_entropy qr q1 q2 svd s1 s2 [(0, 1)] [(1, 1)] [[(0, 1), (1, 1)]] bellPhys bellMps
    ⟨by decide, by decide, trivial⟩
    (by intro b hb
        simp at hb
        rcases hb with rfl | rfl | rfl <;> simp [GoodBond, Dict.WF])
    (by intro ph hph b hb
        simp [bellPhys] at hph
        subst hph
        simp at hb
        subst hb
        simp [GoodBond, Dict.WF])
    (by intro T hT
        simp [bellMps] at hT
        rcases hT with rfl | rfl <;> simp [UniqueLabels])
    (by intro i hi
        have hi' : i = 0 ∨ i = 1 := by simp [bellMps] at hi; omega
        rcases hi' with rfl | rfl
        · exact ⟨[true, true, false], 0, rfl, by decide⟩
        · exact ⟨[true, true, false], 0, rfl, by decide⟩)
  have hl : ents.length = 1 := by simpa [bellMps] using h2
  obtain ⟨e, rfl⟩ := List.length_eq_one_iff.1 hl
  have h4 := (h3 0 (by simp)).1 (by
    intro h0
    have h5 := bell_matrix.symm.trans h0
    have : (1 : ℝ) = 0 := congrFun (congrFun h5 0) 1
    exact one_ne_zero this)
  refine ⟨qr, svd, ?_⟩
  rw [h1]
  have h6 : vonNeumann (cutMatrix [(0, 1)] [(1, 1)] bellPhys 1 (ampl bellMps.tensors [[(0, 1), (1, 1)]])) = Real.log 2 :=
    (congrArg (vonNeumann (m := Fin 2) (n := Fin 2) (𝕜 := ℝ)) bell_matrix).trans bell_entropy
  have h7 := h4.1
  simp only [List.getElem_cons_zero] at h7
  rw [h7]
  exact congrArg (fun x => some [some x]) h6

/-- C75: without sites the call raises. -/
theorem C75_no_sites (qr : Arr 𝕜 → Arr 𝕜 × Arr 𝕜) (svd : Arr 𝕜 → Arr 𝕜 × Arr ℝ × Arr 𝕜) (log : ℝ → ℝ) (a : Mps Q 𝕜) (h : a.tensors = []) :
    a.bipartiteEntanglement (algebraMap ℝ 𝕜) qr svd log = none := by
  unfold Mps.bipartiteEntanglement
  rw [h]
  rfl

end
end Verif
