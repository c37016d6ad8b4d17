import Mathlib.Data.Fin.Tuple.Sort
import Verif.Thm.CompressSvd
import Verif.Thm.FermTrunc
import Verif.Thm.TrimSvd

/-! C51: the contract of the dense decomposition, with values in decreasing order, can be met. -/

set_option linter.unusedSectionVars false

namespace Verif
namespace FermSplit

/-- Positions in the order of decreasing values. -/
theorem exists_order (k : Nat) (s : Nat → ℝ) : ∃ π : Nat → Nat, (∀ t < k, π t < k) ∧ ((List.range k).map π).Perm (List.range k) ∧
    ((List.range k).map fun t => s (π t)).Pairwise (· ≥ ·) := by
  let σ : Equiv.Perm (Fin k) := Tuple.sort fun i : Fin k => - s i
  have hm : Monotone ((fun i : Fin k => - s i) ∘ σ) := Tuple.monotone_sort _
  refine ⟨fun t => if h : t < k then σ ⟨t, h⟩ else t, ?_, ?_, ?_⟩
  · intro t ht
    simp [ht]
  · rw [List.perm_ext_iff_of_nodup]
    · intro a
      simp only [List.mem_map, List.mem_range]
      constructor
      · rintro ⟨t, ht, rfl⟩
        simp [ht]
      · intro ha
        refine ⟨σ.symm ⟨a, ha⟩, by simp, by simp⟩
    · rw [List.nodup_map_iff_inj_on List.nodup_range]
      intro x hx y hy hxy
      simp only [List.mem_range] at hx hy
      simp only [hx, hy, dite_true] at hxy
      have := σ.injective (Fin.ext hxy)
      exact congrArg Fin.val this
    · exact List.nodup_range
  · rw [List.pairwise_map]
    refine List.Pairwise.imp_of_mem ?_ (List.pairwise_lt_range)
    intro a b ha hb hab
    simp only [List.mem_range] at ha hb
    simp only [ha, hb, dite_true]
    have := hm (a := ⟨a, ha⟩) (b := ⟨b, hb⟩) (by simpa using le_of_lt hab)
    simp only [Function.comp] at this
    linarith

/-- C51: over the real and over the complex numbers the contract assumed of the dense decomposition can be met. -/
theorem C51_contract (𝕜 : Type) [RCLike 𝕜] : ∃ svd : Arr 𝕜 → Arr 𝕜 × Arr ℝ × Arr 𝕜, IsSvd (algebraMap ℝ 𝕜) svd ∧ SvdUnitary svd ∧ SvdSorted svd := by
  choose u s w h1 h2 h3 h4 using fun a : Arr 𝕜 => exists_svd a (a.shape.getD 0 0) (a.shape.getD 1 0)
  let k : Arr 𝕜 → Nat := fun a => min (a.shape.getD 0 0) (a.shape.getD 1 0)
  choose π p1 p2 p3 using fun a : Arr 𝕜 => exists_order (k a) fun t => s a [t]
  have hk : ∀ (a : Arr 𝕜) m n, a.shape = [m, n] → k a = min m n := by
    intro a m n hs
    simp [k, hs]
  have hinj : ∀ (a : Arr 𝕜) t t', t < k a → t' < k a → π a t = π a t' → t = t' := by
    intro a t t' ht ht' he
    have hn : ((List.range (k a)).map (π a)).Nodup := (p2 a).nodup_iff.2 List.nodup_range
    exact List.inj_on_of_nodup_map hn (List.mem_range.2 ht) (List.mem_range.2 ht') he
  refine ⟨fun a => (⟨[a.shape.getD 0 0, k a], fun l => u a [l.getD 0 0, π a (l.getD 1 0)]⟩, ⟨[k a], fun l => s a [π a (l.getD 0 0)]⟩,
    ⟨[k a, a.shape.getD 1 0], fun l => w a [π a (l.getD 0 0), l.getD 1 0]⟩), ⟨?_, ?_, ?_, ?_⟩, ⟨?_, ?_⟩, ?_⟩
  · intro a m n hs _ _
    simp [k, hs]
  · intro a m n hs _ _
    simp [k, hs]
  · intro a m n hs _ _
    simp [k, hs]
  · intro a m n hs _ _ i hi j hj
    have h := h1 a i (by simpa [hs] using hi) j (by simpa [hs] using hj)
    rw [← h]
    have e : min (a.shape.getD 0 0) (a.shape.getD 1 0) = k a := rfl
    rw [← hk a m n hs, e]
    have hp := (((p2 a).map fun t => u a [i, t] * (s a [t] : 𝕜) * w a [t, j])).sum_eq
    rw [List.map_map] at hp
    exact hp
  · intro a m n hs _ _ x hx y hy
    rw [← hk a m n hs] at hx hy
    have h := h2 a (π a x) (p1 a x hx) (π a y) (p1 a y hy)
    simp only [hs, List.getD_cons_zero] at h
    refine h.trans ?_
    by_cases e : x = y
    · simp [e]
    · rw [if_neg e, if_neg fun he => e (hinj a x y hx hy he)]
  · intro a m n hs _ _ x hx y hy
    rw [← hk a m n hs] at hx hy
    have h := h3 a (π a x) (p1 a x hx) (π a y) (p1 a y hy)
    simp only [hs, List.getD_cons_zero, List.getD_cons_succ] at h
    refine h.trans ?_
    by_cases e : x = y
    · simp [e]
    · rw [if_neg e, if_neg fun he => e (hinj a x y hx hy he)]
  · intro a m n hs _ _
    rw [← hk a m n hs]
    exact ⟨p3 a, fun t _ => h4 a _⟩

/-! ### Concrete cases -/

/-- Odd numbers of particles are odd. -/
def exPar (q : Int) : Nat := q.natAbs % 2

def exLegs : List (BondInfo Int) := [[(0, 1), (1, 2)], [(0, 1), (1, 1)], [(0, 1), (1, 3), (2, 1)]]

/-- Three legs; two sectors are matrices of more than one block. -/
noncomputable def exT : FermT Int ℝ := ⟨[true, true, false], [
  ([0, 0, 0], ⟨[1, 1, 1], fun _ => 2⟩), ([1, 0, 1], ⟨[2, 1, 3], fun l => (l.getD 0 0 + 3 * l.getD 2 0 + 1 : Nat)⟩),
  ([0, 1, 1], ⟨[1, 1, 3], fun l => (l.getD 2 0 + 5 : Nat)⟩), ([1, 1, 2], ⟨[2, 1, 1], fun l => (l.getD 0 0 + 7 : Nat)⟩)]⟩

theorem exT_valid : Valid exLegs 0 exT := by
  refine ⟨?_, ?_, ?_, rfl, ?_, by simp [exT]⟩
  · intro b hb
    simp [exLegs] at hb
    rcases hb with rfl | rfl | rfl <;> simp [GoodBond, Dict.WF]
  · show Conforms exLegs exT.blocks
    decide
  · show UniqueLabels exT.blocks
    decide
  · intro b hb
    simp [exT] at hb
    rcases hb with rfl | rfl | rfl | rfl <;> decide

theorem ex_bipartition : Bipartition exLegs.length [2, 0] [1] := ⟨by decide, by decide, by decide⟩

/-- The hypotheses of `C51_qr` and `C51_back` hold for this tensor, with the third and the first leg on the left. -/
example (isQr : Bool) : ∃ qr q r X, sparseQr exPar qr isQr exT [2, 0] (some [1]) = some (q, r) ∧ contract exPar q r = some X ∧
    ∀ x : List (Int × Nat), x.length = 3 → entry (X.transpose exPar (some [1, 2, 0])).blocks x = entry exT.blocks x := by
  obtain ⟨qr, q1, _⟩ := C21_contract ℝ
  obtain ⟨q, r, m, X, h1, _, h3, h4, _⟩ := C51_qr exPar q1 isQr exT_valid ex_bipartition
  exact ⟨qr, q, r, X, h1, h3, (C51_back exPar exT_valid ex_bipartition h4 [1, 2, 0] (by decide) (by decide)).2⟩

/-- An order of positions by value. -/
theorem exists_argsort : ∃ argsort : List ℝ → List Nat, Trim.IsArgsort argsort := by
  classical
  refine ⟨fun s => sortBy (fun i j => decide (s.getD i 0 ≤ s.getD j 0)) (List.range s.length), fun s => ⟨sortBy_perm _ _, ?_⟩⟩
  rw [List.pairwise_map]
  refine (sortBy_sorted _ ?_ ?_ (List.range s.length)).imp fun h => by simpa using h
  · intro a b
    simpa using le_total _ _
  · intro a b c h1 h2
    simp only [decide_eq_true_eq] at *
    exact le_trans h1 h2

/-- The hypotheses of `C51_svd` hold for this tensor, at most two values, for all modes and choices of `absorb`. -/
example (mode : Nat) (hm : 1 ≤ mode ∧ mode ≤ 6) (absorb : Option Int) (argsort : List ℝ → List Nat) (ha : Trim.IsArgsort argsort) : ∃ svd m₀ u₀ s₀ v₀ keep f,
    Spectral (algebraMap ℝ ℝ) (legsAt exLegs [2, 0]) (legsAt exLegs [1]) (exT.transpose exPar (some [2, 0, 1])).blocks m₀ u₀ s₀ v₀ ∧
    (((legBasis m₀).filter keep).length ≤ 2) ∧
    ((∃ z ∈ legBasis m₀, keep z = true) → ∃ d m X,
      sparseSvd exPar (algebraMap ℝ ℝ) svd (fun x => decide (1E-10 < x)) argsort Real.sqrt 1E-3 mode (.total (some 2)) true (fun x => x ^ 2) Real.sqrt absorb none exT [2, 0] (some [1]) =
        some d ∧
      Truncated exPar (algebraMap ℝ ℝ) (legsAt exLegs [2, 0]) (legsAt exLegs [1]) [false, true] [true] 0 0 absorb m₀ u₀ s₀ v₀ keep f d m X) := by
  obtain ⟨svd, s1, s2, s3⟩ := C51_contract ℝ
  obtain ⟨m₀, u₀, s₀, v₀, keep, f, h1, _, h3, _, _, _, h7⟩ := C51_svd exPar (algebraMap ℝ ℝ) s1 s2 s3 (fun x => decide (1E-10 < x)) ha (root := Real.sqrt)
    (fun x hx => Real.mul_self_sqrt hx) (cutoff := 1E-3) (by norm_num) hm (some 2) true (pow := fun x => x ^ 2) (rroot := Real.sqrt) (fun x _ => sq_nonneg x)
    (fun x _ => Real.sqrt_nonneg x) absorb (partition := none) (dl := 0) (dr := 0) (Or.inr ⟨rfl, by simp⟩) exT_valid ex_bipartition
  refine ⟨svd, m₀, u₀, s₀, v₀, keep, f, h1, ?_, h7⟩
  have := h3.within 2 rfl (by norm_num)
  rw [List.length_map] at this
  exact_mod_cast this

/-- The hypotheses of `C51_lossless` hold for this tensor. -/
example (argsort : List ℝ → List Nat) (ha : Trim.IsArgsort argsort) : ∃ svd d X,
    sparseSvd exPar (algebraMap ℝ ℝ) svd (fun x => decide (0 < x)) argsort Real.sqrt 0 3 (.total none) false (fun x => x ^ 2) Real.sqrt (some 0) none exT [2, 0] (some [1]) = some d ∧
      recombine exPar d = some X ∧ Reordered exPar exLegs exT X [2, 0] [1] := by
  obtain ⟨svd, s1, s2, s3⟩ := C51_contract ℝ
  obtain ⟨d, m, X, h1, _, h3, h4, _⟩ := C51_lossless exPar (algebraMap ℝ ℝ) s1 s2 s3 (big := fun x => decide (0 < x)) (fun x _ => by simp) ha (root := Real.sqrt)
    (fun x hx => Real.mul_self_sqrt hx) (mode := 3) (by norm_num) false (pow := fun x => x ^ 2) (rroot := Real.sqrt) (fun x _ => sq_nonneg x)
    (fun x _ => Real.sqrt_nonneg x) (some 0) (partition := none) (dl := 0) (dr := 0) (Or.inr ⟨rfl, by simp⟩) exT_valid ex_bipartition
    (x := [(0, 0), (0, 0), (0, 0)]) rfl (by
      have := C25_entry exPar exLegs exT exT_valid.conforms [2, 0, 1] (by decide) [(0, 0), (0, 0), (0, 0)] rfl
      refine fun h0 => ?_
      have h1 : ([2, 0, 1].map fun i => ([(0, 0), (0, 0), (0, 0)] : List (Int × Nat)).getD i 0) = [(0, 0), (0, 0), (0, 0)] := by decide
      rw [h1] at this
      have h2 : reorderSign (legOdd exPar [(0, 0), (0, 0), (0, 0)]) [2, 0, 1] = 1 := by decide
      rw [h2] at this
      have h3 : entry exT.blocks [(0, 0), (0, 0), (0, 0)] = 2 := by simp [exT, entry, blockEntry, inBox]
      rw [h3] at this
      have h4 := h0
      simp only [List.cons_append, List.nil_append] at h4
      rw [h4] at this
      norm_num at this)
  exact ⟨svd, d, X, h1, h3, h4⟩

/-- C51: with all legs on one side the order of the legs is ignored: here the legs are asked for in the order 1, 0; contracting the factors gives the tensor as it was, not
the reordered one, which has the opposite sign.  With `mod="qr"` the left factor does not have the legs that should be on the left. -/
theorem C51_null_order : ∃ (T X q r : FermT Int Int) (legs : List (BondInfo Int)), Valid legs 2 T ∧ sparseQr exPar plainQR true T [1, 0] (some []) = some (q, r) ∧
    contract exPar q r = some X ∧ q.pattern.length = 1 ∧
    entry X.blocks [(1, 0), (1, 0)] = 5 ∧ entry (T.transpose exPar (some [1, 0])).blocks [(1, 0), (1, 0)] = -5 := by
  refine ⟨⟨[true, true], [([1, 1], ⟨[1, 1], fun _ => 5⟩)]⟩, _, _, _, [[(1, 1)], [(1, 1)]], ⟨?_, by decide, by decide, rfl, ?_, by simp⟩, rfl, rfl, by decide, by decide +kernel,
    by decide +kernel⟩
  · intro b hb
    simp at hb
    subst hb
    simp [GoodBond, Dict.WF]
  · intro b hb
    simp at hb
    subst hb
    decide

end FermSplit
end Verif
