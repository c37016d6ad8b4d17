import Verif.Proof.FermTrace2
import Mathlib.Tactic.Ring
import Mathlib.Tactic.LinearCombination

/-!
The order of the traced pairs does not matter.
-/

set_option linter.unusedSectionVars false

namespace Verif
variable {Q K : Type}

theorem swapSign_flip (odd : List Bool) {x y : Nat} (h : x ≠ y) :
    swapSign odd x y * swapSign odd y x = if odd.getD x false && odd.getD y false then -1 else 1 := by
  unfold swapSign
  rcases Nat.lt_or_gt_of_ne h with h | h
  · have h' : ¬ y < x := by omega
    cases odd.getD x false <;> cases odd.getD y false <;> simp [h, h']
  · have h' : ¬ x < y := by omega
    cases odd.getD x false <;> cases odd.getD y false <;> simp [h, h']

/-- Legs that come in pairs of the same parity can be reordered pair by pair without a sign. -/
theorem pairProd_pairs (odd : List Bool) {ps ps' : List (Nat × Nat)} (hp : ps.Perm ps') (hnd : (ps.flatMap fun p => [p.1, p.2]).Nodup)
    (ho : ∀ p ∈ ps, odd.getD p.1 false = odd.getD p.2 false) :
    pairProd (swapSign odd) (ps.flatMap fun p => [p.1, p.2]) = pairProd (swapSign odd) (ps'.flatMap fun p => [p.1, p.2]) := by
  induction hp with
  | nil => rfl
  | cons p hp ih =>
    simp only [List.flatMap_cons] at hnd ⊢
    rw [pairProd_append, pairProd_append, ih (List.nodup_append.1 hnd).2.1 fun q hq => ho q (List.mem_cons_of_mem _ hq)]
    congr 1
    congr 1
    apply List.map_congr_left
    intro x _
    exact ((hp.flatMap_right fun p => [p.1, p.2]).map (swapSign odd x)).prod_eq
  | swap p q l =>
    simp only [List.flatMap_cons, ← List.append_assoc]
    rw [pairProd_append _ ([q.1, q.2] ++ [p.1, p.2]), pairProd_append _ ([p.1, p.2] ++ [q.1, q.2])]
    have hc : (([q.1, q.2] ++ [p.1, p.2]).map fun x => ((l.flatMap fun p => [p.1, p.2]).map (swapSign odd x)).prod).prod =
        (([p.1, p.2] ++ [q.1, q.2]).map fun x => ((l.flatMap fun p => [p.1, p.2]).map (swapSign odd x)).prod).prod :=
      (List.perm_append_comm.map _).prod_eq
    rw [hc]
    have h1 := ho p (by simp)
    have h2 := ho q (by simp)
    simp only [List.flatMap_cons, List.cons_append, List.nil_append, List.nodup_cons, List.mem_cons, not_or] at hnd
    obtain ⟨⟨-, n1, n2, -⟩, ⟨n3, n4, -⟩, -⟩ := hnd
    have hmain : pairProd (swapSign odd) ([q.1, q.2] ++ [p.1, p.2]) = pairProd (swapSign odd) ([p.1, p.2] ++ [q.1, q.2]) := ?_
    · rw [hmain]
    rw [pairProd_append, pairProd_append]
    simp only [List.map_cons, List.map_nil, List.prod_cons, List.prod_nil, mul_one]
    have e1 := swapSign_flip odd n1
    have e2 := swapSign_flip odd n2
    have e3 := swapSign_flip odd n3
    have e4 := swapSign_flip odd n4
    rw [h1, h2] at e1
    rw [h2] at e2
    rw [h1] at e3
    have s1 := swapSign_mul_self odd p.1 q.1
    have s2 := swapSign_mul_self odd p.2 q.1
    have s3 := swapSign_mul_self odd p.1 q.2
    have s4 := swapSign_mul_self odd p.2 q.2
    have hh : ∀ a b s : Int, a * b = s → b * b = 1 → a = s * b := by
      intro a b s h h'
      calc a = a * (b * b) := by rw [h', mul_one]
        _ = s * b := by rw [← mul_assoc, h]
    rw [hh _ _ _ e1 s1, hh _ _ _ e2 s2, hh _ _ _ e3 s3, hh _ _ _ e4 s4]
    have hs : (if (odd.getD q.2 false && odd.getD p.2 false) = true then (-1 : Int) else 1) * (if (odd.getD q.2 false && odd.getD p.2 false) = true then (-1 : Int) else 1) = 1 := by
      split_ifs <;> rfl
    generalize (if (odd.getD q.2 false && odd.getD p.2 false) = true then (-1 : Int) else 1) = t at hs
    generalize pairProd (swapSign odd) [q.1, q.2] = u
    generalize pairProd (swapSign odd) [p.1, p.2] = v
    linear_combination (u * v * swapSign odd p.1 q.1 * swapSign odd p.2 q.1 * swapSign odd p.1 q.2 * swapSign odd p.2 q.2 * (t * t + 1)) * hs
  | @trans l1 l2 l3 h1 h2 ih1 ih2 =>
    rw [ih1 hnd ho]
    refine ih2 ((h1.flatMap_right _).nodup_iff.1 hnd) fun p hp => ho p (h1.mem_iff.2 hp)

theorem reorderSign_pairs (odd : List Bool) {ps ps' : List (Nat × Nat)} (hp : ps.Perm ps') (hnd : (ps.flatMap fun p => [p.1, p.2]).Nodup)
    (ho : ∀ p ∈ ps, odd.getD p.1 false = odd.getD p.2 false) (m : List Nat) :
    reorderSign odd ((ps.flatMap fun p => [p.1, p.2]) ++ m) = reorderSign odd ((ps'.flatMap fun p => [p.1, p.2]) ++ m) := by
  rw [reorderSign_eq, reorderSign_eq, pairProd_append, pairProd_append, pairProd_pairs odd hp hnd ho]
  congr 1
  exact ((hp.flatMap_right fun p => [p.1, p.2]).map fun x => (m.map (swapSign odd x)).prod).prod_eq

theorem tracePairs_getD (ax1 ax2 : List Nat) (k : Nat) (h1 : k < ax1.length) (h2 : k < ax2.length) :
    (FermT.tracePairs ax1 ax2).getD k 0 = (min (ax1.getD k 0) (ax2.getD k 0), max (ax1.getD k 0) (ax2.getD k 0)) := by
  unfold FermT.tracePairs
  simp [h1, h2]

theorem tracePairs_same {π ax1 ax2 ax1' ax2' : List Nat} (h : SamePairs π ax1 ax2 ax1' ax2') (hl : ax1.length = ax2.length)
    (hlt : ∀ i ∈ π, i < ax1.length) : FermT.tracePairs ax1' ax2' = pick π (FermT.tracePairs ax1 ax2) := by
  obtain ⟨l1, l2, h3⟩ := h
  apply List.ext_getElem
  · rw [tracePairs_length (l1.trans l2.symm), pick_length, l1]
  · intro k k1 k2
    rw [tracePairs_length (l1.trans l2.symm), l1] at k1
    have hk := tracePairs_getD ax1' ax2' k (by omega) (by omega)
    have e1 : (FermT.tracePairs ax1' ax2').getD k 0 = (FermT.tracePairs ax1' ax2')[k] := by
      rw [List.getD_eq_getElem?_getD, List.getElem?_eq_getElem]; rfl
    have hm := hlt (π.getD k 0) (by simp [k1])
    have hk' := tracePairs_getD ax1 ax2 (π.getD k 0) hm (by omega)
    have e2 : (pick π (FermT.tracePairs ax1 ax2))[k] = (FermT.tracePairs ax1 ax2).getD (π.getD k 0) 0 := by
      simp [pick, k1]
    rw [← e1, e2, hk, hk']
    rcases h3 k k1 with ⟨a, b⟩ | ⟨a, b⟩
    · rw [a, b]
    · rw [a, b, Nat.min_comm, Nat.max_comm]

section
variable [DecidableEq Q] [AddCommGroup Q] [CommRing K]

theorem trace_same (par : Q → Nat) {T : FermT Q K} {legs : List (BondInfo Q)} {π ax1 ax2 ax1' ax2' : List Nat} (h : Traceable T legs ax1 ax2)
    (h' : Traceable T legs ax1' ax2') (hπ : π.Perm (List.range ax1.length)) (hs : SamePairs π ax1 ax2 ax1' ax2') :
    freeAxes legs.length (ax1' ++ ax2') = freeAxes legs.length (ax1 ++ ax2) ∧
    ∀ f, f.length = (freeAxes legs.length (ax1 ++ ax2)).length → traceValue par T legs ax1' ax2' f = traceValue par T legs ax1 ax2 f := by
  have hlt : ∀ i ∈ π, i < ax1.length := fun i hi => by simpa using hπ.mem_iff.1 hi
  have hn := perm_range_length hπ
  have htp := tracePairs_same hs h.len hlt
  have htl := tracePairs_length h.len
  have hpp : (FermT.tracePairs ax1' ax2').Perm (FermT.tracePairs ax1 ax2) := by
    rw [htp]
    have := hπ.map fun i => (FermT.tracePairs ax1 ax2).getD i 0
    have e := pick_range (FermT.tracePairs ax1 ax2)
    rw [htl] at e
    unfold pick at e ⊢
    rw [e] at this
    exact this
  have hax : (ax1' ++ ax2').Perm (ax1 ++ ax2) :=
    (tracePairs_perm h'.len).symm.trans (((hpp.map _).append (hpp.map _)).trans (tracePairs_perm h.len))
  have hout : SpT.outAxes legs.length (ax1' ++ ax2') = SpT.outAxes legs.length (ax1 ++ ax2) := outAxes_perm hax
  refine ⟨by rw [freeAxes_eq, freeAxes_eq, hout], fun f hf => ?_⟩
  rw [freeAxes_eq] at hf
  rw [traceValue_eq par h hf, traceValue_eq par h' (by rw [hout]; exact hf)]
  have hlegs : ax1'.map (fun i => legs.getD i []) = π.map fun i => (ax1.map fun i => legs.getD i []).getD i [] := by
    have e1 := (tracePairs_pick [] legs h.bonds).1
    have e2 := (tracePairs_pick [] legs h'.bonds).1
    rw [← e1, ← e2, htp]
    unfold pick
    rw [List.map_map]
    apply List.map_congr_left
    intro i hi
    have := hlt i hi
    rw [← htl] at this
    simp [this]
  rw [hlegs, ((legIndices_pick (by intro b hb; obtain ⟨i, hi, rfl⟩ := List.mem_map.1 hb; exact h.wf i hi) (by rw [List.length_map]; exact hπ)).map _).sum_eq, List.map_map]
  apply sum_map_congr'
  intro c hc
  have hcl : c.length = ax1.length := by rw [legIndices_length hc, List.length_map]
  obtain ⟨h1, h2, h3, h4⟩ := h.index hcl hf
  set x := traceIndex legs.length ax1 ax2 c f
  have hpk : ∀ g : Nat × Nat → Nat, pick ((FermT.tracePairs ax1' ax2').map g) x = pick π (pick ((FermT.tracePairs ax1 ax2).map g) x) := by
    intro g
    rw [htp]
    unfold pick
    rw [List.map_map, List.map_map]
    apply List.map_congr_left
    intro i hi
    have := hlt i hi
    rw [← htl] at this
    simp [this]
  have hx : traceIndex legs.length ax1' ax2' (pick π c) f = x := by
    unfold traceIndex
    symm
    have hp := h'.perm
    have hnp := perm_range_length hp
    simp only [List.length_append, List.length_map, tracePairs_length h'.len] at hnp
    rw [eq_unpick_iff hp x _ h1 (by
      simp only [List.length_append, pick_length]
      rw [hf, ← hout, ← hs.1]; exact hnp)]
    rw [pick_append, pick_append, hpk, hpk, h2, h3, hout, h4]
  simp only [Function.comp]
  rw [hx]
  congr 2
  rw [hout, sideBySide_eq, sideBySide_eq]
  have hnd : ((FermT.tracePairs ax1 ax2).flatMap fun p => [p.1, p.2]).Nodup :=
    ((flatMap_pair_perm _).trans (tracePairs_perm h.len)).nodup_iff.2 h.nd
  symm
  apply reorderSign_pairs _ hpp.symm hnd
  intro p hp
  have : ∀ i, i < x.length → (legOdd par x).getD i false = decide (par (x.getD i 0).1 % 2 = 1) := by
    intro i hi
    unfold legOdd
    simp [hi]
  have hb : p.1 < x.length ∧ p.2 < x.length := by
    rw [h1]
    have := tracePairs_perm h.len
    exact ⟨h.lt _ (this.mem_iff.1 (List.mem_append_left _ (List.mem_map_of_mem hp))), h.lt _ (this.mem_iff.1 (List.mem_append_right _ (List.mem_map_of_mem hp)))⟩
  rw [this _ hb.1, this _ hb.2]
  have he : x.getD p.1 0 = x.getD p.2 0 := by
    have := h2.trans h3.symm
    unfold pick at this
    rw [List.map_map, List.map_map] at this
    exact (List.map_inj_left.1 this) p hp
  rw [he]

end
end Verif
