import Verif.Model.MpeLocal
import Verif.Proof.MpeEnv

/-! A list of operator tensors on one state tensor. -/

set_option linter.unusedSectionVars false

namespace Verif
section
variable {Q K : Type} [DecidableEq Q] [AddCommGroup Q] [CommRing K] [StarRing K]

/-- Three groups of axes, the first two exchanged. -/
def swapAxes (a p c : Nat) : List Nat := List.range' a p ++ List.range' 0 a ++ List.range' (a + p) c

theorem swapAxes_perm (a p c : Nat) : (swapAxes a p c).Perm (List.range (a + p + c)) := by
  have e : List.range (a + p + c) = (List.range' 0 a ++ List.range' a p) ++ List.range' (a + p) c := by
    rw [List.range_eq_range', ← List.range'_append_1 (s := 0) (m := a + p) (n := c), ← List.range'_append_1 (s := 0) (m := a) (n := p)]
    simp
  rw [e]
  exact List.Perm.append_right _ List.perm_append_comm

theorem pick_swapAxes {α : Type} [Zero α] (u v w : List α) : pick (swapAxes u.length v.length w.length) (u ++ v ++ w) = v ++ u ++ w := by
  unfold swapAxes
  rw [pick_append_idx, pick_append_idx]
  congr 1
  · congr 1
    · exact pick_range' u v w
    · have := pick_range' [] u (v ++ w)
      simpa using this
  · have := pick_range' (u ++ v) w []
    simpa using this

/-- Exchange of the first two groups of legs. -/
theorem swap_transpose {P1 P2 P3 : List (BondInfo Q)} {T : SpT Q K} (hT : Conforms (P1 ++ P2 ++ P3) T) (hu : UniqueLabels T) :
    Conforms (P2 ++ P1 ++ P3) (T.transpose (some (swapAxes P1.length P2.length P3.length))) ∧
      UniqueLabels (T.transpose (some (swapAxes P1.length P2.length P3.length))) ∧
      (∀ u v w, u.length = P1.length → v.length = P2.length → w.length = P3.length →
        entry (T.transpose (some (swapAxes P1.length P2.length P3.length))) (v ++ u ++ w) = entry T (u ++ v ++ w)) ∧
      ∀ b ∈ T.transpose (some (swapAxes P1.length P2.length P3.length)), ∃ u v w : List Q, u.length = P1.length ∧ v.length = P2.length ∧
        w.length = P3.length ∧ b.1 = v ++ u ++ w ∧ ∃ a ∈ T, a.1 = u ++ v ++ w := by
  have hl : (P1 ++ P2 ++ P3).length = P1.length + P2.length + P3.length := by simp [Nat.add_assoc]
  have hperm : (swapAxes P1.length P2.length P3.length).Perm (List.range (P1 ++ P2 ++ P3).length) := by rw [hl]; exact swapAxes_perm _ _ _
  refine ⟨?_, transpose_unique hT hu hperm, ?_, ?_⟩
  · have := C14_conforms _ _ hT _ hperm
    have hp : (swapAxes P1.length P2.length P3.length).map (fun i => (P1 ++ P2 ++ P3).getD i []) = P2 ++ P1 ++ P3 := by
      let _ : Zero (BondInfo Q) := ⟨[]⟩
      exact pick_swapAxes P1 P2 P3
    rwa [hp] at this
  · intro u v w h1 h2 h3
    have hE := C14_entry _ _ hT _ hperm (u ++ v ++ w) (by simp [h1, h2, h3])
    have hpk := pick_swapAxes u v w
    rw [h1, h2, h3] at hpk
    unfold pick at hpk
    rw [hpk] at hE
    exact hE
  · intro b hb
    obtain ⟨a, ha, rfl⟩ := List.mem_map.1 hb
    have hlen := (hT a ha).lengths.1
    rw [hl] at hlen
    refine ⟨a.1.take P1.length, (a.1.drop P1.length).take P2.length, (a.1.drop P1.length).drop P2.length, by simp; omega, by simp; omega, by simp; omega,
      ?_, a, ha, ?_⟩
    · have := pick_swapAxes (a.1.take P1.length) ((a.1.drop P1.length).take P2.length) ((a.1.drop P1.length).drop P2.length)
      rw [List.append_assoc, List.take_append_drop, List.take_append_drop] at this
      have l1 : (a.1.take P1.length).length = P1.length := by simp; omega
      have l2 : ((a.1.drop P1.length).take P2.length).length = P2.length := by simp; omega
      have l3 : ((a.1.drop P1.length).drop P2.length).length = P3.length := by simp; omega
      rw [l1, l2, l3] at this
      exact this
    · rw [List.append_assoc, List.take_append_drop, List.take_append_drop]

/-- Signs that are never applied. -/
theorem addAliased_none (A B : SpT Q K) (f : List Q → Bool) (hf : ∀ a ∈ A, f a.1 = false) : OpT.addAliased A B f (fun _ => false) = A.add B := by
  unfold OpT.addAliased
  conv_rhs => rw [← List.map_id (A.add B)]
  apply List.map_congr_left
  intro b _
  by_cases h1 : Dict.has A b.1 = true
  · have : f b.1 = false := by
      obtain ⟨a, ha, e⟩ := List.mem_map.1 (Dict.has_iff.1 h1)
      rw [← e]; exact hf a ha
    simp [this]
  · simp [h1]

/-- One contraction of an operator tensor with a state tensor. -/
theorem contract_state (isF : Q → Bool) {a1 s a2 b1 b2 : List (BondInfo Q)} (hw : ∀ b ∈ s, Dict.WF b) (hs : s ≠ []) {W : OpT Q K} {B : SpT Q K}
    (ho : Conforms (a1 ++ s ++ a2) W.odd) (he : Conforms (a1 ++ s ++ a2) W.even) (hB : Conforms (b1 ++ s ++ b2) B) (hne : W.noBlocks = false)
    (hsep : (∀ u v m m' u' v' : List Q, (∃ a ∈ W.odd, a.1 = u ++ m ++ v) → (∃ a ∈ W.even, a.1 = u ++ m' ++ v) → (∃ b ∈ B, b.1 = u' ++ m ++ v') →
        (∃ b ∈ B, b.1 = u' ++ m' ++ v') → u.length = a1.length → u'.length = b1.length → m.length = s.length → m'.length = s.length →
        v.length = a2.length → v'.length = b2.length → False) ∨ ∀ b ∈ B, fermParity isF (b.1.take b1.length) = false) :
    ∃ R, OpT.tensordotState isF W B (axesAt a1.length s.length) (axesAt b1.length s.length) = some R ∧ Conforms ((a1 ++ a2) ++ (b1 ++ b2)) R ∧
      UniqueLabels R ∧
      (∀ u v u' v', u.length = a1.length → v.length = a2.length → u'.length = b1.length → v'.length = b2.length →
        entry R ((u ++ v) ++ (u' ++ v')) =
          ((legIndices s).map fun m => opEntry W (fermParity isF (u'.map Prod.fst)) (u ++ m ++ v) * entry B (u' ++ m ++ v')).sum) ∧
      ∀ r ∈ R, ∃ u v m u' v' : List Q, u.length = a1.length ∧ v.length = a2.length ∧ m.length = s.length ∧ u'.length = b1.length ∧
        v'.length = b2.length ∧ (∃ a, (a ∈ W.odd ∨ a ∈ W.even) ∧ a.1 = u ++ m ++ v) ∧ (∃ b ∈ B, b.1 = u' ++ m ++ v') ∧ r.1 = (u ++ v) ++ (u' ++ v') := by
  have nW : W.ndim = a1.length + s.length + a2.length := by
    rw [OpT.ndim_of ho he hne]; simp; omega
  have hs0 : 0 < s.length := List.length_pos_iff.2 hs
  obtain ⟨Re, x1, x2, x3, x4, x5⟩ := sp_contract a1 s a2 b1 b2 hw W.even B he hB
  obtain ⟨Ro, y1, y2, y3, y4, y5⟩ := sp_contract a1 s a2 b1 b2 hw W.odd B ho hB
  set f := OpT.factor isF (List.range' (a1.length + a2.length) b1.length) with hf
  have hfl : ∀ u v u' v' : List Q, u.length = a1.length → v.length = a2.length → u'.length = b1.length → f ((u ++ v) ++ (u' ++ v')) = fermParity isF u' := by
    intro u v u' v' h1 h2 h3
    rw [hf, factor_eq]
    have := pick_range' (u ++ v) u' v'
    rw [List.length_append, h1, h2, h3] at this
    rw [← List.append_assoc, this]
  have heq : OpT.tensordotState isF W B (axesAt a1.length s.length) (axesAt b1.length s.length) = some (OpT.addAliased Ro Re f fun _ => false) := by
    unfold OpT.tensordotState
    have m1 : (axesAt a1.length s.length).map (SpT.normAxis W.ndim) = List.range' a1.length s.length := normAxes_ofNat _ _
    have m2 : (axesAt b1.length s.length).map (SpT.normAxis B.ndim) = List.range' b1.length s.length := normAxes_ofNat _ _
    unfold axesAt at x1 y1
    simp only [m1, m2, x1, y1, Option.bind_some, Option.map_some, min_range' b1.length s.length hs0]
    have m3 : W.ndim - (List.range' a1.length s.length).length = a1.length + a2.length := by
      simp; omega
    rw [m3]
  refine ⟨_, heq, ?_⟩
  have hlen : ∀ {u v u' v' p q p' q' : List Q}, u.length = p.length → v.length = q.length → u'.length = p'.length →
      (u ++ v) ++ (u' ++ v') = (p ++ q) ++ (p' ++ q') → u = p ∧ v = q ∧ u' = p' ∧ v' = q' := by
    intro u v u' v' p q p' q' h1 h2 h3 h
    obtain ⟨h4, h5⟩ := List.append_inj h (by simp [h1, h2])
    obtain ⟨h6, h7⟩ := List.append_inj h4 h1
    obtain ⟨h8, h9⟩ := List.append_inj h5 h3
    exact ⟨h6, h7, h8, h9⟩
  rcases hsep with hsep | hsep
  · have hu : UniqueLabels (Ro ++ Re) := by
      unfold UniqueLabels at y3 x3 ⊢
      rw [List.map_append, List.nodup_append]
      refine ⟨y3, x3, ?_⟩
      intro q hq q' hq' e
      subst e
      obtain ⟨r, hr, rfl⟩ := List.mem_map.1 hq
      obtain ⟨r', hr', e⟩ := List.mem_map.1 hq'
      obtain ⟨u, v, m, u', v', e1, e2, e3, e4, e5, h1, h2, e6⟩ := y5 r hr
      obtain ⟨p, q, n, p', q', g1, g2, g3, g4, g5, k1, k2, g6⟩ := x5 r' hr'
      rw [e6, g6] at e
      obtain ⟨rfl, rfl, rfl, rfl⟩ := hlen (g1.trans e1.symm) (g2.trans e2.symm) (g4.trans e4.symm) e
      exact hsep p q m n p' q' h1 k1 h2 k2 e1 e4 e3 g3 e2 e5
    refine ⟨conforms_addAliased hu y2 x2 _ _, addAliased_unique _ _ hu _ _, ?_, ?_⟩
    · intro u v u' v' h1 h2 h3 h4
      rw [entry_addAliased _ _ hu, y4 u v u' v' h1 h2 h3 h4, x4 u v u' v' h1 h2 h3 h4]
      have : f (((u ++ v) ++ (u' ++ v')).map Prod.fst) = fermParity isF (u'.map Prod.fst) := by
        simp only [List.map_append]
        exact hfl _ _ _ _ (by simp [h1]) (by simp [h2]) (by simp [h3])
      rw [this, ← sum_map_mul_left', ← sum_map_mul_left', ← sum_map_add']
      refine sum_map_congr' _ _ _ fun m _ => ?_
      unfold opEntry
      simp only [paritySign, Bool.false_eq_true, if_false]
      ring
    · intro r hr
      obtain ⟨c, hc, e, -⟩ := addAliased_labels Ro Re hu _ _ r hr
      rw [← e]
      rcases hc with hc | hc
      · obtain ⟨u, v, m, u', v', e1, e2, e3, e4, e5, ⟨a, ha, h1⟩, h2, e6⟩ := y5 c hc
        exact ⟨u, v, m, u', v', e1, e2, e3, e4, e5, ⟨a, Or.inl ha, h1⟩, h2, e6⟩
      · obtain ⟨u, v, m, u', v', e1, e2, e3, e4, e5, ⟨a, ha, h1⟩, h2, e6⟩ := x5 c hc
        exact ⟨u, v, m, u', v', e1, e2, e3, e4, e5, ⟨a, Or.inr ha, h1⟩, h2, e6⟩
  · have hno : OpT.addAliased Ro Re f (fun _ => false) = Ro.add Re := by
      refine addAliased_none _ _ _ fun r hr => ?_
      obtain ⟨u, v, m, u', v', e1, e2, e3, e4, e5, h1, ⟨b, hb, h2⟩, e6⟩ := y5 r hr
      rw [e6, hfl _ _ _ _ e1 e2 e4]
      have := hsep b hb
      rw [h2, List.append_assoc, ← e4, List.take_left] at this
      exact this
    rw [hno]
    obtain ⟨c1, c2, c3⟩ := C11_add _ Ro Re y2 x2 y3
    refine ⟨c1, c2, ?_, ?_⟩
    · intro u v u' v' h1 h2 h3 h4
      rw [c3, y4 u v u' v' h1 h2 h3 h4, x4 u v u' v' h1 h2 h3 h4, ← sum_map_add']
      refine sum_map_congr' _ _ _ fun m _ => ?_
      by_cases hp : fermParity isF (u'.map Prod.fst) = true
      · have : entry B (u' ++ m ++ v') = 0 := by
          apply entry_of_not_mem
          intro hm
          obtain ⟨b, hb, e⟩ := List.mem_map.1 hm
          have := hsep b hb
          rw [e, List.append_assoc, List.map_append, ← h3, ← List.length_map (f := Prod.fst), List.take_left, hp] at this
          exact absurd this (by simp)
        rw [this, mul_zero, mul_zero, mul_zero, add_zero]
      · rw [Bool.not_eq_true] at hp
        rw [hp]
        unfold opEntry
        simp only [paritySign, Bool.false_eq_true, if_false]
        ring
    · intro r hr
      rcases add_labels Ro Re r.1 (List.mem_map_of_mem hr) with hc | hc
      · obtain ⟨c, hc, e⟩ := List.mem_map.1 hc
        rw [← e]
        obtain ⟨u, v, m, u', v', e1, e2, e3, e4, e5, ⟨a, ha, h1⟩, h2, e6⟩ := y5 c hc
        exact ⟨u, v, m, u', v', e1, e2, e3, e4, e5, ⟨a, Or.inl ha, h1⟩, h2, e6⟩
      · obtain ⟨c, hc, e⟩ := List.mem_map.1 hc
        rw [← e]
        obtain ⟨u, v, m, u', v', e1, e2, e3, e4, e5, ⟨a, ha, h1⟩, h2, e6⟩ := x5 c hc
        exact ⟨u, v, m, u', v', e1, e2, e3, e4, e5, ⟨a, Or.inr ha, h1⟩, h2, e6⟩

theorem axesAt_range' (k n : Nat) : (List.range' k n).map Int.ofNat = axesAt k n := rfl

theorem opSite_ndim {isF : Q → Bool} {wl wr : BondInfo Q} {ups downs : List (BondInfo Q)} {W : OpT Q K} (hW : OpSite isF wl ups downs wr W)
    (hne : W.noBlocks = false) (hl : ups.length = downs.length) : W.ndim = 2 * downs.length + 2 := by
  rw [OpT.ndim_of hW.odd hW.even hne]; simp; omega

/-- The last operator tensor. -/
theorem pdotStep_last (isF : Q → Bool) {m r' r : BondInfo Q} {ups downs pre : List (BondInfo Q)} {W : OpT Q K} {B : SpT Q K}
    (hW : OpSite isF m ups downs r' W) (hl : ups.length = downs.length) (hd : downs ≠ []) (hw : ∀ b ∈ downs, Dict.WF b) (hne : W.noBlocks = false)
    (hB : Conforms (pre ++ downs ++ [r]) B) (eB : EvenBlocks isF B) :
    ∃ R, OpT.pdotStep isF W B pre.length true = some R ∧ Conforms (pre ++ (m :: ups) ++ [r', r]) R ∧ UniqueLabels R ∧
      ∀ v z u y' y, v.length = pre.length → u.length = ups.length → entry R (v ++ (z :: u) ++ [y', y]) =
        ((legIndices downs).map fun d => opEntry W (fermParity isF (v.map Prod.fst)) (z :: u ++ d ++ [y']) * entry B (v ++ d ++ [y])).sum := by
  have hd0 : 0 < downs.length := List.length_pos_iff.2 hd
  have nW := opSite_ndim hW hne hl
  obtain ⟨R, r1, r2, r3, r4, r5⟩ := contract_state isF (a1 := m :: ups) (s := downs) (a2 := [r']) (b1 := pre) (b2 := [r]) hw hd (W := W) (B := B)
    hW.odd hW.even hB hne (Or.inl (by
      rintro u v m m' u' v' ⟨a, ha, ea⟩ ⟨a', ha', ea'⟩ ⟨b, hb, eb⟩ ⟨b', hb', eb'⟩ l1 l2 l3 l4 l5 l6
      rcases u with _ | ⟨w, u⟩
      · simp at l1
      obtain ⟨w', rfl⟩ := List.length_eq_one_iff.1 (l5.trans (by rfl))
      have k1 := hW.oddParity a ha
      have k2 := hW.evenParity a' ha'
      have k3 := eB b hb
      have k4 := eB b' hb'
      rw [ea, show w :: u ++ m ++ [w'] = w :: (u ++ m) ++ [w'] by simp, physLabels_mid, fermParity_append] at k1
      rw [ea', show w :: u ++ m' ++ [w'] = w :: (u ++ m') ++ [w'] by simp, physLabels_mid, fermParity_append] at k2
      rw [eb, fermParity_append, fermParity_append] at k3
      rw [eb', fermParity_append, fermParity_append] at k4
      generalize fermParity isF u = a1 at k1 k2
      generalize fermParity isF m = a2 at k1 k3
      generalize fermParity isF m' = a3 at k2 k4
      generalize fermParity isF u' = a4 at k3 k4
      generalize fermParity isF v' = a5 at k3 k4
      clear * - k1 k2 k3 k4
      revert a1 a2 a3 a4 a5
      decide))
  have r2' : Conforms ((m :: ups ++ [r']) ++ pre ++ [r]) R := by simpa using r2
  obtain ⟨t1, t2, t3, t4⟩ := swap_transpose r2' r3
  have hax : swapAxes (m :: ups ++ [r']).length pre.length [r].length =
      List.range' (downs.length + 2) pre.length ++ List.range' 0 (downs.length + 2) ++ [pre.length + downs.length + 2] := by
    have : (m :: ups ++ [r']).length = downs.length + 2 := by simp [hl]
    rw [this]
    unfold swapAxes
    congr 1
    simp; omega
  refine ⟨_, ?_, by simpa using t1, t2, ?_⟩
  · unfold OpT.pdotStep
    rw [if_neg (by omega)]
    have e : W.ndim / 2 - 1 = downs.length := by omega
    simp only [e, axesAt_range', if_true]
    have e1 : downs.length + 1 = (m :: ups).length := by simp [hl]
    rw [e1, r1, Option.map_some, hax]
  · intro v z u y' y hv hu
    have h1 := t3 (z :: u ++ [y']) v [y] (by simp [hu]) hv rfl
    have e1 : v ++ (z :: u) ++ [y', y] = v ++ (z :: u ++ [y']) ++ [y] := by simp
    rw [e1, h1]
    have h2 := r4 (z :: u) [y'] v [y] (by simp [hu]) rfl hv rfl
    rw [show z :: u ++ [y'] ++ v ++ [y] = (z :: u ++ [y']) ++ (v ++ [y]) by simp, h2]

/-- An operator tensor before the last one. -/
theorem pdotStep_inner (isF : Q → Bool) {m m' : BondInfo Q} {ups downs pre rest : List (BondInfo Q)} {W : OpT Q K} {B : SpT Q K}
    (hW : OpSite isF m ups downs m' W) (hl : ups.length = downs.length) (hd : downs ≠ []) (hw : ∀ b ∈ downs, Dict.WF b) (hm : Dict.WF m')
    (hne : W.noBlocks = false) (hB : Conforms (pre ++ (downs ++ [m']) ++ rest) B) (hr : B ≠ [])
    (hsep : ∀ b ∈ B, fermParity isF (b.1.take pre.length) = false) :
    ∃ R, OpT.pdotStep isF W B pre.length false = some R ∧ Conforms (pre ++ (m :: ups) ++ rest) R ∧ UniqueLabels R ∧
      ∀ v z u w, v.length = pre.length → u.length = ups.length → w.length = rest.length → entry R (v ++ (z :: u) ++ w) =
        ((legIndices downs).map fun d => ((legBasis m').map fun z' => opEntry W (fermParity isF (v.map Prod.fst)) (z :: u ++ d ++ [z']) *
          entry B (v ++ (d ++ [z']) ++ w)).sum).sum := by
  have hd0 : 0 < downs.length := List.length_pos_iff.2 hd
  have nW := opSite_ndim hW hne hl
  have nB : B.ndim = pre.length + downs.length + 1 + rest.length := by
    rw [ndim_of_conforms hB hr]; simp; omega
  have ho : Conforms ((m :: ups) ++ (downs ++ [m']) ++ []) W.odd := by simpa using hW.odd
  have he : Conforms ((m :: ups) ++ (downs ++ [m']) ++ []) W.even := by simpa using hW.even
  obtain ⟨R, r1, r2, r3, r4, r5⟩ := contract_state isF (a1 := m :: ups) (s := downs ++ [m']) (a2 := []) (b1 := pre) (b2 := rest)
    (by
      intro b hb
      rcases List.mem_append.1 hb with h | h
      · exact hw b h
      · rw [List.mem_singleton.1 h]; exact hm) (by simp) (W := W) (B := B) ho he hB hne (by
      exact Or.inr hsep)
  have r2' : Conforms ((m :: ups) ++ pre ++ rest) R := by simpa using r2
  obtain ⟨t1, t2, t3, t4⟩ := swap_transpose r2' r3
  have hax : swapAxes (m :: ups).length pre.length rest.length =
      List.range' (downs.length + 1) pre.length ++ List.range' 0 (downs.length + 1) ++ List.range' (pre.length + downs.length + 1)
        (B.ndim - (pre.length + downs.length + 1)) := by
    have : (m :: ups).length = downs.length + 1 := by simp [hl]
    rw [this, nB]
    unfold swapAxes
    congr 2 <;> omega
  refine ⟨_, ?_, t1, t2, ?_⟩
  · unfold OpT.pdotStep
    rw [if_neg (by omega)]
    have e : W.ndim / 2 - 1 = downs.length := by omega
    simp only [e, axesAt_range', Bool.false_eq_true, if_false]
    have e1 : axesAt (m :: ups).length (downs ++ [m']).length = axesAt (downs.length + 1) (downs.length + 1) := by simp [hl]
    have e2 : axesAt pre.length (downs ++ [m']).length = axesAt pre.length (downs.length + 1) := by simp
    rw [← e1, ← e2, r1, Option.map_some, hax]
  · intro v z u w hv hu hw'
    rw [t3 (z :: u) v w (by simp [hu]) hv hw']
    have h2 := r4 (z :: u) [] v w (by simp [hu]) rfl hv hw'
    rw [show z :: u ++ v ++ w = (z :: u ++ []) ++ (v ++ w) by simp, h2, legIndices_snoc_sum]
    refine sum_map_congr' _ _ _ fun d _ => sum_map_congr' _ _ _ fun z' _ => ?_
    simp

end
end Verif
