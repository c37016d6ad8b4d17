import Verif.Proof.FermTrace

/-!
The trace of a fermionic tensor, from the loops to the result.
-/

set_option linter.unusedSectionVars false

namespace Verif
variable {Q K : Type}

theorem sideBySide_eq (ax1 ax2 : List Nat) : sideBySide ax1 ax2 = (FermT.tracePairs ax1 ax2).flatMap fun p => [p.1, p.2] := by
  unfold sideBySide FermT.tracePairs
  rw [List.flatMap_map]

theorem tracePairs_length {ax1 ax2 : List Nat} (h : ax1.length = ax2.length) : (FermT.tracePairs ax1 ax2).length = ax1.length := by
  unfold FermT.tracePairs
  simp [h]

theorem min_max_cases (i j : Nat) : (min i j = i ∧ max i j = j) ∨ (min i j = j ∧ max i j = i) := by omega

theorem tracePairs_perm {ax1 ax2 : List Nat} (h : ax1.length = ax2.length) :
    ((FermT.tracePairs ax1 ax2).map Prod.fst ++ (FermT.tracePairs ax1 ax2).map Prod.snd).Perm (ax1 ++ ax2) := by
  induction ax1 generalizing ax2 with
  | nil => cases ax2 with
    | nil => exact .refl _
    | cons => simp at h
  | cons i t ih => cases ax2 with
    | nil => simp at h
    | cons j u =>
      have ih := ih (ax2 := u) (by simpa using h)
      have e : FermT.tracePairs (i :: t) (j :: u) = (min i j, max i j) :: FermT.tracePairs t u := rfl
      rw [e]
      simp only [List.map_cons, List.cons_append]
      have h1 : (min i j :: ((FermT.tracePairs t u).map Prod.fst ++ max i j :: (FermT.tracePairs t u).map Prod.snd)).Perm
          (min i j :: max i j :: (t ++ u)) :=
        (List.perm_middle.trans (ih.cons _)).cons _
      have h2 : (min i j :: max i j :: (t ++ u)).Perm (i :: j :: (t ++ u)) := by
        rcases min_max_cases i j with ⟨e1, e2⟩ | ⟨e1, e2⟩
        · rw [e1, e2]
        · rw [e1, e2]; exact .swap _ _ _
      exact h1.trans (h2.trans ((List.perm_middle.symm).cons _))

theorem flatMap_pair_perm (ps : List (Nat × Nat)) : (ps.flatMap fun p => [p.1, p.2]).Perm (ps.map Prod.fst ++ ps.map Prod.snd) := by
  induction ps with
  | nil => exact .refl _
  | cons p t ih =>
    simp only [List.flatMap_cons, List.map_cons, List.cons_append, List.nil_append]
    exact ((ih.cons _).trans List.perm_middle.symm).cons _

theorem sideBySide_perm {ax1 ax2 : List Nat} (h : ax1.length = ax2.length) : (sideBySide ax1 ax2).Perm (ax1 ++ ax2) := by
  rw [sideBySide_eq]
  exact (flatMap_pair_perm _).trans (tracePairs_perm h)

theorem outAxes_perm {n : Nat} {l m : List Nat} (h : l.Perm m) : SpT.outAxes n l = SpT.outAxes n m := by
  unfold SpT.outAxes
  apply List.filter_congr
  intro i _
  have := h.mem_iff (a := i)
  simp [this]

/-- A relation that holds between paired axes, in both directions, holds between the sorted pairs. -/
theorem tracePairs_forall {ax1 ax2 : List Nat} {r : Nat → Nat → Prop} (h : List.Forall₂ r ax1 ax2) (hs : ∀ i j, r i j → r j i) :
    ∀ p ∈ FermT.tracePairs ax1 ax2, r p.1 p.2 := by
  induction h with
  | nil => intro p hp; simp [FermT.tracePairs] at hp
  | @cons i j t u h1 _ ih =>
    have e : FermT.tracePairs (i :: t) (j :: u) = (min i j, max i j) :: FermT.tracePairs t u := rfl
    rw [e]
    intro p hp
    rcases List.mem_cons.1 hp with rfl | hp
    · rcases min_max_cases i j with ⟨e1, e2⟩ | ⟨e1, e2⟩
      · simp only [e1, e2]; exact h1
      · simp only [e1, e2]; exact hs _ _ h1
    · exact ih p hp

theorem tracePairs_pick {α : Type} (d : α) (xs : List α) {ax1 ax2 : List Nat} (h : ax1.map (fun i => xs.getD i d) = ax2.map fun i => xs.getD i d) :
    (FermT.tracePairs ax1 ax2).map (fun p => xs.getD p.1 d) = ax1.map (fun i => xs.getD i d) ∧
    (FermT.tracePairs ax1 ax2).map (fun p => xs.getD p.2 d) = ax1.map (fun i => xs.getD i d) := by
  induction ax1 generalizing ax2 with
  | nil => simp [FermT.tracePairs]
  | cons i t ih => cases ax2 with
    | nil => simp at h
    | cons j u =>
      simp only [List.map_cons, List.cons.injEq] at h
      obtain ⟨ih1, ih2⟩ := ih h.2
      have e : FermT.tracePairs (i :: t) (j :: u) = (min i j, max i j) :: FermT.tracePairs t u := rfl
      rw [e]
      simp only [List.map_cons, ih1, ih2]
      rcases min_max_cases i j with ⟨e1, e2⟩ | ⟨e1, e2⟩
      · rw [e1, e2, h.1]; exact ⟨rfl, rfl⟩
      · rw [e1, e2, h.1]; exact ⟨rfl, rfl⟩

theorem pick_pairs_twice [Zero Q] (ps : List (Nat × Nat)) (x c : List (Q × Nat)) (h1 : pick (ps.map Prod.fst) x = c)
    (h2 : pick (ps.map Prod.snd) x = c) : pick (ps.flatMap fun p => [p.1, p.2]) x = twice c := by
  subst h1
  unfold twice pick at *
  induction ps with
  | nil => rfl
  | cons p t ih =>
    simp only [List.map_cons, List.cons.injEq] at h2
    simp only [List.flatMap_cons, List.map_cons, List.map_append, ih h2.2, List.map_nil]
    rw [h2.1]

section
variable [DecidableEq Q] [AddCommGroup Q]

theorem signedSum_getD (pattern : List Bool) (qs : List Q) (h : pattern.length = qs.length) :
    signedSum pattern qs = ((List.range qs.length).map fun i => if pattern.getD i true then qs.getD i 0 else -qs.getD i 0).sum := by
  unfold signedSum
  congr 1
  apply List.ext_getElem
  · simp [h]
  · intro i h1 h2
    simp only [List.length_map, List.length_zip, List.length_range] at h1 h2
    have hp : i < pattern.length := by omega
    simp [hp, h2]

/-- Pairs with equal labels and opposite signs carry no charge. -/
theorem signedSum_pairs (pattern : List Bool) (qs : List Q) (h : pattern.length = qs.length) (ps : List (Nat × Nat))
    (hp : (ps.flatMap fun p => [p.1, p.2]).Perm (List.range qs.length))
    (hpat : ∀ p ∈ ps, pattern.getD p.1 true = !pattern.getD p.2 true)
    (hq : pick (ps.map Prod.fst) qs = pick (ps.map Prod.snd) qs) : signedSum pattern qs = 0 := by
  rw [signedSum_getD pattern qs h, ← (hp.map _).sum_eq]
  clear hp
  induction ps with
  | nil => rfl
  | cons p t ih =>
    unfold pick at hq ih
    simp only [List.map_cons, List.cons.injEq] at hq
    simp only [List.flatMap_cons, List.map_append, List.sum_append, ih (fun r hr => hpat r (List.mem_cons_of_mem _ hr)) hq.2]
    have := hpat p List.mem_cons_self
    rw [add_zero]
    simp only [List.map_cons, List.map_nil, List.sum_cons, List.sum_nil, this, hq.1]
    generalize qs.getD p.2 0 = v
    cases pattern.getD p.2 true <;> simp

variable [CommRing K]

theorem entry_eq_zero_of {T : SpT Q K} {x : List (Q × Nat)} (h : ∀ b ∈ T, b.1 ≠ x.map Prod.fst) : entry T x = 0 := by
  unfold entry
  apply List.sum_eq_zero
  intro v hv
  obtain ⟨b, hb, rfl⟩ := List.mem_map.1 hv
  unfold blockEntry
  rw [if_neg]
  exact fun e => h b hb e.1

/-- The index with `c` on both traced lists and `f` on the other legs. -/
def traceIndex (n : Nat) (ax1 ax2 : List Nat) (c f : List (Q × Nat)) : List (Q × Nat) :=
  unpick ((FermT.tracePairs ax1 ax2).map Prod.fst ++ (FermT.tracePairs ax1 ax2).map Prod.snd ++ SpT.outAxes n (ax1 ++ ax2)) (c ++ c ++ f)

theorem Traceable.perm {T : FermT Q K} {legs : List (BondInfo Q)} {ax1 ax2 : List Nat} (h : Traceable T legs ax1 ax2) :
    ((FermT.tracePairs ax1 ax2).map Prod.fst ++ (FermT.tracePairs ax1 ax2).map Prod.snd ++ SpT.outAxes legs.length (ax1 ++ ax2)).Perm
      (List.range legs.length) :=
  (List.Perm.append_right _ (tracePairs_perm h.len)).trans (idx_out_perm h.nd h.lt)

theorem Traceable.perm' {T : FermT Q K} {legs : List (BondInfo Q)} {ax1 ax2 : List Nat} (h : Traceable T legs ax1 ax2) :
    (sideBySide ax1 ax2 ++ SpT.outAxes legs.length (ax1 ++ ax2)).Perm (List.range legs.length) :=
  (List.Perm.append_right _ (sideBySide_perm h.len)).trans (idx_out_perm h.nd h.lt)

theorem Traceable.index {T : FermT Q K} {legs : List (BondInfo Q)} {ax1 ax2 : List Nat} (h : Traceable T legs ax1 ax2) {c f : List (Q × Nat)}
    (hc : c.length = ax1.length) (hf : f.length = (SpT.outAxes legs.length (ax1 ++ ax2)).length) :
    (traceIndex legs.length ax1 ax2 c f).length = legs.length ∧
    pick ((FermT.tracePairs ax1 ax2).map Prod.fst) (traceIndex legs.length ax1 ax2 c f) = c ∧
    pick ((FermT.tracePairs ax1 ax2).map Prod.snd) (traceIndex legs.length ax1 ax2 c f) = c ∧
    pick (SpT.outAxes legs.length (ax1 ++ ax2)) (traceIndex legs.length ax1 ax2 c f) = f := by
  have hp := h.perm
  have hn := perm_range_length hp
  have hl := tracePairs_length h.len
  simp only [List.length_append, List.length_map, hl] at hn
  have hv : (c ++ c ++ f).length = legs.length := by simp; omega
  have := pick_unpick hp (c ++ c ++ f) hv
  rw [pick_append, pick_append] at this
  obtain ⟨h1, h2⟩ := List.append_inj this (by simp [hc, hl])
  obtain ⟨h3, h4⟩ := List.append_inj h1 (by simp [hc, hl])
  refine ⟨?_, h3, h4, h2⟩
  unfold traceIndex
  rw [unpick_length]
  simp [hl]; omega

/-- The value in terms of the entries of the tensor itself. -/
theorem traceValue_eq (par : Q → Nat) {T : FermT Q K} {legs : List (BondInfo Q)} {ax1 ax2 : List Nat} (h : Traceable T legs ax1 ax2)
    {f : List (Q × Nat)} (hf : f.length = (SpT.outAxes legs.length (ax1 ++ ax2)).length) :
    traceValue par T legs ax1 ax2 f = ((legIndices (ax1.map fun i => legs.getD i [])).map fun c =>
      ((reorderSign (legOdd par (traceIndex legs.length ax1 ax2 c f)) (sideBySide ax1 ax2 ++ SpT.outAxes legs.length (ax1 ++ ax2)) : Int) : K) *
        entry T.blocks (traceIndex legs.length ax1 ax2 c f)).sum := by
  unfold traceValue
  apply sum_map_congr'
  intro c hc
  have hcl : c.length = ax1.length := by rw [legIndices_length hc, List.length_map]
  obtain ⟨h1, h2, h3, h4⟩ := h.index hcl hf
  have := C25_entry par legs T h.on _ h.perm' _ h1
  change entry _ (pick _ _) = _ at this
  rw [pick_append, h4, sideBySide_eq, pick_pairs_twice _ _ c h2 h3] at this
  rw [freeAxes_eq, sideBySide_eq]
  exact this

/-- C73: the trace. -/
theorem trace_spec (par : Q → Nat) {T : FermT Q K} {legs : List (BondInfo Q)} {ax1 ax2 : List Nat} (h : Traceable T legs ax1 ax2) :
    ∃ R, T.trace par ax1 ax2 = some R ∧
      IsResult R ((freeAxes legs.length (ax1 ++ ax2)).map fun i => T.pattern.getD i true)
        ((freeAxes legs.length (ax1 ++ ax2)).map fun i => legs.getD i []) (traceValue par T legs ax1 ax2) := by
  have hps := tracePairs_length h.len
  have hperm := tracePairs_perm h.len
  have hpk := tracePairs_pick [] legs h.bonds
  have hpat := tracePairs_forall h.pat (fun i j e => by rw [e]; simp)
  have hnd := ndim_eq h.on h.ne
  have hp1 : pick ((FermT.tracePairs ax1 ax2).map Prod.fst) legs = ax1.map fun i => legs.getD i [] := by
    have := hpk.1
    rw [← this]; unfold pick; rw [List.map_map]; rfl
  have hp2 : pick ((FermT.tracePairs ax1 ax2).map Prod.snd) legs = ax1.map fun i => legs.getD i [] := by
    have := hpk.2
    rw [← this]; unfold pick; rw [List.map_map]; rfl
  have hout : SpT.outAxes legs.length (ax1 ++ ax2) =
      SpT.outAxes legs.length ((FermT.tracePairs ax1 ax2).map Prod.fst ++ (FermT.tracePairs ax1 ax2).map Prod.snd) := outAxes_perm hperm.symm
  obtain ⟨m, hm, hcm, hum, hem⟩ := traceBlocks_spec par T h.on (FermT.tracePairs ax1 ax2) (hperm.nodup_iff.2 h.nd)
    (fun i hi => h.lt i (hperm.mem_iff.1 hi)) (hp1.trans hp2.symm) (by
      rw [hp1]; intro l hl; obtain ⟨i, hi, rfl⟩ := List.mem_map.1 hl; exact h.wf i hi) hpat _ hout
  rw [hp1] at hem
  have hval : ∀ f, f.length = (SpT.outAxes legs.length (ax1 ++ ax2)).length → entry m f = traceValue par T legs ax1 ax2 f := by
    intro f hf
    rw [hem f hf, traceValue_eq par h hf]
    apply sum_map_congr'
    intro c hc
    have hcl : c.length = ax1.length := by rw [legIndices_length hc, List.length_map]
    obtain ⟨h1, h2, h3, h4⟩ := h.index hcl hf
    change entry _ (traceIndex legs.length ax1 ax2 c f) = _
    rw [entry_scaleBlocks]
    congr 2
    have hs := sideBySide_perm h.len
    have := computePhase_left (((traceIndex legs.length ax1 ax2 c f).map Prod.fst).map par) (sideBySide ax1 ax2) (hs.nodup_iff.2 h.nd)
      (by intro i hi; simp only [List.length_map, h1]; exact h.lt i (hs.mem_iff.1 hi))
    rw [← sideBySide_eq, this, legOdd_eq]
    simp only [List.length_map, h1]
    rw [outAxes_perm hs]
  have hn := perm_range_length h.perm
  simp only [List.length_append, List.length_map, hps] at hn
  obtain ⟨d, hd⟩ := h.charge
  obtain ⟨b0, hb0⟩ : ∃ b0, T.blocks.head? = some b0 := by
    cases hT : T.blocks with
    | nil => exact absurd hT h.ne
    | cons b t => exact ⟨b, rfl⟩
  have hdq : T.dq = some d := by
    unfold FermT.dq
    rw [hb0, Option.map_some, BondFusingInfo.combine_eq, hd b0 (List.mem_of_head? hb0)]
  unfold FermT.trace
  rw [if_neg (by simpa using h.len), hdq, Option.bind_some, hnd]
  simp only [hps]
  by_cases hz : ax1.length + ax1.length = legs.length ∧ d ≠ 0
  · refine ⟨.inl 0, if_pos hz, ?_⟩
    have ho : SpT.outAxes legs.length (ax1 ++ ax2) = [] := List.eq_nil_of_length_eq_zero (by omega)
    refine ⟨by rw [freeAxes_eq, ho]; rfl, ?_⟩
    rw [traceValue_eq par h (by rw [ho]; rfl)]
    symm
    apply List.sum_eq_zero
    intro v hv
    obtain ⟨c, hc, rfl⟩ := List.mem_map.1 hv
    have hcl : c.length = ax1.length := by rw [legIndices_length hc, List.length_map]
    obtain ⟨h1, h2, h3, h4⟩ := h.index hcl (by rw [ho]; rfl : ([] : List (Q × Nat)).length = _)
    rw [entry_eq_zero_of, mul_zero]
    intro b hb e
    apply hz.2
    rw [← hd b hb, e]
    have hpp := h.perm'
    rw [ho, List.append_nil, sideBySide_eq] at hpp
    have hmap : ∀ p : List Nat, (∀ i ∈ p, i < legs.length) → pick p ((traceIndex legs.length ax1 ax2 c []).map Prod.fst) =
        (pick p (traceIndex legs.length ax1 ax2 c [])).map Prod.fst := by
      intro p hpp
      unfold pick
      rw [List.map_map]
      apply List.map_congr_left
      intro i hi
      simp [h1, hpp i hi]
    apply signedSum_pairs _ _ (by rw [List.length_map, h1, h.plen]) (FermT.tracePairs ax1 ax2) (by rw [List.length_map, h1]; exact hpp) hpat
    rw [hmap _ (fun i hi => h.lt i (hperm.mem_iff.1 (List.mem_append_left _ hi))),
      hmap _ (fun i hi => h.lt i (hperm.mem_iff.1 (List.mem_append_right _ hi))), h2, h3]
  · rw [if_neg hz, hm, Option.map_some]
    by_cases ho : SpT.outAxes legs.length (ax1 ++ ax2) = []
    · rw [if_neg (by simp [ho])]
      refine ⟨_, rfl, by rw [freeAxes_eq, ho]; rfl, ?_⟩
      rw [← hval [] (by rw [ho]; rfl)]
      unfold entry
      congr 1
      apply List.map_congr_left
      intro b hb
      have := hcm b hb
      rw [ho] at this
      have hl := this.lengths
      unfold blockEntry
      have e1 : b.1 = [] := List.eq_nil_of_length_eq_zero hl.1
      have e2 : b.2.shape = [] := List.eq_nil_of_length_eq_zero hl.2
      rw [e1, e2]
      simp [inBox]
    · rw [if_pos (by simpa using ho)]
      refine ⟨_, rfl, by rw [freeAxes_eq]; simpa using ho, by rw [freeAxes_eq], by rw [freeAxes_eq]; exact hcm, hum, ?_⟩
      intro f hf
      rw [freeAxes_eq, List.length_map] at hf
      exact hval f hf

end
end Verif
