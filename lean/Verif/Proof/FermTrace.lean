import Verif.Spec.FermTrace
import Verif.Thm.Fermion
import Verif.Proof.Fusing

/-!
Lemmas for the trace of fermionic tensors.
-/

set_option linter.unusedSectionVars false

namespace Verif
variable {Q K : Type}

section
variable [DecidableEq Q]

/-- One block at an index given leg by leg in another order. -/
theorem blockEntry_unpick [Zero Q] [Zero K] {legs : List (BondInfo Q)} {d : List Q × Arr K} (hd : IsCombination legs d.1 d.2.shape)
    {order : List Nat} (hp : order.Perm (List.range legs.length)) (v : List (Q × Nat)) (hv : v.length = legs.length) :
    blockEntry d (unpick order v) = if pick order d.1 = v.map Prod.fst ∧ inBox (pick order d.2.shape) (v.map Prod.snd) = true then
      d.2.get (unpick order (v.map Prod.snd)) else 0 := by
  unfold blockEntry
  rw [map_unpick Prod.fst rfl, map_unpick Prod.snd rfl]
  have e1 := eq_unpick_iff hp d.1 (v.map Prod.fst) hd.lengths.1 (by simp; omega)
  have e2 := inBox_unpick hp d.2.shape (v.map Prod.snd) hd.lengths.2 (by simp; omega)
  rw [e2]
  simp only [e1]

theorem legs_pick_eq {legs : List (BondInfo Q)} (idx : List Nat) : idx.map (fun i => legs.getD i []) = pick idx legs := rfl

/-- The diagonal sum of one block. -/
theorem trace_entry [Zero Q] [CommRing K] {legs : List (BondInfo Q)} {b : List Q × Arr K} (hb : IsCombination legs b.1 b.2.shape)
    {a1 a2 : List Nat} (hnd : (a1 ++ a2).Nodup) (hlt : ∀ i ∈ a1 ++ a2, i < legs.length)
    (hl : pick a1 legs = pick a2 legs) (hw : ∀ l ∈ pick a1 legs, Dict.WF l) (f : List (Q × Nat))
    (hf : f.length = (SpT.outAxes legs.length (a1 ++ a2)).length) :
    ((legIndices (pick a1 legs)).map fun c => blockEntry b (unpick (a1 ++ a2 ++ SpT.outAxes legs.length (a1 ++ a2)) (c ++ c ++ f))).sum =
      if pick a1 b.1 = pick a2 b.1 then
        blockEntry (pick (SpT.outAxes legs.length (a1 ++ a2)) b.1, b.2.traceAxes a1 a2 (SpT.outAxes legs.length (a1 ++ a2))) f
      else 0 := by
  set out := SpT.outAxes legs.length (a1 ++ a2) with hout
  have hp : (a1 ++ a2 ++ out).Perm (List.range legs.length) := idx_out_perm hnd hlt
  have hn := perm_range_length hp
  simp only [List.length_append] at hn
  have hll : a1.length = a2.length := by have := congrArg List.length hl; simpa using this
  have hc1 := hb.pick (fun i hi => hlt i (List.mem_append_left _ hi) : ∀ i ∈ a1, i < legs.length)
  have hc2 := hb.pick (fun i hi => hlt i (List.mem_append_right _ hi) : ∀ i ∈ a2, i < legs.length)
  have step : ∀ c ∈ legIndices (pick a1 legs), blockEntry b (unpick (a1 ++ a2 ++ out) (c ++ c ++ f)) =
      if pick a1 b.1 = pick a2 b.1 then
        (if pick a1 b.1 = c.map Prod.fst ∧ inBox (pick a1 b.2.shape) (c.map Prod.snd) = true then
          (if pick out b.1 = f.map Prod.fst ∧ inBox (pick out b.2.shape) (f.map Prod.snd) = true then
            b.2.get (unpick (a1 ++ a2 ++ out) (c.map Prod.snd ++ c.map Prod.snd ++ f.map Prod.snd)) else 0) else 0)
      else 0 := by
    intro c hc
    have hcl : c.length = a1.length := by rw [legIndices_length hc, pick_length]
    rw [blockEntry_unpick hb hp _ (by simp; omega)]
    simp only [List.map_append, pick_append]
    rw [inBox_append (by simp [hcl, ← hll]), inBox_append (by simp [hcl])]
    have e3 : (pick a1 b.1 ++ pick a2 b.1 ++ pick out b.1 = c.map Prod.fst ++ c.map Prod.fst ++ f.map Prod.fst) ↔
        (pick a1 b.1 = c.map Prod.fst ∧ pick a2 b.1 = c.map Prod.fst ∧ pick out b.1 = f.map Prod.fst) := by
      constructor
      · intro h
        obtain ⟨h1, h2⟩ := List.append_inj h (by simp [hcl, ← hll])
        obtain ⟨h3, h4⟩ := List.append_inj h1 (by simp [hcl])
        exact ⟨h3, h4, h2⟩
      · rintro ⟨h1, h2, h3⟩; rw [h1, h2, h3]
    simp only [e3, Bool.and_eq_true]
    by_cases e : pick a1 b.1 = pick a2 b.1
    · have hs : pick a2 b.2.shape = pick a1 b.2.shape := by
        rw [← hl, ← e] at hc2
        exact hc2.shape_unique hc1
      rw [if_pos e, hs, ← e]
      by_cases h1 : pick a1 b.1 = c.map Prod.fst ∧ inBox (pick a1 b.2.shape) (c.map Prod.snd) = true
      · rw [if_pos h1]
        by_cases h2 : pick out b.1 = f.map Prod.fst ∧ inBox (pick out b.2.shape) (f.map Prod.snd) = true
        · rw [if_pos h2, if_pos ⟨⟨h1.1, h1.1, h2.1⟩, ⟨h1.2, h1.2⟩, h2.2⟩]
        · rw [if_neg h2, if_neg (fun h => h2 ⟨h.1.2.2, h.2.2⟩)]
      · rw [if_neg h1, if_neg (fun h => h1 ⟨h.1.1, h.2.1.1⟩)]
    · rw [if_neg e, if_neg]
      rintro ⟨⟨h1, h2, _⟩, _⟩
      exact e (h1.trans h2.symm)
  rw [List.map_congr_left step]
  by_cases e : pick a1 b.1 = pick a2 b.1
  · simp only [if_pos e]
    rw [legIndices_sum hw hc1 (fun k => if pick out b.1 = f.map Prod.fst ∧ inBox (pick out b.2.shape) (f.map Prod.snd) = true then
      b.2.get (unpick (a1 ++ a2 ++ out) (k ++ k ++ f.map Prod.snd)) else 0)]
    unfold blockEntry Arr.traceAxes
    simp only
    by_cases h2 : pick out b.1 = f.map Prod.fst ∧ inBox (pick out b.2.shape) (f.map Prod.snd) = true
    · simp only [if_pos h2]
    · simp only [if_neg h2]
      simp
  · simp only [if_neg e]
    simp

end

section
variable [DecidableEq Q] [AddCommGroup Q]

theorem combine_opposite (x y : Q) (s t : Bool) (h : s = !t) : BondFusingInfo.combine [x, y] [s, t] = 0 ↔ x = y := by
  subst h
  unfold BondFusingInfo.combine BondFusingInfo.signedLabels
  cases t
  · simp only [List.zip_cons_cons, List.zip_nil_right, List.map_cons, List.map_nil, List.foldl_cons, List.foldl_nil]
    simp [add_neg_eq_zero]
  · simp only [List.zip_cons_cons, List.zip_nil_right, List.map_cons, List.map_nil, List.foldl_cons, List.foldl_nil]
    simp [neg_add_eq_zero]

/-- On legs with opposite signs a block is aligned if paired labels agree. -/
theorem aligned_iff (pattern : List Bool) (ps : List (Nat × Nat)) (h : ∀ p ∈ ps, pattern.getD p.1 true = !pattern.getD p.2 true) (qs : List Q) :
    FermT.aligned pattern ps qs = true ↔ pick (ps.map Prod.fst) qs = pick (ps.map Prod.snd) qs := by
  induction ps with
  | nil => simp [FermT.aligned, pick]
  | cons p t ih =>
    have ih := ih fun q hq => h q (List.mem_cons_of_mem _ hq)
    unfold FermT.aligned pick at ih ⊢
    simp only [List.all_cons, Bool.and_eq_true, ih, List.map_cons, List.cons.injEq, decide_eq_true_eq]
    rw [combine_opposite _ _ _ _ (h p List.mem_cons_self)]

theorem conforms_map {legs' : List (BondInfo Q)} {T : SpT Q K} (g : List Q × Arr K → List Q × Arr K)
    (h : ∀ b ∈ T, IsCombination legs' (g b).1 (g b).2.shape) : Conforms legs' (T.map g) := by
  intro b hb
  obtain ⟨a, ha, rfl⟩ := List.mem_map.1 hb
  exact h a ha

/-- The loops of `trace`. -/
theorem traceBlocks_spec [CommRing K] (par : Q → Nat) {legs : List (BondInfo Q)} (T : FermT Q K) (hT : Conforms legs T.blocks) (ps : List (Nat × Nat))
    (hnd : (ps.map Prod.fst ++ ps.map Prod.snd).Nodup) (hlt : ∀ i ∈ ps.map Prod.fst ++ ps.map Prod.snd, i < legs.length)
    (hl : pick (ps.map Prod.fst) legs = pick (ps.map Prod.snd) legs) (hw : ∀ l ∈ pick (ps.map Prod.fst) legs, Dict.WF l)
    (hpat : ∀ p ∈ ps, T.pattern.getD p.1 true = !T.pattern.getD p.2 true) (out : List Nat)
    (hout : out = SpT.outAxes legs.length (ps.map Prod.fst ++ ps.map Prod.snd)) :
    ∃ m, FermT.traceBlocks par T ps out = some m ∧ Conforms (pick out legs) m ∧ UniqueLabels m ∧
      ∀ f, f.length = out.length → entry m f = ((legIndices (pick (ps.map Prod.fst) legs)).map fun c =>
        entry (scaleBlocks (fun q => ((computePhase (q.map par) (ps.flatMap fun p => [p.1, p.2]) false : Int) : K)) T.blocks)
          (unpick (ps.map Prod.fst ++ ps.map Prod.snd ++ out) (c ++ c ++ f))).sum := by
  set a1 := ps.map Prod.fst
  set a2 := ps.map Prod.snd
  set φ : List Q → K := fun q => ((computePhase (q.map par) (ps.flatMap fun p => [p.1, p.2]) false : Int) : K) with hφ
  have hal : ∀ qs : List Q, FermT.aligned T.pattern ps qs = decide (pick a1 qs = pick a2 qs) := by
    intro qs
    rw [Bool.eq_iff_iff, decide_eq_true_eq]
    exact aligned_iff T.pattern ps hpat qs
  have hsq : ((T.blocks.filter fun b => FermT.aligned T.pattern ps b.1).all fun b => decide (pick a1 b.2.shape = pick a2 b.2.shape)) = true := by
    rw [List.all_eq_true]
    intro b hb
    obtain ⟨h1, h2⟩ := List.mem_filter.1 hb
    rw [hal, decide_eq_true_eq] at h2
    rw [decide_eq_true_eq]
    have hc := hT b h1
    have hc1 := hc.pick (fun i hi => hlt i (List.mem_append_left _ hi) : ∀ i ∈ a1, i < legs.length)
    have hc2 := hc.pick (fun i hi => hlt i (List.mem_append_right _ hi) : ∀ i ∈ a2, i < legs.length)
    rw [← hl, ← h2] at hc2
    exact hc1.shape_unique hc2
  set g : List Q × Arr K → List Q × Arr K := fun b => (pick out b.1, (b.2.traceAxes a1 a2 out).mapK (· * φ b.1)) with hg
  have hfold := foldl_accumulate (legs := pick out legs) ((T.blocks.filter fun b => FermT.aligned T.pattern ps b.1).map g) []
    (by intro b hb; simp at hb) (conforms_map g (by
      intro b hb
      have := (hT b (List.mem_filter.1 hb).1).pick (axes := out) (by
        intro i hi; rw [hout, mem_outAxes] at hi; exact hi.1)
      exact this)) (by unfold UniqueLabels; simp)
  refine ⟨_, if_pos hsq, ?_⟩
  simp only [List.foldl_map] at hfold
  refine ⟨hfold.1, hfold.2.1, fun f hf => ?_⟩
  have h3 := hfold.2.2 f
  refine h3.trans ?_
  have h0 : entry ([] : SpT Q K) f = 0 := rfl
  rw [h0, zero_add]
  -- the sums
  have hb : ∀ b ∈ T.blocks, ((legIndices (pick a1 legs)).map fun c => blockEntry (b.1, b.2.mapK (· * φ b.1)) (unpick (a1 ++ a2 ++ out) (c ++ c ++ f))).sum =
      if FermT.aligned T.pattern ps b.1 = true then blockEntry (g b) f else 0 := by
    intro b hb
    have := trace_entry (hT b hb : IsCombination legs b.1 (b.2.mapK (· * φ b.1)).shape) (b := (b.1, b.2.mapK (· * φ b.1))) hnd hlt hl hw f (by rw [← hout]; exact hf)
    rw [← hout] at this
    rw [this, hal]
    simp only [decide_eq_true_eq]
    by_cases e : pick a1 b.1 = pick a2 b.1
    · rw [if_pos e, if_pos e]
      unfold blockEntry
      simp only [hg]
      have : (b.2.mapK (· * φ b.1)).traceAxes a1 a2 out = (b.2.traceAxes a1 a2 out).mapK (· * φ b.1) := by
        unfold Arr.traceAxes Arr.mapK
        simp only [Arr.mk.injEq, true_and]
        funext ix
        exact sum_map_mul_right' _ _ _
      rw [this]
    · rw [if_neg e, if_neg e]
  have hsum : (T.blocks.map fun b => ((legIndices (pick a1 legs)).map fun c => blockEntry (b.1, b.2.mapK (· * φ b.1)) (unpick (a1 ++ a2 ++ out) (c ++ c ++ f))).sum).sum
      = entry ((T.blocks.filter fun b => FermT.aligned T.pattern ps b.1).map g) f := by
    rw [List.map_congr_left hb]
    unfold entry
    rw [List.map_map]
    generalize T.blocks = l
    induction l with
    | nil => rfl
    | cons b t ih =>
      rw [List.map_cons, List.sum_cons, ih, List.filter_cons]
      by_cases e : FermT.aligned T.pattern ps b.1 = true
      · rw [if_pos e, if_pos e, List.map_cons, List.sum_cons]; rfl
      · rw [if_neg e, if_neg e, zero_add]
  rw [← hsum, sum_comm']
  apply sum_map_congr'
  intro c _
  unfold entry scaleBlocks
  rw [List.map_map]
  rfl

end
end Verif
