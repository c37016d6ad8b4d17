import Verif.Proof.FermTrace2
import Verif.Thm.OpT

/-!
Tracing two legs of a contraction.
-/

set_option linter.unusedSectionVars false

namespace Verif
variable {Q K : Type}

/-- Dropping positions of a list. -/
theorem map_outAxes_zipIdx {α : Type} (d : α) (xs : List α) (idx : List Nat) :
    (SpT.outAxes xs.length idx).map (fun i => xs.getD i d) = (xs.zipIdx.filter fun p => p.2 ∉ idx).map Prod.fst := by
  have : xs.zipIdx = (List.range xs.length).map fun i => (xs.getD i d, i) := by
    apply List.ext_getElem
    · simp
    · intro i h1 h2
      simp at h2
      simp [h2]
  rw [this, List.filter_map, List.map_map]
  unfold SpT.outAxes
  have : List.filter ((fun p : α × Nat => decide (p.2 ∉ idx)) ∘ fun i => (xs.getD i d, i)) (List.range xs.length) =
      List.filter (fun i => !idx.contains i) (List.range xs.length) := by
    apply List.filter_congr
    intro i _
    simp
  rw [this]
  rfl

theorem zipIdx_filter_all {α : Type} (a : List α) (k : Nat) (idx : List Nat) (h : ∀ i ∈ idx, i < k ∨ k + a.length ≤ i) :
    ((a.zipIdx k).filter fun p => p.2 ∉ idx).map Prod.fst = a := by
  rw [List.filter_eq_self.2, List.zipIdx_map_fst]
  intro p hp
  have h1 := List.le_snd_of_mem_zipIdx hp
  have h2 := List.snd_lt_add_of_mem_zipIdx hp
  simp only [decide_eq_true_eq]
  intro hm
  rcases h _ hm with h | h <;> omega

/-- Dropping two positions. -/
theorem map_outAxes_two {α : Type} (d : α) (a b c : List α) (u v : α) :
    (SpT.outAxes (a ++ u :: (b ++ v :: c)).length [a.length, a.length + 1 + b.length]).map (fun i => (a ++ u :: (b ++ v :: c)).getD i d) = a ++ (b ++ c) := by
  rw [map_outAxes_zipIdx]
  simp only [List.zipIdx_append, List.zipIdx_cons, List.filter_append, List.filter_cons, List.map_append]
  rw [zipIdx_filter_all a 0 _ (by intro i hi; simp at hi ⊢; omega)]
  have e1 : (decide (0 + a.length ∉ [a.length, a.length + 1 + b.length])) = false := by simp
  have e2 : (decide (0 + a.length + 1 + b.length ∉ [a.length, a.length + 1 + b.length])) = false := by simp
  simp only [e1, e2, Bool.false_eq_true, if_false, List.map_append]
  rw [zipIdx_filter_all b _ _ (by intro i hi; simp at hi ⊢; omega), zipIdx_filter_all c _ _ (by intro i hi; simp at hi ⊢; omega)]

theorem phase_fst (plist : List Nat) (right : Bool) (axes : List Nat) (st : List Nat × Int) :
    (axes.foldl (phaseStep plist right) st).1 = st.1 ++ axes := by
  induction axes generalizing st with
  | nil => simp
  | cons x t ih => rw [List.foldl_cons, ih]; simp [phaseStep]

/-- One more axis. -/
theorem computePhase_snoc (plist : List Nat) (right : Bool) (axes : List Nat) (x : Nat) :
    computePhase plist (axes ++ [x]) right = computePhase plist axes right *
      (-1) ^ ((((if right then List.range' (x + 1) (plist.length - (x + 1)) else List.range x).filter fun i => i ∉ axes).map fun i =>
        plist.getD i 0).sum * plist.getD x 0) := by
  have h := phase_fst plist right axes ([], 1)
  unfold computePhase
  rw [List.foldl_append, List.foldl_cons, List.foldl_nil]
  generalize axes.foldl (phaseStep plist right) ([], 1) = st at h ⊢
  unfold phaseStep
  simp only [h, List.nil_append]

theorem outAxes_split {n i : Nat} {idx : List Nat} (hi : i < n) (hm : i ∉ idx) :
    SpT.outAxes n idx = (List.range i).filter (fun k => k ∉ idx) ++ i :: (List.range' (i + 1) (n - (i + 1))).filter (fun k => k ∉ idx) := by
  have hsplit : List.range n = List.range i ++ i :: List.range' (i + 1) (n - (i + 1)) := by
    rw [List.range_eq_range', List.range_eq_range']
    have : n = i + (1 + (n - (i + 1))) := by omega
    conv_lhs => rw [this]
    rw [← List.range'_append_1, Nat.zero_add, Nat.add_comm 1, List.range'_succ]
  rw [← freeAxes_eq]
  unfold freeAxes
  rw [hsplit, List.filter_append, List.filter_cons, if_pos (by simpa using hm)]

theorem outAxes_snoc {n i : Nat} {idx : List Nat} (hi : i < n) :
    SpT.outAxes n (idx ++ [i]) = (List.range i).filter (fun k => k ∉ idx) ++ (List.range' (i + 1) (n - (i + 1))).filter (fun k => k ∉ idx) := by
  have hsplit : List.range n = List.range i ++ i :: List.range' (i + 1) (n - (i + 1)) := by
    rw [List.range_eq_range', List.range_eq_range']
    have : n = i + (1 + (n - (i + 1))) := by omega
    conv_lhs => rw [this]
    rw [← List.range'_append_1, Nat.zero_add, Nat.add_comm 1, List.range'_succ]
  rw [← freeAxes_eq]
  unfold freeAxes
  rw [hsplit, List.filter_append, List.filter_cons, if_neg (by simp)]
  congr 1
  · apply List.filter_congr
    intro k hk
    have : k < i := by simpa using hk
    have : k ≠ i := by omega
    simp [this]
  · apply List.filter_congr
    intro k hk
    have : i + 1 ≤ k := (List.mem_range'_1.1 hk).1
    have : k ≠ i := by omega
    simp [this]

theorem map_range_getD_left (a t : List Nat) : (List.range a.length).map (fun i => (a ++ t).getD i 0) = a := by
  apply List.ext_getElem
  · simp
  · intro i h1 h2
    simp only [List.getElem_map, List.getElem_range, List.getD_eq_getElem?_getD, List.getElem?_append_left h2, List.getElem?_eq_getElem h2, Option.getD_some]

/-- The sign of tracing two legs with the same parity: the number of odd legs between them. -/
theorem computePhase_two (a b c : List Nat) (u : Nat) :
    computePhase (a ++ u :: (b ++ u :: c)) [a.length, a.length + 1 + b.length] false = (-1) ^ (b.sum * u) := by
  have h1 := computePhase_snoc (a ++ u :: (b ++ u :: c)) false [a.length] (a.length + 1 + b.length)
  have h2 := computePhase_snoc (a ++ u :: (b ++ u :: c)) false [] a.length
  simp only [List.nil_append, List.cons_append, Bool.false_eq_true, if_false] at h1 h2
  rw [h1, h2]
  have e0 : computePhase (a ++ u :: (b ++ u :: c)) [] false = 1 := rfl
  have eu1 : (a ++ u :: (b ++ u :: c)).getD a.length 0 = u := by simp
  have eu2 : (a ++ u :: (b ++ u :: c)).getD (a.length + 1 + b.length) 0 = u := by
    have : a ++ u :: (b ++ u :: c) = (a ++ u :: b) ++ u :: c := by simp
    rw [this]
    have : a.length + 1 + b.length = (a ++ u :: b).length := by simp; omega
    rw [this]; simp
  have ea : ((List.range a.length).filter fun i => decide (i ∉ ([] : List Nat))) = List.range a.length := by simp
  have eb : ((List.range (a.length + 1 + b.length)).filter fun i => decide (i ∉ [a.length])) =
      List.range a.length ++ (List.range' (a.length + 1) b.length) := by
    have := outAxes_snoc (n := a.length + 1 + b.length) (i := a.length) (idx := []) (by omega)
    simp only [List.nil_append] at this
    rw [← freeAxes_eq] at this
    unfold freeAxes at this
    rw [this]
    simp
  rw [e0, eu1, eu2, ea, eb, List.map_append, List.sum_append, map_range_getD_left]
  have e3 : (List.range' (a.length + 1) b.length).map (fun i => (a ++ u :: (b ++ u :: c)).getD i 0) = b := by
    apply List.ext_getElem
    · simp
    · intro i h1 h2
      have : a ++ u :: (b ++ u :: c) = (a ++ [u]) ++ (b ++ u :: c) := by simp
      simp only [List.getElem_map, List.getElem_range', one_mul, List.getD_eq_getElem?_getD]
      have e : a.length + 1 + i - (a ++ [u]).length = i := by simp
      rw [this, List.getElem?_append_right (by simp), e, List.getElem?_append_left h2, List.getElem?_eq_getElem h2, Option.getD_some]
  rw [e3, one_mul, ← pow_add, add_mul, ← add_assoc, ← two_mul, pow_add, pow_mul]
  simp

section
variable [DecidableEq Q] [AddCommGroup Q] [CommRing K]

/-- What a contraction is, with signs as numbers. -/
theorem tensordot_facts (par : Q → Nat) {A B : FermT Q K} {axesA axesB : List Int} {legsA legsB legs : List (BondInfo Q)} {ia ib : List Nat}
    (h : Contractible A B axesA axesB legsA legsB legs ia ib) (hB : B.blocks ≠ []) {dA dB : Q} (hpA : A.pattern.length = legsA.length)
    (hpB : B.pattern.length = legsB.length) (hdA : Conserves A.pattern dA A.blocks) (hdB : Conserves B.pattern dB B.blocks) :
    ∃ R, FermT.tensordot par A B axesA axesB = some R ∧
      R.pattern = (SpT.outAxes legsA.length ia).map (fun i => A.pattern.getD i true) ++ (SpT.outAxes legsB.length ib).map (fun i => B.pattern.getD i true) ∧
      Conforms ((SpT.outAxes legsA.length ia).map (fun i => legsA.getD i []) ++ (SpT.outAxes legsB.length ib).map (fun i => legsB.getD i [])) R.blocks ∧
      UniqueLabels R.blocks ∧ Conserves R.pattern (dA + dB) R.blocks ∧
      ∀ fa fb, fa.length = (SpT.outAxes legsA.length ia).length → fb.length = (SpT.outAxes legsB.length ib).length →
        entry R.blocks (fa ++ fb) = ((legIndices legs).map fun c =>
          ((computePhase (((unpick (ia ++ SpT.outAxes legsA.length ia) (c ++ fa)).map Prod.fst).map par) ia true : Int) : K) *
            entry A.blocks (unpick (ia ++ SpT.outAxes legsA.length ia) (c ++ fa)) *
          (((computePhase (((unpick (ib ++ SpT.outAxes legsB.length ib) (c ++ fb)).map Prod.fst).map par) ib false : Int) : K) *
            entry B.blocks (unpick (ib ++ SpT.outAxes legsB.length ib) (c ++ fb)))).sum := by
  obtain ⟨hcA, hcB, ha, hb, hnda, hndb, hla, hlb, hw, hneA, hpat⟩ := h
  have hlta := namesAxis_lt ha
  have hltb := namesAxis_lt hb
  have hll : ia.length = ib.length := hpat.length_eq
  set fA : List Q → K := fun q => ((computePhase (q.map par) ia true : Int) : K) with hfA
  set fB : List Q → K := fun q => ((computePhase (q.map par) ib false : Int) : K) with hfB
  obtain ⟨R0, h1, h2, h3, h4⟩ := C12_tensordot (scaleBlocks fA A.blocks) (scaleBlocks fB B.blocks) axesA axesB legsA legsB legs
    ia ib (conforms_scaleBlocks fA hcA) (conforms_scaleBlocks fB hcB) ha hb hnda hndb hla hlb hw
  have hnd : ∀ (f : List Q → K) (T : SpT Q K), (scaleBlocks f T).ndim = T.ndim := by
    intro f T
    cases T <;> rfl
  have hpa : (A.pattern.zipIdx.filter fun p => p.2 ∉ ia).map Prod.fst = (SpT.outAxes legsA.length ia).map fun i => A.pattern.getD i true := by
    rw [← map_outAxes_zipIdx true, hpA]
  have hpb : (B.pattern.zipIdx.filter fun p => p.2 ∉ ib).map Prod.fst = (SpT.outAxes legsB.length ib).map fun i => B.pattern.getD i true := by
    rw [← map_outAxes_zipIdx true, hpB]
  have hsome : ∃ R, FermT.tensordot par A B axesA axesB = some R ∧ R.blocks = R0 ∧
      R.pattern = (SpT.outAxes legsA.length ia).map (fun i => A.pattern.getD i true) ++ (SpT.outAxes legsB.length ib).map (fun i => B.pattern.getD i true) := by
    have h1' := h1
    unfold FermT.tensordot
    unfold SpT.tensordot at h1'
    simp only [hnd, List.length_map, ha.length_eq, hb.length_eq, hll, if_true, Option.some.injEq] at h1'
    simp only [List.length_map, ha.length_eq, hb.length_eq, hll, ne_eq, not_true_eq_false, if_false]
    rw [ndim_eq hcA hneA, ndim_eq hcB hB, normAxes_eq ha, normAxes_eq hb] at h1' ⊢
    rw [contractPatterns_flips A B ia ib hpat]
    simp only [not_true_eq_false, false_and, if_false]
    refine ⟨_, rfl, ?_, ?_⟩
    · rw [← h1', fermCore_eq]
    · unfold FermT.contractPatterns
      simp only [hpa, hpb]
  obtain ⟨R, hR, rfl, hRp⟩ := hsome
  rw [freeAxes_eq, freeAxes_eq] at h2
  refine ⟨R, hR, hRp, h2, h3, ?_, ?_⟩
  · have hsc : ∀ (f : List Q → K) (T : SpT Q K) (p : List Bool) (d : Q), Conserves p d T → Conserves p d (scaleBlocks f T) := by
      intro f T p d hT b hb
      obtain ⟨a, ha, rfl⟩ := List.mem_map.1 hb
      exact hT a ha
    have hgd : ∀ (p : List Bool) (i : Nat), i < p.length → p.getD i false = p.getD i true := by
      intro p i hi; simp [hi]
    have := C13_charge (scaleBlocks fA A.blocks) (scaleBlocks fB B.blocks) R.blocks axesA axesB legsA.length legsB.length ia ib A.pattern B.pattern dA dB
      (fun b hb => (conforms_scaleBlocks fA hcA b hb).lengths) (fun b hb => (conforms_scaleBlocks fB hcB b hb).lengths) hpA hpB ha hb hnda hndb
      (by
        unfold OppositePatterns at hpat
        rw [List.forall₂_iff_get] at hpat ⊢
        refine ⟨hpat.1, fun k h1 h2 => ?_⟩
        have := hpat.2 k h1 h2
        rw [hgd _ _ (by rw [hpA]; exact hlta _ (List.getElem_mem h1)), hgd _ _ (by rw [hpB]; exact hltb _ (List.getElem_mem h2))]
        exact this)
      (hsc _ _ _ _ hdA) (hsc _ _ _ _ hdB) h1
    rw [hRp]
    rw [freeAxes_eq, freeAxes_eq] at this
    have e1 : (SpT.outAxes legsA.length ia).map (fun i => A.pattern.getD i false) = (SpT.outAxes legsA.length ia).map fun i => A.pattern.getD i true := by
      apply List.map_congr_left
      intro i hi
      exact hgd _ _ (by rw [hpA]; exact (mem_outAxes.1 hi).1)
    have e2 : (SpT.outAxes legsB.length ib).map (fun i => B.pattern.getD i false) = (SpT.outAxes legsB.length ib).map fun i => B.pattern.getD i true := by
      apply List.map_congr_left
      intro i hi
      exact hgd _ _ (by rw [hpB]; exact (mem_outAxes.1 hi).1)
    rw [e1, e2] at this
    exact this
  · intro fa fb hfa hfb
    have hlen : ∀ c ∈ legIndices legs, c.length = ia.length := by
      intro c hc
      rw [legIndices_length hc, ← hla, List.length_map]
    rw [← freeAxes_eq] at hfa hfb
    have hia : ∀ c ∈ legIndices legs, HasIndices ia c fa (unpick (ia ++ SpT.outAxes legsA.length ia) (c ++ fa)) :=
      fun c hc => (hasIndices_iff hnda hlta (hlen c hc) hfa).2 rfl
    have hib : ∀ c ∈ legIndices legs, HasIndices ib c fb (unpick (ib ++ SpT.outAxes legsB.length ib) (c ++ fb)) :=
      fun c hc => (hasIndices_iff hndb hltb ((hlen c hc).trans hll) hfb).2 rfl
    rw [h4 fa fb hfa hfb _ _ hia hib]
    apply sum_map_congr'
    intro c _
    rw [entry_scaleBlocks, entry_scaleBlocks]

theorem forall₂_snoc {α β : Type} {r : α → β → Prop} {l : List α} {m : List β} {x : α} {y : β} (h : List.Forall₂ r (l ++ [x]) (m ++ [y])) :
    List.Forall₂ r l m ∧ r x y := by
  have := List.forall₂_reverse_iff.2 h
  rw [List.reverse_append, List.reverse_append] at this
  simp only [List.reverse_cons, List.reverse_nil, List.nil_append, List.cons_append] at this
  obtain ⟨h1, h2⟩ := List.forall₂_cons.1 this
  exact ⟨List.forall₂_reverse_iff.1 h2, h1⟩

/-- Without the last contracted pair. -/
theorem Contractible.snoc {A B : FermT Q K} {axesA axesB : List Int} {x y : Int} {legsA legsB legs : List (BondInfo Q)} {leg : BondInfo Q}
    {ia ib : List Nat} {i j : Nat} (h : Contractible A B (axesA ++ [x]) (axesB ++ [y]) legsA legsB (legs ++ [leg]) (ia ++ [i]) (ib ++ [j])) :
    Contractible A B axesA axesB legsA legsB legs ia ib ∧ legsA.getD i [] = leg ∧ legsB.getD j [] = leg ∧ i < legsA.length ∧ j < legsB.length ∧
      i ∉ ia ∧ j ∉ ib ∧ A.pattern.getD i true = !B.pattern.getD j true := by
  obtain ⟨hcA, hcB, ha, hb, hnda, hndb, hla, hlb, hw, hneA, hpat⟩ := h
  obtain ⟨ha1, ha2⟩ := forall₂_snoc ha
  obtain ⟨hb1, hb2⟩ := forall₂_snoc hb
  obtain ⟨hp1, hp2⟩ := forall₂_snoc hpat
  rw [List.map_append, List.map_cons, List.map_nil] at hla hlb
  obtain ⟨la1, la2⟩ := List.append_inj' hla rfl
  obtain ⟨lb1, lb2⟩ := List.append_inj' hlb rfl
  have na := List.nodup_append.1 hnda
  have nb := List.nodup_append.1 hndb
  refine ⟨⟨hcA, hcB, ha1, hb1, na.1, nb.1, la1, lb1, fun b hb => hw b (List.mem_append_left _ hb), hneA, hp1⟩, by simpa using la2, by simpa using lb2, ha2.1, hb2.1,
    fun hm => na.2.2 i hm i (by simp) rfl, fun hm => nb.2.2 j hm j (by simp) rfl, hp2⟩

/-- The index of an operand, with the last contracted leg counted as free or as contracted. -/
theorem unpick_snoc {n : Nat} {idx : List Nat} {i : Nat} (hnd : idx.Nodup) (hlt : ∀ k ∈ idx, k < n) (hi : i < n) (hm : i ∉ idx) (c : List (Q × Nat)) (z : Q × Nat)
    (hc : c.length = idx.length) (f1 f2 : List (Q × Nat)) (h1 : f1.length = ((List.range i).filter fun k => k ∉ idx).length)
    (h2 : f2.length = ((List.range' (i + 1) (n - (i + 1))).filter fun k => k ∉ idx).length) :
    unpick (idx ++ SpT.outAxes n idx) (c ++ (f1 ++ z :: f2)) = unpick (idx ++ [i] ++ SpT.outAxes n (idx ++ [i])) (c ++ [z] ++ (f1 ++ f2)) ∧
    pick ((List.range i).filter fun k => k ∉ idx) (unpick (idx ++ SpT.outAxes n idx) (c ++ (f1 ++ z :: f2))) = f1 ∧
    pick ((List.range' (i + 1) (n - (i + 1))).filter fun k => k ∉ idx) (unpick (idx ++ SpT.outAxes n idx) (c ++ (f1 ++ z :: f2))) = f2 ∧
    (unpick (idx ++ SpT.outAxes n idx) (c ++ (f1 ++ z :: f2))).getD i 0 = z ∧
    (unpick (idx ++ SpT.outAxes n idx) (c ++ (f1 ++ z :: f2))).length = n := by
  have hp := idx_out_perm hnd hlt
  have hn := perm_range_length hp
  have hp' : (idx ++ [i] ++ SpT.outAxes n (idx ++ [i])).Perm (List.range n) := idx_out_perm
    (List.nodup_append.2 ⟨hnd, by simp, by rintro a ha b hb rfl; simp at hb; subst hb; exact hm ha⟩)
    (by intro k hk; rcases List.mem_append.1 hk with h | h
        · exact hlt k h
        · simp at h; omega)
  have hs := outAxes_split hi hm
  have hs' := outAxes_snoc (n := n) (i := i) (idx := idx) hi
  set pre := (List.range i).filter fun k => k ∉ idx
  set post := (List.range' (i + 1) (n - (i + 1))).filter fun k => k ∉ idx
  rw [hs] at hp hn ⊢
  rw [hs'] at hp' ⊢
  set y := unpick (idx ++ (pre ++ i :: post)) (c ++ (f1 ++ z :: f2)) with hy
  have hv : (c ++ (f1 ++ z :: f2)).length = n := by
    rw [← hn]; simp only [List.length_append, List.length_cons]; omega
  have hyl : y.length = n := by rw [hy, unpick_length]; exact hn
  have hpk := pick_unpick hp _ hv
  rw [← hy, pick_append, pick_append, pick_cons] at hpk
  obtain ⟨e1, e2⟩ := List.append_inj hpk (by simp [hc])
  obtain ⟨e3, e4⟩ := List.append_inj e2 (by simp [h1])
  obtain ⟨e5, e6⟩ := List.cons.inj e4
  refine ⟨?_, e3, e6, e5, hyl⟩
  rw [eq_unpick_iff hp' y _ hyl (by rw [← hv]; simp; omega)]
  rw [pick_append, pick_append, pick_append, pick_cons, e1, e3, e6, e5]
  rfl

theorem odds_append (l m : List Nat) : odds (l ++ m) = odds l ++ odds m := by simp [odds]

/-- The traced legs of a contraction: the sign of the trace is what is missing between the two contractions. -/
theorem trace_sign (pa pb : List Nat) (ia ib : List Nat) (i j : Nat) (hi : i < pa.length) (hj : j < pb.length) (u : Nat)
    (hu : pa.getD i 0 = u) (hv : pb.getD j 0 = u) (a1 a2 b1 b2 : List Nat)
    (ha2 : ((List.range' (i + 1) (pa.length - (i + 1))).filter fun k => k ∉ ia).map (fun k => pa.getD k 0) = a2)
    (hb1 : ((List.range j).filter fun k => k ∉ ib).map (fun k => pb.getD k 0) = b1) :
    computePhase (a1 ++ u :: ((a2 ++ b1) ++ u :: b2)) [a1.length, a1.length + 1 + (a2 ++ b1).length] false *
      (computePhase pa ia true * computePhase pb ib false) = computePhase pa (ia ++ [i]) true * computePhase pb (ib ++ [j]) false := by
  rw [computePhase_two, computePhase_snoc, computePhase_snoc]
  simp only [Bool.false_eq_true, if_false, if_true, ha2, hb1, hu, hv, List.sum_append]
  rw [add_mul, pow_add]
  ring

set_option maxHeartbeats 1600000 in
/-- Contract, then trace one leg of the first operand with one of the second. -/
theorem contract_trace (par : Q → Nat) {A B : FermT Q K} {axesA axesB : List Int} {x y : Int} {legsA legsB legs : List (BondInfo Q)} {leg : BondInfo Q}
    {ia ib : List Nat} {i j : Nat} (h : Contractible A B (axesA ++ [x]) (axesB ++ [y]) legsA legsB (legs ++ [leg]) (ia ++ [i]) (ib ++ [j]))
    (hB : B.blocks ≠ []) {dA dB : Q} (hpA : A.pattern.length = legsA.length)
    (hpB : B.pattern.length = legsB.length) (hdA : Conserves A.pattern dA A.blocks) (hdB : Conserves B.pattern dB B.blocks) :
    ∃ C D, FermT.tensordot par A B axesA axesB = some C ∧ FermT.tensordot par A B (axesA ++ [x]) (axesB ++ [y]) = some D ∧
      (C.blocks ≠ [] → ∃ R, C.trace par [(SpT.outAxes legsA.length ia).idxOf i]
          [(SpT.outAxes legsA.length ia).length + (SpT.outAxes legsB.length ib).idxOf j] = some R ∧
        IsResult R D.pattern ((SpT.outAxes legsA.length (ia ++ [i])).map (fun i => legsA.getD i []) ++
          (SpT.outAxes legsB.length (ib ++ [j])).map (fun i => legsB.getD i [])) (entry D.blocks)) := by
  obtain ⟨h0, hlegA, hlegB, hi, hj, hmi, hmj, hpij⟩ := h.snoc
  obtain ⟨C, hC, hCp, hCc, hCu, hCd, hCe⟩ := tensordot_facts par h0 hB hpA hpB hdA hdB
  obtain ⟨D, hD, hDp, hDc, hDu, hDd, hDe⟩ := tensordot_facts par h hB hpA hpB hdA hdB
  refine ⟨C, D, hC, hD, fun hne => ?_⟩
  have sA := outAxes_split hi hmi
  have sB := outAxes_split hj hmj
  have sA' := outAxes_snoc (n := legsA.length) (i := i) (idx := ia) hi
  have sB' := outAxes_snoc (n := legsB.length) (i := j) (idx := ib) hj
  set preA := (List.range i).filter (fun k => k ∉ ia) with hpreA
  set postA := (List.range' (i + 1) (legsA.length - (i + 1))).filter (fun k => k ∉ ia) with hpostA
  set preB := (List.range j).filter (fun k => k ∉ ib) with hpreB
  set postB := (List.range' (j + 1) (legsB.length - (j + 1))).filter (fun k => k ∉ ib) with hpostB
  have iA : (SpT.outAxes legsA.length ia).idxOf i = preA.length := by
    rw [sA, List.idxOf_append_of_notMem (by simp [hpreA]), List.idxOf_cons_self, Nat.add_zero]
  have iB : (SpT.outAxes legsB.length ib).idxOf j = preB.length := by
    rw [sB, List.idxOf_append_of_notMem (by simp [hpreB]), List.idxOf_cons_self, Nat.add_zero]
  have hq : (SpT.outAxes legsA.length ia).length + (SpT.outAxes legsB.length ib).idxOf j = preA.length + 1 + (postA ++ preB).length := by
    rw [iB, sA]; simp; omega
  rw [hq, iA]
  -- the legs of `C`
  let g : List Nat → List (BondInfo Q) := fun l => l.map fun k => legsA.getD k []
  let g' : List Nat → List (BondInfo Q) := fun l => l.map fun k => legsB.getD k []
  have eC : (SpT.outAxes legsA.length ia).map (fun i => legsA.getD i []) ++ (SpT.outAxes legsB.length ib).map (fun i => legsB.getD i []) =
      g preA ++ leg :: ((g postA ++ g' preB) ++ leg :: g' postB) := by
    rw [sA, sB]
    simp only [List.map_append, List.map_cons, hlegA, hlegB, g, g']
    simp
  have eD : (SpT.outAxes legsA.length (ia ++ [i])).map (fun i => legsA.getD i []) ++ (SpT.outAxes legsB.length (ib ++ [j])).map (fun i => legsB.getD i []) =
      g preA ++ ((g postA ++ g' preB) ++ g' postB) := by
    rw [sA', sB']
    simp only [List.map_append, g, g']
    simp
  let s : List Nat → List Bool := fun l => l.map fun k => A.pattern.getD k true
  let s' : List Nat → List Bool := fun l => l.map fun k => B.pattern.getD k true
  have ePC : C.pattern = s preA ++ A.pattern.getD i true :: ((s postA ++ s' preB) ++ B.pattern.getD j true :: s' postB) := by
    rw [hCp, sA, sB]
    simp only [List.map_append, List.map_cons, s, s']
    simp
  have ePD : D.pattern = s preA ++ ((s postA ++ s' preB) ++ s' postB) := by
    rw [hDp, sA', sB']
    simp only [List.map_append, s, s']
    simp
  rw [eC] at hCc
  rw [eD] at hDc
  rw [eD]
  have lg : ∀ l, (g l).length = l.length := fun l => by simp [g]
  have lg' : ∀ l, (g' l).length = l.length := fun l => by simp [g']
  have ls : ∀ l, (s l).length = l.length := fun l => by simp [s]
  have ls' : ∀ l, (s' l).length = l.length := fun l => by simp [s']
  set legsC := g preA ++ leg :: ((g postA ++ g' preB) ++ leg :: g' postB) with hlC
  have tp : preA.length = (g preA).length := (lg _).symm
  have tq : preA.length + 1 + (postA ++ preB).length = (g preA).length + 1 + (g postA ++ g' preB).length := by
    simp only [List.length_append, lg, lg']
  have gp : legsC.getD preA.length [] = leg := by rw [hlC, tp]; simp
  have gq : legsC.getD (preA.length + 1 + (postA ++ preB).length) [] = leg := by
    rw [hlC, tq]
    have e : g preA ++ leg :: ((g postA ++ g' preB) ++ leg :: g' postB) = (g preA ++ leg :: (g postA ++ g' preB)) ++ leg :: g' postB := by simp
    rw [e]
    have : (g preA).length + 1 + (g postA ++ g' preB).length = (g preA ++ leg :: (g postA ++ g' preB)).length := by simp; omega
    rw [this]; simp
  have lenC : legsC.length = preA.length + 1 + (postA ++ preB).length + 1 + postB.length := by
    rw [hlC]; simp only [List.length_append, List.length_cons, lg, lg']; omega
  have htr : Traceable C legsC [preA.length] [preA.length + 1 + (postA ++ preB).length] := by
    refine ⟨hCc, hne, ⟨_, hCd⟩, ?_, rfl, ?_, ?_, ?_, ?_, ?_⟩
    · rw [ePC, lenC]; simp only [List.length_append, List.length_cons, ls, ls']; omega
    · simp; omega
    · intro k hk; rw [lenC]; simp at hk; simp; omega
    · simp only [List.map_cons, List.map_nil, gp, gq]
    · intro k hk
      simp at hk
      rw [hk, gp]
      exact h.wf leg (by simp)
    · refine .cons ?_ .nil
      have e1 : C.pattern.getD preA.length true = A.pattern.getD i true := by
        rw [ePC, ← ls preA]; simp
      have e2 : C.pattern.getD (preA.length + 1 + (postA ++ preB).length) true = B.pattern.getD j true := by
        rw [ePC]
        have e : s preA ++ A.pattern.getD i true :: ((s postA ++ s' preB) ++ B.pattern.getD j true :: s' postB) =
          (s preA ++ A.pattern.getD i true :: (s postA ++ s' preB)) ++ B.pattern.getD j true :: s' postB := by simp
        rw [e]
        have : preA.length + 1 + (postA ++ preB).length = (s preA ++ A.pattern.getD i true :: (s postA ++ s' preB)).length := by
          simp [ls, ls']; omega
        rw [this]; simp
      rw [e1, e2, hpij]
  obtain ⟨R, hR, hres⟩ := trace_spec par htr
  refine ⟨R, hR, ?_⟩
  -- the legs that are left
  have hsbs : sideBySide [preA.length] [preA.length + 1 + (postA ++ preB).length] = [preA.length, preA.length + 1 + (postA ++ preB).length] := by
    unfold sideBySide
    simp
    omega
  have hfl : (freeAxes legsC.length ([preA.length] ++ [preA.length + 1 + (postA ++ preB).length])).map (fun i => legsC.getD i []) =
      g preA ++ ((g postA ++ g' preB) ++ g' postB) := by
    rw [freeAxes_eq, tq, tp, hlC]
    exact map_outAxes_two [] (g preA) (g postA ++ g' preB) (g' postB) leg leg
  have hfp : (freeAxes legsC.length ([preA.length] ++ [preA.length + 1 + (postA ++ preB).length])).map (fun i => C.pattern.getD i true) = D.pattern := by
    have hl : legsC.length = C.pattern.length := by
      rw [ePC, lenC]; simp only [List.length_append, List.length_cons, ls, ls']; omega
    have tq' : preA.length + 1 + (postA ++ preB).length = (s preA).length + 1 + (s postA ++ s' preB).length := by
      simp only [List.length_append, ls, ls']
    rw [hl, freeAxes_eq, tq', ← ls preA, ePC, ePD]
    exact map_outAxes_two true (s preA) (s postA ++ s' preB) (s' postB) _ _
  have hlo : (SpT.outAxes legsC.length ([preA.length] ++ [preA.length + 1 + (postA ++ preB).length])).length = (preA ++ ((postA ++ preB) ++ postB)).length := by
    have := congrArg List.length hfl
    rw [freeAxes_eq, List.length_map] at this
    rw [this]
    simp [lg, lg']
  rw [hfl, hfp] at hres
  have key : ∀ f, f.length = (g preA ++ ((g postA ++ g' preB) ++ g' postB)).length →
      traceValue par C legsC [preA.length] [preA.length + 1 + (postA ++ preB).length] f = entry D.blocks f := by
    intro f hf
    have hf' : f.length = preA.length + (postA.length + (preB.length + postB.length)) := by rw [hf]; simp [lg, lg']
    obtain ⟨f1, f2, f3, f4, rfl, l1, l2, l3, l4⟩ : ∃ f1 f2 f3 f4, f = (f1 ++ f2) ++ (f3 ++ f4) ∧ f1.length = preA.length ∧ f2.length = postA.length ∧
        f3.length = preB.length ∧ f4.length = postB.length := by
      refine ⟨f.take preA.length, (f.drop preA.length).take postA.length, ((f.drop preA.length).drop postA.length).take preB.length,
        ((f.drop preA.length).drop postA.length).drop preB.length, ?_, ?_, ?_, ?_, ?_⟩
      · rw [List.append_assoc, List.take_append_drop, List.take_append_drop, List.take_append_drop]
      · simp; omega
      · simp; omega
      · simp; omega
      · simp; omega
    rw [traceValue_eq par htr (by rw [hlo, hf]; simp [lg, lg'])]
    have eLeg : [preA.length].map (fun i => legsC.getD i []) = [leg] := by simp only [List.map_cons, List.map_nil, gp]
    rw [eLeg, hDe (f1 ++ f2) (f3 ++ f4) (by rw [sA']; simp [l1, l2]) (by rw [sB']; simp [l3, l4]), legIndices_append_sum, sum_comm']
    apply sum_map_congr'
    intro cz hcz
    obtain ⟨z, rfl⟩ : ∃ z, cz = [z] := List.length_eq_one_iff.1 (by rw [legIndices_length hcz]; rfl)
    set w := (f1 ++ z :: f2) ++ (f3 ++ z :: f4) with hw
    have hwi : traceIndex legsC.length [preA.length] [preA.length + 1 + (postA ++ preB).length] [z] ((f1 ++ f2) ++ (f3 ++ f4)) = w := by
      unfold traceIndex
      symm
      have hpm := htr.perm
      have hwl : w.length = legsC.length := by rw [hw, lenC]; simp [l1, l2, l3, l4]; omega
      rw [eq_unpick_iff hpm w _ hwl (by
        rw [lenC]; simp [l1, l2, l3, l4]; omega)]
      have etp : FermT.tracePairs [preA.length] [preA.length + 1 + (postA ++ preB).length] = [(preA.length, preA.length + 1 + (postA ++ preB).length)] := by
        unfold FermT.tracePairs
        simp
        omega
      rw [etp, pick_append]
      have wsh : w = f1 ++ z :: ((f2 ++ f3) ++ z :: f4) := by rw [hw]; simp
      have n1 : preA.length = f1.length := l1.symm
      have n2 : preA.length + 1 + (postA ++ preB).length = f1.length + 1 + (f2 ++ f3).length := by simp [l1, l2, l3]
      have p1 : pick (List.map Prod.fst [(preA.length, preA.length + 1 + (postA ++ preB).length)] ++
          List.map Prod.snd [(preA.length, preA.length + 1 + (postA ++ preB).length)]) w = [z, z] := by
        have g1 : w.getD preA.length 0 = z := by rw [wsh, n1]; simp
        have g2 : w.getD (preA.length + 1 + (postA ++ preB).length) 0 = z := by
          rw [wsh, n2]
          have e : f1 ++ z :: ((f2 ++ f3) ++ z :: f4) = (f1 ++ z :: (f2 ++ f3)) ++ z :: f4 := by simp
          rw [e]
          have : f1.length + 1 + (f2 ++ f3).length = (f1 ++ z :: (f2 ++ f3)).length := by simp; omega
          rw [this]; simp
        unfold pick
        simp only [List.map_cons, List.map_nil, List.cons_append, List.nil_append, g1, g2]
      have p2 : pick (SpT.outAxes legsC.length ([preA.length] ++ [preA.length + 1 + (postA ++ preB).length])) w = (f1 ++ f2) ++ (f3 ++ f4) := by
        rw [← hwl, wsh, n1] at *
        rw [show f1.length + 1 + (postA ++ preB).length = f1.length + 1 + (f2 ++ f3).length by simp [l2, l3]]
        have := map_outAxes_two (0 : Q × Nat) f1 (f2 ++ f3) f4 z z
        unfold pick
        simp only [List.cons_append, List.nil_append] at this ⊢
        rw [this]
        simp
      rw [p1, p2]
      rfl
    rw [hwi, hCe (f1 ++ z :: f2) (f3 ++ z :: f4) (by rw [sA]; simp [l1, l2]) (by rw [sB]; simp [l3, l4]), ← sum_map_mul_left']
    apply sum_map_congr'
    intro c hc
    have hcl : c.length = ia.length := by rw [legIndices_length hc, ← h0.legA, List.length_map]
    have hcl' : c.length = ib.length := by rw [legIndices_length hc, ← h0.legB, List.length_map]
    obtain ⟨uA, a1, a2, a3, a4⟩ := unpick_snoc h0.ndA (namesAxis_lt h0.axA) hi hmi c z hcl f1 f2 l1 l2
    obtain ⟨uB, b1, b2, b3, b4⟩ := unpick_snoc h0.ndB (namesAxis_lt h0.axB) hj hmj c z hcl' f3 f4 l3 l4
    rw [← uA, ← uB]
    set xa := unpick (ia ++ SpT.outAxes legsA.length ia) (c ++ (f1 ++ z :: f2))
    set xb := unpick (ib ++ SpT.outAxes legsB.length ib) (c ++ (f3 ++ z :: f4))
    have hsgn : reorderSign (legOdd par w) (sideBySide [preA.length] [preA.length + 1 + (postA ++ preB).length] ++
        SpT.outAxes legsC.length ([preA.length] ++ [preA.length + 1 + (postA ++ preB).length])) *
        (computePhase ((xa.map Prod.fst).map par) ia true * computePhase ((xb.map Prod.fst).map par) ib false) =
        computePhase ((xa.map Prod.fst).map par) (ia ++ [i]) true * computePhase ((xb.map Prod.fst).map par) (ib ++ [j]) false := by
      let P : List (Q × Nat) → List Nat := fun l => (l.map Prod.fst).map par
      have hg : ∀ (l : List (Q × Nat)) (k : Nat), k < l.length → (P l).getD k 0 = par (l.getD k 0).1 := by
        intro l k hk; simp [P, hk]
      have hsgn := trace_sign (P xa) (P xb) ia ib i j (by simp [P, a4, hi]) (by simp [P, b4, hj]) (par z.1) (by rw [hg _ _ (by omega), a3])
        (by rw [hg _ _ (by omega), b3]) (P f1) (P f2) (P f3) (P f4) (by
          rw [← a2]
          simp only [P, List.length_map, a4]
          unfold pick
          simp only [List.map_map]
          apply List.map_congr_left
          intro k hk
          have := (List.mem_filter.1 hk).1
          have := List.mem_range'_1.1 this
          have := hg xa k (by omega)
          simpa [P] using this) (by
          rw [← b1]
          simp only [P]
          unfold pick
          simp only [List.map_map]
          apply List.map_congr_left
          intro k hk
          have := (List.mem_filter.1 hk).1
          have := List.mem_range.1 this
          have := hg xb k (by omega)
          simpa [P] using this)
      rw [← hsgn]
      congr 1
      have hPw : (w.map Prod.fst).map par = P f1 ++ par z.1 :: ((P f2 ++ P f3) ++ par z.1 :: P f4) := by
        rw [hw]; simp [P]
      have hlw : (P f1 ++ par z.1 :: ((P f2 ++ P f3) ++ par z.1 :: P f4)).length = legsC.length := by
        rw [← hPw, lenC, hw]; simp [l1, l2, l3, l4]; omega
      have m1 : (P f1).length = preA.length := by simp [P, l1]
      have m2 : (P f2 ++ P f3).length = (postA ++ preB).length := by simp [P, l2, l3]
      rw [m1, m2, computePhase_left _ _ (by simp; omega) (by
        intro k hk; rw [hlw, lenC]; simp at hk; simp; omega), hlw, hsbs, legOdd_eq, hPw]
      rfl
    have hcast := congrArg (fun t : Int => (t : K)) hsgn
    simp only [Int.cast_mul] at hcast
    calc _ = ((reorderSign (legOdd par w) (sideBySide [preA.length] [preA.length + 1 + (postA ++ preB).length] ++
          SpT.outAxes legsC.length ([preA.length] ++ [preA.length + 1 + (postA ++ preB).length])) : Int) : K) *
          ((computePhase ((xa.map Prod.fst).map par) ia true : Int) * (computePhase ((xb.map Prod.fst).map par) ib false : Int)) *
          (entry A.blocks xa * entry B.blocks xb) := by ring
      _ = _ := by rw [hcast]; ring
  unfold IsResult at hres ⊢
  cases R with
  | inl v =>
    refine ⟨hres.1, hres.2.trans (key [] ?_)⟩
    rw [hres.1]; rfl
  | inr S =>
    exact ⟨hres.1, hres.2.1, hres.2.2.1, hres.2.2.2.1, fun f hf => (hres.2.2.2.2 f hf).trans (key f hf)⟩

end
end Verif
