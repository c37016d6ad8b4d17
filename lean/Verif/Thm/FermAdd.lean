import Verif.Spec.FermAdd
import Verif.Thm.FermTrace
import Verif.Thm.Flat
import Verif.Proof.Pdot

set_option linter.unusedSectionVars false

/-!
C76: addition and subtraction of fermionic tensors.
-/

namespace Verif
variable {Q K : Type} [DecidableEq Q] [AddCommGroup Q]

theorem flipAxes_self (p : List Bool) (n : Nat) (h : n ≤ p.length) : flipAxes p p n = some [] := by
  unfold flipAxes
  rw [if_pos ⟨h, h⟩]
  simp

theorem blocks_ndim {legs : List (BondInfo Q)} {T : SpT Q K} (h : Conforms legs T) (hne : T ≠ []) : T.ndim = legs.length := by
  obtain ⟨b, t, rfl⟩ := List.exists_cons_of_ne_nil hne
  have := (h b (by simp)).lengths
  simp only [SpT.ndim]
  omega

theorem ndim_le {T : FermT Q K} {legs : List (BondInfo Q)} (h : OnLegs T legs) : T.blocks.ndim ≤ T.pattern.length := by
  by_cases hn : T.blocks = []
  · rw [hn]; simp [SpT.ndim]
  · rw [blocks_ndim h.on hn, h.plen]

theorem subtract_keys [Sub K] [Neg K] (B A : SpT Q K) (hu : UniqueLabels A) (q : List Q) :
    q ∈ (A.subtract B).map Prod.fst ↔ q ∈ A.map Prod.fst ∨ q ∈ B.map Prod.fst := by
  have e : A.foldl (fun m a => Dict.set m a.1 a.2) [] = A := by simpa using foldl_set_append (m := []) A hu
  have hs : ∀ (m : SpT Q K) (k : List Q) (v : Arr K), q ∈ (Dict.set m k v).map Prod.fst ↔ q ∈ m.map Prod.fst ∨ q = k := by
    intro m k v
    induction m with
    | nil => simp [Dict.set]
    | cons p t ih =>
      unfold Dict.set
      split_ifs with hk
      · simp [← hk]; tauto
      · simp only [List.map_cons, List.mem_cons, ih]; tauto
  unfold SpT.subtract
  rw [e]
  clear e hu
  induction B generalizing A with
  | nil => simp
  | cons b t ih =>
    simp only [List.foldl_cons]
    refine (ih _).trans ?_
    cases Dict.get? A b.1 <;> simp only [hs, List.map_cons, List.mem_cons] <;> tauto

theorem add_keys [Add K] (B A : SpT Q K) (hu : UniqueLabels A) (q : List Q) :
    q ∈ (A.add B).map Prod.fst ↔ q ∈ A.map Prod.fst ∨ q ∈ B.map Prod.fst := by
  have e : A.foldl (fun m a => Dict.set m a.1 a.2) [] = A := by simpa using foldl_set_append (m := []) A hu
  have hs : ∀ (m : SpT Q K) (k : List Q) (v : Arr K), q ∈ (Dict.set m k v).map Prod.fst ↔ q ∈ m.map Prod.fst ∨ q = k := by
    intro m k v
    induction m with
    | nil => simp [Dict.set]
    | cons p t ih =>
      unfold Dict.set
      split_ifs with hk
      · simp [← hk]; tauto
      · simp only [List.map_cons, List.mem_cons, ih]; tauto
  unfold SpT.add
  rw [e]
  clear e hu
  induction B generalizing A with
  | nil => simp
  | cons b t ih =>
    simp only [List.foldl_cons]
    refine (ih _).trans ?_
    unfold SpT.accumulate
    cases Dict.get? A b.1 <;> simp only [hs, List.map_cons, List.mem_cons] <;> tauto

theorem add_ne [Add K] {A B : SpT Q K} (hu : UniqueLabels A) (h : A ≠ []) : A.add B ≠ [] := by
  intro e
  obtain ⟨a, t, rfl⟩ := List.exists_cons_of_ne_nil h
  have := (add_keys B _ hu a.1).2 (.inl (by simp))
  rw [e] at this
  simp at this

theorem conserves_keys {p : List Bool} {d : Q} {R A B : SpT Q K} (hA : Conserves p d A) (hB : Conserves p d B)
    (h : ∀ q, q ∈ R.map Prod.fst ↔ q ∈ A.map Prod.fst ∨ q ∈ B.map Prod.fst) : Conserves p d R := by
  intro b hb
  rcases (h b.1).1 (List.mem_map_of_mem hb) with h | h
  · obtain ⟨a, ha, e⟩ := List.mem_map.1 h
    rw [← e]; exact hA a ha
  · obtain ⟨a, ha, e⟩ := List.mem_map.1 h
    rw [← e]; exact hB a ha

theorem ferm_add_eq [Add K] {A B : FermT Q K} {legs : List (BondInfo Q)} (hB : OnLegs B legs) (hp : A.pattern = B.pattern) :
    A.add B = some ⟨A.pattern, A.blocks.add B.blocks⟩ := by
  unfold FermT.add
  rw [hp, flipAxes_self _ _ (ndim_le hB)]
  simp

theorem ferm_sub_eq [Sub K] [Neg K] {A B : FermT Q K} {legs : List (BondInfo Q)} (hB : OnLegs B legs) (hp : A.pattern = B.pattern) :
    A.subtract B = some ⟨A.pattern, A.blocks.subtract B.blocks⟩ := by
  unfold FermT.subtract
  rw [hp, flipAxes_self _ _ (ndim_le hB)]
  simp

/-- C76: the sum of two fermionic tensors with the same legs and signs has the sum of the entries; if both carry the charge `dq`, so does the sum. -/
theorem C76_add [AddCommMonoid K] (legs : List (BondInfo Q)) (A B : FermT Q K) (hA : OnLegs A legs) (hB : OnLegs B legs)
    (hu : UniqueLabels A.blocks) (hp : A.pattern = B.pattern) :
    ∃ R, A.add B = some R ∧ IsSum R A legs (fun x => entry A.blocks x + entry B.blocks x) ∧
      ∀ dq, Conserves A.pattern dq A.blocks → Conserves B.pattern dq B.blocks → Conserves R.pattern dq R.blocks := by
  obtain ⟨h1, h2, h3⟩ := C11_add legs A.blocks B.blocks hA.on hB.on hu
  refine ⟨_, ferm_add_eq hB hp, ⟨rfl, ⟨h1, hA.plen⟩, h2, h3⟩, fun dq ha hb => ?_⟩
  exact conserves_keys ha (by rw [hp]; exact hb) (add_keys _ _ hu)

/-- C76: likewise for the difference. -/
theorem C76_subtract [AddCommGroup K] (legs : List (BondInfo Q)) (A B : FermT Q K) (hA : OnLegs A legs) (hB : OnLegs B legs)
    (hu : UniqueLabels A.blocks) (hp : A.pattern = B.pattern) :
    ∃ R, A.subtract B = some R ∧ IsSum R A legs (fun x => entry A.blocks x - entry B.blocks x) ∧
      ∀ dq, Conserves A.pattern dq A.blocks → Conserves B.pattern dq B.blocks → Conserves R.pattern dq R.blocks := by
  obtain ⟨h1, h2, h3⟩ := C11_subtract legs A.blocks B.blocks hA.on hB.on hu
  refine ⟨_, ferm_sub_eq hB hp, ⟨rfl, ⟨h1, hA.plen⟩, h2, h3⟩, fun dq ha hb => ?_⟩
  exact conserves_keys ha (by rw [hp]; exact hb) (subtract_keys _ _ hu)

theorem flipAxes_ne {pa pb : List Bool} (hl : pa.length = pb.length) (h : pa ≠ pb) : ∃ f, flipAxes pa pb pb.length = some f ∧ f ≠ [] := by
  unfold flipAxes
  rw [if_pos ⟨hl.ge, le_refl _⟩]
  refine ⟨_, rfl, fun hf => h ?_⟩
  apply List.ext_getElem hl
  intro i h1 h2
  have := (List.filter_eq_nil_iff.1 hf) i (by simpa using h2)
  simpa [h1, h2] using this

/-- C76: tensors whose signs differ on some leg are not added or subtracted: the operation raises instead of giving a wrong result. -/
theorem C76_sign_mismatch [AddCommGroup K] (legs : List (BondInfo Q)) (A B : FermT Q K) (hA : OnLegs A legs) (hB : OnLegs B legs)
    (hne : B.blocks ≠ []) (hp : A.pattern ≠ B.pattern) : A.add B = none ∧ A.subtract B = none := by
  obtain ⟨f, h1, h2⟩ := flipAxes_ne (hA.plen.trans hB.plen.symm) hp
  have e : B.blocks.ndim = B.pattern.length := by rw [blocks_ndim hB.on hne, hB.plen]
  unfold FermT.add FermT.subtract
  rw [e, h1]
  simp [h2, hne]

/-! ### Numbers -/

theorem entry_mapBlocks [AddCommMonoid K] (g : K → K) (T : SpT Q K) (hu : UniqueLabels T) (x : List (Q × Nat)) :
    (InStoredBlock T x → entry (T.map fun b => (b.1, b.2.mapK g)) x = g (entry T x)) ∧
    (¬ InStoredBlock T x → entry (T.map fun b => (b.1, b.2.mapK g)) x = 0) := by
  have hu' : UniqueLabels (T.map fun b => (b.1, b.2.mapK g)) := by
    unfold UniqueLabels at *
    rw [List.map_map]
    exact hu
  constructor
  · rintro ⟨b, hb, h1, h2⟩
    rw [entry_of_mem hu' (b := (b.1, b.2.mapK g)) (List.mem_map_of_mem (f := fun b => (b.1, b.2.mapK g)) hb) h1.symm, entry_of_mem hu hb h1.symm]
    unfold blockEntry Arr.mapK
    simp only
    rw [if_pos ⟨h1, h2⟩, if_pos ⟨h1, h2⟩]
  · intro hn
    unfold entry
    apply List.sum_eq_zero
    intro v hv
    obtain ⟨b', hb', rfl⟩ := List.mem_map.1 hv
    obtain ⟨b, hb, rfl⟩ := List.mem_map.1 hb'
    unfold blockEntry Arr.mapK
    simp only
    exact if_neg fun hc => hn ⟨b, hb, hc⟩

/-- C76: adding or subtracting a number changes the entries covered by stored blocks only; the other entries stay zero. -/
theorem C76_number [AddCommGroup K] (A : FermT Q K) (hu : UniqueLabels A.blocks) (c : K) :
    ((A.addNumber c).pattern = A.pattern ∧ (A.subNumber c).pattern = A.pattern ∧ (FermT.numberSub c A).pattern = A.pattern) ∧
    ∀ x, (InStoredBlock A.blocks x → entry (A.addNumber c).blocks x = entry A.blocks x + c ∧
        entry (A.subNumber c).blocks x = entry A.blocks x - c ∧ entry (FermT.numberSub c A).blocks x = c - entry A.blocks x) ∧
      (¬ InStoredBlock A.blocks x → entry (A.addNumber c).blocks x = 0 ∧ entry (A.subNumber c).blocks x = 0 ∧
        entry (FermT.numberSub c A).blocks x = 0) :=
  ⟨⟨rfl, rfl, rfl⟩, fun x => ⟨fun h => ⟨(entry_mapBlocks (· + c) _ hu x).1 h, (entry_mapBlocks (· - c) _ hu x).1 h, (entry_mapBlocks (c - ·) _ hu x).1 h⟩,
    fun h => ⟨(entry_mapBlocks (· + c) _ hu x).2 h, (entry_mapBlocks (· - c) _ hu x).2 h, (entry_mapBlocks (c - ·) _ hu x).2 h⟩⟩⟩

/-! ### Sums and the other operations -/

section
variable [CommRing K]

theorem transpose_linear (par : Q → Nat) {legs : List (BondInfo Q)} {A B S : FermT Q K} (hA : Conforms legs A.blocks) (hB : Conforms legs B.blocks)
    (hS : Conforms legs S.blocks) (hs : ∀ x, entry S.blocks x = entry A.blocks x + entry B.blocks x) {ax : List Nat}
    (hax : ax.Perm (List.range legs.length)) (y : List (Q × Nat)) (hy : y.length = legs.length) :
    entry (S.transpose par (some ax)).blocks y = entry (A.transpose par (some ax)).blocks y + entry (B.transpose par (some ax)).blocks y := by
  have hax' : ax.Perm (List.range y.length) := by rw [hy]; exact hax
  have hl : (unpick ax y).length = legs.length := by rw [unpick_length]; simpa using hax.length_eq
  have e : (ax.map fun i => (unpick ax y).getD i 0) = y := by
    have := pick_unpick hax' y rfl
    unfold pick at this
    exact this
  have h1 := C25_entry par legs A hA ax hax (unpick ax y) hl
  have h2 := C25_entry par legs B hB ax hax (unpick ax y) hl
  have h3 := C25_entry par legs S hS ax hax (unpick ax y) hl
  rw [e] at h1 h2 h3
  rw [h1, h2, h3, hs, mul_add]

/-- C76: transposing a sum is adding the transposed tensors. -/
theorem C76_transpose (par : Q → Nat) (legs : List (BondInfo Q)) (A B : FermT Q K) (hA : OnLegs A legs) (hB : OnLegs B legs)
    (hu : UniqueLabels A.blocks) (hp : A.pattern = B.pattern) (ax : List Nat) (hax : ax.Perm (List.range legs.length)) :
    ∃ S R, A.add B = some S ∧ (A.transpose par (some ax)).add (B.transpose par (some ax)) = some R ∧
      (S.transpose par (some ax)).pattern = R.pattern ∧
      ∀ y, y.length = legs.length → entry (S.transpose par (some ax)).blocks y = entry R.blocks y := by
  obtain ⟨S, h1, h2, -⟩ := C76_add legs A B hA hB hu hp
  have hl : ax.length = legs.length := by simpa using hax.length_eq
  have on : ∀ T : FermT Q K, OnLegs T legs → OnLegs (T.transpose par (some ax)) (ax.map fun i => legs.getD i []) := fun T hT =>
    ⟨C25_conforms par legs T hT.on ax hax, by simp [FermT.transpose]⟩
  have hut : UniqueLabels (A.transpose par (some ax)).blocks := by
    rw [transpose_blocks]
    refine transpose_unique (conforms_scaleBlocks _ hA.on) ?_ hax
    unfold UniqueLabels scaleBlocks at *
    rw [List.map_map]
    exact hu
  obtain ⟨R, r1, r2, -⟩ := C76_add _ _ _ (on A hA) (on B hB) hut (by simp [FermT.transpose, hp])
  refine ⟨S, R, h1, r1, ?_, fun y hy => ?_⟩
  · rw [r2.pattern]
    simp [FermT.transpose, h2.pattern]
  · rw [r2.entries, transpose_linear par hA.on hB.on h2.onLegs.on h2.entries hax y hy]

/-- C76: contraction distributes over a sum on the left. -/
theorem C76_contract_left (par : Q → Nat) (A A' B : FermT Q K) (axesA axesB : List Int) (legsA legsB legs : List (BondInfo Q)) (idxa idxb : List Nat)
    (h : Contractible A B axesA axesB legsA legsB legs idxa idxb) (h' : Contractible A' B axesA axesB legsA legsB legs idxa idxb)
    (hu : UniqueLabels A.blocks) (hp : A.pattern = A'.pattern) (hl : A.pattern.length = legsA.length) :
    ∃ S R P P', A.add A' = some S ∧ FermT.tensordot par S B axesA axesB = some R ∧
      FermT.tensordot par A B axesA axesB = some P ∧ FermT.tensordot par A' B axesA axesB = some P' ∧
      ∀ fa fb, fa.length = (freeAxes legsA.length idxa).length → fb.length = (freeAxes legsB.length idxb).length →
        entry R.blocks (fa ++ fb) = entry P.blocks (fa ++ fb) + entry P'.blocks (fa ++ fb) := by
  have hB' : OnLegs A' legsA := ⟨h'.onA, by rw [← hp]; exact hl⟩
  obtain ⟨S, s1, s2, -⟩ := C76_add legsA A A' ⟨h.onA, hl⟩ hB' hu hp
  have hS : S = ⟨A.pattern, A.blocks.add A'.blocks⟩ := by
    rw [ferm_add_eq hB' hp] at s1
    exact (Option.some.inj s1).symm
  have hc : Contractible S B axesA axesB legsA legsB legs idxa idxb :=
    ⟨s2.onLegs.on, h.onB, h.axA, h.axB, h.ndA, h.ndB, h.legA, h.legB, h.wf, by rw [hS]; exact add_ne hu h.ne,
      by have := h.pat; unfold OppositePatterns at *; rw [s2.pattern]; exact this⟩
  obtain ⟨R, r1, -, -, r4⟩ := C26_tensordot par S B axesA axesB legsA legsB legs idxa idxb hc
  obtain ⟨P, p1, -, -, p4⟩ := C26_tensordot par A B axesA axesB legsA legsB legs idxa idxb h
  obtain ⟨P', q1, -, -, q4⟩ := C26_tensordot par A' B axesA axesB legsA legsB legs idxa idxb h'
  refine ⟨S, R, P, P', s1, r1, p1, q1, fun fa fb hfa hfb => ?_⟩
  have hlt := namesAxis_lt h.axA
  have hperm : (freeAxes legsA.length idxa ++ idxa.reverse).Perm (List.range legsA.length) :=
    (List.perm_append_comm.trans (List.Perm.append_right _ (List.reverse_perm _))).trans (by rw [freeAxes_eq]; exact idx_out_perm h.ndA hlt)
  rw [r4 fa fb hfa hfb, p4 fa fb hfa hfb, q4 fa fb hfa hfb, ← List.sum_map_add]
  apply sum_map_congr'
  intro c hcm
  have hcl : c.length = legs.length := legIndices_length hcm
  rw [transpose_linear par h.onA h'.onA s2.onLegs.on s2.entries hperm, add_mul]
  have e1 := hperm.length_eq
  have e2 : legs.length = idxa.length := by rw [← h.legA]; simp
  simp only [List.length_append, List.length_reverse, List.length_range] at e1 ⊢
  omega

/-- C76: contraction distributes over a sum on the right. -/
theorem C76_contract_right (par : Q → Nat) (A B B' : FermT Q K) (axesA axesB : List Int) (legsA legsB legs : List (BondInfo Q)) (idxa idxb : List Nat)
    (h : Contractible A B axesA axesB legsA legsB legs idxa idxb) (h' : Contractible A B' axesA axesB legsA legsB legs idxa idxb)
    (hu : UniqueLabels B.blocks) (hp : B.pattern = B'.pattern) (hl : B.pattern.length = legsB.length) :
    ∃ S R P P', B.add B' = some S ∧ FermT.tensordot par A S axesA axesB = some R ∧
      FermT.tensordot par A B axesA axesB = some P ∧ FermT.tensordot par A B' axesA axesB = some P' ∧
      ∀ fa fb, fa.length = (freeAxes legsA.length idxa).length → fb.length = (freeAxes legsB.length idxb).length →
        entry R.blocks (fa ++ fb) = entry P.blocks (fa ++ fb) + entry P'.blocks (fa ++ fb) := by
  have hB' : OnLegs B' legsB := ⟨h'.onB, by rw [← hp]; exact hl⟩
  obtain ⟨S, s1, s2, -⟩ := C76_add legsB B B' ⟨h.onB, hl⟩ hB' hu hp
  have hc : Contractible A S axesA axesB legsA legsB legs idxa idxb :=
    ⟨h.onA, s2.onLegs.on, h.axA, h.axB, h.ndA, h.ndB, h.legA, h.legB, h.wf, h.ne,
      by have := h.pat; unfold OppositePatterns at *; rw [s2.pattern]; exact this⟩
  obtain ⟨R, r1, -, -, r4⟩ := C26_tensordot par A S axesA axesB legsA legsB legs idxa idxb hc
  obtain ⟨P, p1, -, -, p4⟩ := C26_tensordot par A B axesA axesB legsA legsB legs idxa idxb h
  obtain ⟨P', q1, -, -, q4⟩ := C26_tensordot par A B' axesA axesB legsA legsB legs idxa idxb h'
  refine ⟨S, R, P, P', s1, r1, p1, q1, fun fa fb hfa hfb => ?_⟩
  have hlt := namesAxis_lt h.axB
  have hperm : (idxb ++ freeAxes legsB.length idxb).Perm (List.range legsB.length) := by
    rw [freeAxes_eq]; exact idx_out_perm h.ndB hlt
  rw [r4 fa fb hfa hfb, p4 fa fb hfa hfb, q4 fa fb hfa hfb, ← List.sum_map_add]
  apply sum_map_congr'
  intro c hcm
  have hcl : c.length = legs.length := legIndices_length hcm
  rw [transpose_linear par h.onB h'.onB s2.onLegs.on s2.entries hperm, mul_add]
  have e1 := hperm.length_eq
  have e2 : legs.length = idxb.length := by rw [← h.legB]; simp
  simp only [List.length_append, List.length_range] at e1 ⊢
  omega

/-- C76: the trace of a sum is the sum of the traces. -/
theorem C76_trace (par : Q → Nat) (A B : FermT Q K) (legs : List (BondInfo Q)) (ax1 ax2 : List Nat) (hA : Traceable A legs ax1 ax2)
    (hB : Traceable B legs ax1 ax2) (hu : UniqueLabels A.blocks) (hp : A.pattern = B.pattern) (hd : A.dq = B.dq) :
    ∃ S R, A.add B = some S ∧ S.trace par ax1 ax2 = some R ∧
      IsResult R ((freeAxes legs.length (ax1 ++ ax2)).map fun i => A.pattern.getD i true)
        ((freeAxes legs.length (ax1 ++ ax2)).map fun i => legs.getD i [])
        (fun f => traceValue par A legs ax1 ax2 f + traceValue par B legs ax1 ax2 f) := by
  obtain ⟨dA, cA⟩ := hA.charge
  obtain ⟨dB, cB⟩ := hB.charge
  have key : ∀ (T : FermT Q K) (d : Q), T.blocks ≠ [] → Conserves T.pattern d T.blocks → T.dq = some d := by
    intro T d hne hc
    unfold FermT.dq
    obtain ⟨b, t, e⟩ := List.exists_cons_of_ne_nil hne
    have := hc b (by rw [e]; simp)
    rw [e]
    simp only [List.head?_cons, Option.map_some]
    rw [BondFusingInfo.combine_eq, this]
  have hdd : dA = dB := by
    rw [key A dA hA.ne cA, key B dB hB.ne cB] at hd
    exact Option.some.inj hd
  have onB : OnLegs B legs := ⟨hB.on, hB.plen⟩
  obtain ⟨S, s1, s2, s3⟩ := C76_add legs A B ⟨hA.on, hA.plen⟩ onB hu hp
  have hS : S = ⟨A.pattern, A.blocks.add B.blocks⟩ := by
    rw [ferm_add_eq onB hp] at s1
    exact (Option.some.inj s1).symm
  have ht : Traceable S legs ax1 ax2 :=
    ⟨s2.onLegs.on, by rw [hS]; exact add_ne hu hA.ne, ⟨dA, s3 dA cA (by rw [hdd]; exact cB)⟩, s2.onLegs.plen, hA.len, hA.nd, hA.lt, hA.bonds, hA.wf,
      by rw [s2.pattern]; exact hA.pat⟩
  obtain ⟨R, r1, r2⟩ := C73_trace par S legs ax1 ax2 ht
  refine ⟨S, R, s1, r1, ?_⟩
  have hv : ∀ f, f.length = (freeAxes legs.length (ax1 ++ ax2)).length →
      traceValue par S legs ax1 ax2 f = traceValue par A legs ax1 ax2 f + traceValue par B legs ax1 ax2 f := by
    intro f hf
    have hperm := hA.perm'
    rw [← freeAxes_eq] at hperm
    unfold traceValue
    rw [← List.sum_map_add]
    apply sum_map_congr'
    intro c hcm
    have hcl : c.length = (ax1.map fun i => legs.getD i []).length := legIndices_length hcm
    rw [transpose_linear par hA.on hB.on s2.onLegs.on s2.entries hperm]
    have e1 := hperm.length_eq
    have e3 : (sideBySide ax1 ax2).length = (twice c).length := by
      have e4 : ∀ (l : List (Nat × Nat)), (l.flatMap fun p => [min p.1 p.2, max p.1 p.2]).length = 2 * l.length := by
        intro l; induction l <;> simp_all; omega
      have e5 : ∀ (l : List (Q × Nat)), (l.flatMap fun x => [x, x]).length = 2 * l.length := by
        intro l; induction l <;> simp_all; omega
      unfold sideBySide twice
      rw [e4, e5, hcl]
      simp [hA.len]
    simp only [List.length_append, List.length_range] at e1 ⊢
    omega
  rw [s2.pattern] at r2
  unfold IsResult at r2 ⊢
  cases R with
  | inl v => exact ⟨r2.1, r2.2.trans (hv [] (by have := congrArg List.length r2.1; simpa using this.symm))⟩
  | inr T => exact ⟨r2.1, r2.2.1, r2.2.2.1, r2.2.2.2.1, fun f hf => (r2.2.2.2.2 f hf).trans (hv f (by simpa using hf))⟩

end

/-! ### Reported shape -/

theorem seen_step {leg : BondInfo Q} (hw : Dict.WF leg) {q : Q} {d : Nat} (hq : Dict.get? leg q = some d) {P : Q → Bool} (hP : P q = false) :
    ((List.filter (fun p : Q × Nat => P p.1 || decide (p.1 = q)) leg).map Prod.snd).sum = ((List.filter (fun p : Q × Nat => P p.1) leg).map Prod.snd).sum + d := by
  induction leg with
  | nil => simp [Dict.get?] at hq
  | cons p t ih =>
    obtain ⟨k, v⟩ := p
    have hw' : Dict.WF t := by unfold Dict.WF at *; simp only [List.map_cons, List.nodup_cons] at hw; exact hw.2
    have hk : k ∉ t.map Prod.fst := by unfold Dict.WF at hw; simp only [List.map_cons, List.nodup_cons] at hw; exact hw.1
    by_cases hkq : k = q
    · subst hkq
      have hv : v = d := by
        unfold Dict.get? at hq
        simpa using hq
      have ht : List.filter (fun p : Q × Nat => P p.1 || decide (p.1 = k)) t = List.filter (fun p : Q × Nat => P p.1) t := by
        apply List.filter_congr
        intro p hp
        have : p.1 ≠ k := fun e => hk (e ▸ List.mem_map_of_mem hp)
        simp [this]
      simp [List.filter_cons, hP, ht, hv]
      omega
    · have hq' : Dict.get? t q = some d := by
        unfold Dict.get? at hq
        simpa [hkq] using hq
      have := ih hw' hq'
      by_cases hPk : P k = true
      · simp [List.filter_cons, hPk, this]; omega
      · simp [List.filter_cons, hPk, hkq, this]

theorem IsCombination.leg_get {legs : List (BondInfo Q)} {qs : List Q} {sh : List Nat} (h : IsCombination legs qs sh) {i : Nat} (hi : i < legs.length) :
    ∃ q, qs[i]? = some q ∧ Dict.get? (legs.getD i []) q = some (sh.getD i 0) := by
  induction h generalizing i with
  | nil => simp at hi
  | @cons b legs q qs n sh hb _ ih =>
    cases i with
    | zero => exact ⟨q, by simp, by simpa using hb⟩
    | succ i =>
      obtain ⟨q', h1, h2⟩ := ih (by simpa using hi)
      exact ⟨q', by simpa using h1, by simpa using h2⟩

/-- C76: the computed shape is, for each leg, the dimension of the labels that occur. -/
theorem C76_shape (legs : List (BondInfo Q)) (T : SpT Q K) (hT : Conforms legs T) (hne : T ≠ []) (hw : ∀ b ∈ legs, Dict.WF b) :
    FermT.shapeOf T = (List.range legs.length).map fun i => seenDim T (legs.getD i []) i := by
  unfold FermT.shapeOf
  rw [blocks_ndim hT hne]
  apply List.map_congr_left
  intro i hi
  have hi : i < legs.length := by simpa using hi
  have hwi : Dict.WF (legs.getD i []) := by
    rw [List.getD_eq_getElem _ _ hi]
    exact hw _ (List.getElem_mem hi)
  have key : ∀ (l : SpT Q K), Conforms legs l → ∀ (st : List Q × Nat),
      st.2 = ((List.filter (fun p : Q × Nat => decide (p.1 ∈ st.1)) (legs.getD i [])).map Prod.snd).sum →
      (l.foldl (fun (st : List Q × Nat) b => match b.1[i]? with
        | none => st
        | some q => if q ∈ st.1 then st else (st.1 ++ [q], st.2 + b.2.shape.getD i 0)) st).2 =
      ((List.filter (fun p : Q × Nat => decide (p.1 ∈ st.1 ∨ ∃ b ∈ l, b.1[i]? = some p.1)) (legs.getD i [])).map Prod.snd).sum := by
    intro l
    induction l with
    | nil => intro _ st h; simpa using h
    | cons b t ih =>
      intro hc st h
      obtain ⟨hb, ht⟩ := Conforms.cons.1 hc
      obtain ⟨q, h1, h2⟩ := hb.leg_get hi
      simp only [List.foldl_cons, h1]
      by_cases hq : q ∈ st.1
      · rw [if_pos hq, ih ht st h]
        congr 2
        apply List.filter_congr
        intro p _
        simp only [decide_eq_decide, List.mem_cons, exists_eq_or_imp, h1, Option.some.injEq]
        constructor
        · rintro (h | h)
          · exact .inl h
          · exact .inr (.inr h)
        · rintro (h | h | h)
          · exact .inl h
          · exact .inl (h ▸ hq)
          · exact .inr h
      · rw [if_neg hq, ih ht]
        · congr 2
          apply List.filter_congr
          intro p _
          simp only [decide_eq_decide, List.mem_cons, exists_eq_or_imp, h1, Option.some.injEq, List.mem_append, List.not_mem_nil, or_false]
          constructor
          · rintro ((h | h) | h)
            · exact .inl h
            · exact .inr (.inl h.symm)
            · exact .inr (.inr h)
          · rintro (h | h | h)
            · exact .inl (.inl h)
            · exact .inl (.inr h.symm)
            · exact .inr h
        · have := seen_step hwi h2 (P := fun q => decide (q ∈ st.1)) (by simpa using hq)
          simp only [h]
          rw [← this]
          congr 2
          apply List.filter_congr
          intro p _
          simp
  refine (key T hT ([], 0) (by simp)).trans ?_
  unfold seenDim
  congr 2
  apply List.filter_congr
  intro p _
  simp

/-- C76: the shape reported by a sum is that of its blocks. -/
theorem C76_add_shape [AddCommMonoid K] (legs : List (BondInfo Q)) (A B : FermT Q K) (hA : OnLegs A legs) (hB : OnLegs B legs)
    (hu : UniqueLabels A.blocks) (hne : A.blocks ≠ []) (hw : ∀ b ∈ legs, Dict.WF b) :
    A.addShape B = (List.range legs.length).map fun i => seenDim (A.blocks.add B.blocks) (legs.getD i []) i :=
  C76_shape legs _ (C11_add legs A.blocks B.blocks hA.on hB.on hu).1 (add_ne hu hne) hw

/-- C76, violation: a difference reports the shape of its left operand, although its blocks may have more labels: `[1, 1]` instead of `[2, 2]`. -/
theorem C76_subtract_shape_wrong : ∃ (A B R : FermT Int Int) (legs : List (BondInfo Int)), OnLegs A legs ∧ OnLegs B legs ∧ UniqueLabels A.blocks ∧
    A.pattern = B.pattern ∧ A.subtract B = some R ∧ A.subtractShape B = [1, 1] ∧ FermT.shapeOf R.blocks = [2, 2] :=
  ⟨⟨[true, false], [([0, 0], ⟨[1, 1], fun _ => 2⟩)]⟩, ⟨[true, false], [([1, 1], ⟨[1, 1], fun _ => 3⟩)]⟩, _, [trBond, trBond],
    ⟨by decide +kernel, rfl⟩, ⟨by decide +kernel, rfl⟩, by decide +kernel, rfl, rfl, by decide +kernel, by decide +kernel⟩

/-! ### Flat form -/

section
variable {C : Type} [DecidableEq C]

theorem flat_ndim_le [Zero K] {dec : C → Q} {T : FlatFermT C K} {legs : List (BondInfo Q)} (hT : T.flat.WellFormed) (h : OnLegs (T.toSparse dec) legs) :
    T.ndim ≤ T.pattern.length := by
  obtain ⟨p, F⟩ := T
  obtain ⟨l, hl, rfl⟩ := Flat.exists_pack hT
  obtain ⟨h1, h2⟩ := h
  simp only [FlatFermT.toSparse] at h1 h2
  rw [Flat.toSparse_pack dec hl] at h1
  unfold FlatFermT.ndim
  cases l with
  | nil => simp [Flat.pack]
  | cons e t =>
    have := (h1 _ (by simp only [List.map_cons]; exact List.mem_cons_self)).lengths
    simp only [List.length_map] at this
    simp only [Flat.pack, List.map_cons, List.headD_cons, h2]
    omega

/-- C76: in the flat form sums are computed as in the block form. -/
theorem C76_flat_add [AddCommMonoid K] (dec : C → Q) (legs : List (BondInfo Q)) (A B : FlatFermT C K) (hA : A.flat.WellFormed) (hB : B.flat.WellFormed)
    (lA : OnLegs (A.toSparse dec) legs) (lB : OnLegs (B.toSparse dec) legs) (hp : A.pattern = B.pattern) :
    ∃ R, A.add B = some R ∧ R.pattern = A.pattern ∧ R.flat.WellFormed ∧ OnLegs (R.toSparse dec) legs ∧
      ∀ x, entry (R.toSparse dec).blocks x = entry (A.toSparse dec).blocks x + entry (B.toSparse dec).blocks x := by
  obtain ⟨h1, h2, h3⟩ := C17_add legs dec A.flat B.flat hA hB lA.on lB.on
  refine ⟨⟨A.pattern, Flat.add A.flat B.flat⟩, ?_, rfl, h1, ⟨h2, lA.plen⟩, h3⟩
  unfold FlatFermT.add Flat.add
  by_cases c1 : B.flat.qs.length = 0
  · rw [if_pos c1, if_pos c1]
  by_cases c2 : A.flat.qs.length = 0
  · rw [if_neg c1, if_neg c1, if_pos c2, if_pos c2, hp]
  rw [if_neg c1, if_neg c1, if_neg c2, if_neg c2, hp, flipAxes_self _ _ (flat_ndim_le hB lB)]
  simp

/-- C76: in the flat form differences are computed as in the block form, if the left operand has a block or the right one has none. -/
theorem C76_flat_subtract [AddCommGroup K] (dec : C → Q) (legs : List (BondInfo Q)) (A B : FlatFermT C K) (hA : A.flat.WellFormed) (hB : B.flat.WellFormed)
    (lA : OnLegs (A.toSparse dec) legs) (lB : OnLegs (B.toSparse dec) legs) (hp : A.pattern = B.pattern) (hne : A.flat.qs ≠ [] ∨ B.flat.qs = []) :
    ∃ R, A.subtract B = some R ∧ R.pattern = A.pattern ∧ R.flat.WellFormed ∧ OnLegs (R.toSparse dec) legs ∧
      ∀ x, entry (R.toSparse dec).blocks x = entry (A.toSparse dec).blocks x - entry (B.toSparse dec).blocks x := by
  obtain ⟨h1, h2, h3⟩ := C17_subtract legs dec A.flat B.flat hA hB lA.on lB.on
  refine ⟨⟨A.pattern, Flat.subtract A.flat B.flat⟩, ?_, rfl, h1, ⟨h2, lA.plen⟩, h3⟩
  unfold FlatFermT.subtract Flat.subtract
  by_cases c1 : B.flat.qs.length = 0
  · rw [if_pos c1, if_pos c1]
  have c2 : A.flat.qs.length ≠ 0 := by
    rcases hne with h | h
    · simpa using h
    · exact absurd (by rw [h]; rfl) c1
  rw [if_neg c1, if_neg c1, if_neg c2, if_neg c2, hp, flipAxes_self _ _ (flat_ndim_le hB lB)]
  simp

/-- C76: the flat form too raises for tensors with blocks whose signs differ on some leg. -/
theorem C76_flat_sign_mismatch [AddCommGroup K] (dec : C → Q) (legs : List (BondInfo Q)) (A B : FlatFermT C K) (hB : B.flat.WellFormed)
    (lA : OnLegs (A.toSparse dec) legs) (lB : OnLegs (B.toSparse dec) legs) (nA : A.flat.qs ≠ []) (nB : B.flat.qs ≠ []) (hp : A.pattern ≠ B.pattern) :
    A.add B = none ∧ A.subtract B = none := by
  obtain ⟨f, h1, h2⟩ := flipAxes_ne (lA.plen.trans lB.plen.symm) hp
  have e : B.ndim = B.pattern.length := by
    obtain ⟨p, F⟩ := B
    obtain ⟨l, hl, rfl⟩ := Flat.exists_pack hB
    obtain ⟨k1, k2⟩ := lB
    simp only [FlatFermT.toSparse] at k1 k2
    rw [Flat.toSparse_pack dec hl] at k1
    unfold FlatFermT.ndim
    cases l with
    | nil => simp [Flat.pack] at nB
    | cons e t =>
      have := (k1 _ (by simp only [List.map_cons]; exact List.mem_cons_self)).lengths
      simp only [List.length_map] at this
      simp only [Flat.pack, List.map_cons, List.headD_cons, k2]
      omega
  unfold FlatFermT.add FlatFermT.subtract
  rw [if_neg (by simpa using nB), if_neg (by simpa using nA), if_neg (by simpa using nB), if_neg (by simpa using nA), e,
    show flipAxes A.pattern B.pattern B.pattern.length = some f from h1]
  simp [h2]

/-- C76, violation: in the flat form, a tensor without blocks minus `B` is `B`, not `-B`. -/
theorem C76_flat_subtract_from_empty [AddCommGroup K] (A B : FlatFermT C K) (h1 : A.flat.qs = []) (h2 : B.flat.qs ≠ []) :
    A.subtract B = some B := by
  unfold FlatFermT.subtract
  rw [if_neg (by simpa using h2), if_pos (by rw [h1]; rfl)]

/-- C76, violation, concretely: the two forms give opposite entries. -/
theorem C76_flat_subtract_wrong : ∃ (A B R : FlatFermT Int Int) (S : FermT Int Int) (legs : List (BondInfo Int)),
    A.flat.WellFormed ∧ B.flat.WellFormed ∧ OnLegs (A.toSparse id) legs ∧ OnLegs (B.toSparse id) legs ∧ A.pattern = B.pattern ∧
    A.subtract B = some R ∧ (A.toSparse id).subtract (B.toSparse id) = some S ∧
    entry (R.toSparse id).blocks [(1, 0), (1, 0)] = 3 ∧ entry S.blocks [(1, 0), (1, 0)] = -3 :=
  ⟨⟨[true, false], ⟨[], [], [], [0]⟩⟩, ⟨[true, false], ⟨[[1, 1]], [[1, 1]], [3], [0, 1]⟩⟩, _, _, [trBond, trBond],
    by decide +kernel, by decide +kernel, ⟨by decide +kernel, rfl⟩, ⟨by decide +kernel, rfl⟩, rfl, rfl, rfl, by decide +kernel, by decide +kernel⟩

end

/-! ### A concrete case -/

/-- A second tensor on the legs of `trA`, with one label in common. -/
def trA' : FermT Int Int := ⟨[true, true, false], [([0, 1, 1], ⟨[1, 1, 1], fun _ => 7⟩)]⟩

example : OnLegs trA [trBond, trBond, trBond] ∧ OnLegs trA' [trBond, trBond, trBond] ∧ UniqueLabels trA.blocks ∧ trA.pattern = trA'.pattern :=
  ⟨⟨by decide +kernel, rfl⟩, ⟨by decide +kernel, rfl⟩, by decide +kernel, rfl⟩

example : (trA.add trA').map (fun S => entry S.blocks [(0, 0), (1, 0), (1, 0)]) = some 10 ∧
    (trA'.subtract trA).map (fun S => (entry S.blocks [(0, 0), (1, 0), (1, 0)], entry S.blocks [(0, 0), (0, 0), (0, 0)])) = some (4, -5) ∧
    trA.add ⟨[true, true, true], trA'.blocks⟩ = none := ⟨by decide +kernel, by decide +kernel, rfl⟩

theorem trA'_contractible : Contractible trA' ⟨trA.pattern.map not, trA.blocks⟩ [2, 0] [2, 0] [trBond, trBond, trBond] [trBond, trBond, trBond]
    [trBond, trBond] [2, 0] [2, 0] :=
  ⟨by decide +kernel, by decide +kernel, by simp [NamesAxis], by simp [NamesAxis], by decide, by decide, rfl, rfl,
    by unfold trBond Dict.WF; decide +kernel, by decide +kernel, .cons rfl (.cons rfl .nil)⟩

example := C76_contract_left (fun q => q.toNat % 2) trA trA' _ _ _ _ _ _ _ _ trA_contractible trA'_contractible (by decide +kernel) rfl rfl

example := C76_trace (fun q => q.toNat % 2) trT trT _ _ _ trT_traceable trT_traceable (by decide +kernel) rfl rfl

end Verif
