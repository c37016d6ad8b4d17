import Verif.Proof.FlatFermTrace

set_option linter.unusedSectionVars false

/-!
C77: the trace of a flat fermionic tensor.
-/

namespace Verif
open FlatFermT
variable {Q C K : Type} [AddCommGroup Q] [DecidableEq Q] [DecidableEq C] [Zero C] [CommRing K]

/-- Different codes that occur in the tensor stand for different labels. -/
def CodesDistinct (dec : C → Q) (T : FlatFermT C K) : Prop :=
  ∀ q ∈ T.flat.qs, ∀ q' ∈ T.flat.qs, ∀ c ∈ q, ∀ c' ∈ q', dec c = dec c' → c = c'

/-- Some stored block has equal labels on the two legs of each traced pair. -/
def HasDiagonalBlock (T : FlatFermT C K) (ax1 ax2 : List Nat) : Prop :=
  ∃ q ∈ T.flat.qs, (ax1.map fun i => q.getD i 0) = ax2.map fun i => q.getD i 0

theorem traceBlocks_entry (par : Q → Nat) {legs : List (BondInfo Q)} {T : FermT Q K} (hT : Conforms legs T.blocks) {ps : List (Nat × Nat)} {out : List Nat}
    (hout : ∀ i ∈ out, i < legs.length) {m : SpT Q K} (hm : FermT.traceBlocks par T ps out = some m) (x : List (Q × Nat)) :
    Conforms (pick out legs) m ∧ entry m x = ((T.blocks.filter fun b => FermT.aligned T.pattern ps b.1).map fun b =>
      blockEntry (pick out b.1, (b.2.traceAxes (ps.map Prod.fst) (ps.map Prod.snd) out).mapK
        (· * ((computePhase (b.1.map par) (ps.flatMap fun p => [p.1, p.2]) false : Int) : K))) x).sum := by
  unfold FermT.traceBlocks at hm
  simp only at hm
  split_ifs at hm with hs
  have hm := Option.some.inj hm
  have hfold := foldl_accumulate (legs := pick out legs) ((T.blocks.filter fun b => FermT.aligned T.pattern ps b.1).map fun b =>
      (pick out b.1, (b.2.traceAxes (ps.map Prod.fst) (ps.map Prod.snd) out).mapK
        (· * ((computePhase (b.1.map par) (ps.flatMap fun p => [p.1, p.2]) false : Int) : K)))) []
    (by intro b hb; simp at hb) (conforms_map _ (by
      intro b hb
      exact (hT b (List.mem_filter.1 hb).1).pick (axes := out) hout)) (by unfold UniqueLabels; simp)
  simp only [List.foldl_map] at hfold
  have h3 := hfold.2.2 x
  rw [← hm]
  refine ⟨hfold.1, ?_⟩
  refine h3.trans ?_
  have h0 : entry ([] : SpT Q K) x = 0 := rfl
  rw [h0, zero_add]
  unfold entry
  rw [List.map_map]
  rfl

theorem entry_noLegs {m : SpT Q K} (h : Conforms [] m) : entry m [] = (m.map fun b => b.2.get []).sum := by
  unfold entry
  congr 1
  apply List.map_congr_left
  intro b hb
  have hl := (h b hb).lengths
  unfold blockEntry
  have e1 : b.1 = [] := List.eq_nil_of_length_eq_zero hl.1
  have e2 : b.2.shape = [] := List.eq_nil_of_length_eq_zero hl.2
  rw [e1, e2]
  simp [inBox]

theorem tracePairs_pick_iff {α : Type} [Zero α] {ax1 ax2 : List Nat} (h : ax1.length = ax2.length) (q : List α) :
    pick ((FermT.tracePairs ax1 ax2).map Prod.fst) q = pick ((FermT.tracePairs ax1 ax2).map Prod.snd) q ↔
      (ax1.map fun i => q.getD i 0) = ax2.map fun i => q.getD i 0 := by
  induction ax1 generalizing ax2 with
  | nil => cases ax2 with
    | nil => simp [FermT.tracePairs, pick]
    | cons => simp at h
  | cons i t ih => cases ax2 with
    | nil => simp at h
    | cons j t' =>
      have := ih (ax2 := t') (by simpa using h)
      unfold FermT.tracePairs pick at this ⊢
      simp only [List.zip_cons_cons, List.map_cons, List.cons.injEq]
      rw [this]
      apply and_congr_left'
      rcases le_total i j with hij | hij
      · rw [min_eq_left hij, max_eq_right hij]
      · rw [min_eq_right hij, max_eq_left hij]
        exact eq_comm

/-- What is common to all traces of a flat tensor. -/
theorem flat_trace_unfold (par : Q → Nat) (dec : C → Q) {p : List Bool} {l : List (List C × List Nat × List K)} (hl : Flat.Chunked l) {legs : List (BondInfo Q)}
    {ax1 ax2 : List Nat} (h : Traceable (FlatFermT.toSparse dec ⟨p, Flat.pack l⟩ : FermT Q K) legs ax1 ax2)
    (hinj : CodesDistinct dec (⟨p, Flat.pack l⟩ : FlatFermT C K)) :
    let T : FlatFermT C K := ⟨p, Flat.pack l⟩
    let out := SpT.outAxes legs.length (ax1 ++ ax2)
    let bs := l.filter fun e => decide (pick ((FermT.tracePairs ax1 ax2).map Prod.fst) e.1 = pick ((FermT.tracePairs ax1 ax2).map Prod.snd) e.1)
    ∃ d, (T.toSparse dec).dq = some d ∧
      T.trace par dec ax1 ax2 = (if ax1.length + ax1.length = legs.length ∧ d ≠ 0 then some (.inl 0) else
        if bs = [] then none else
        if (out.map fun i => p.getD i true) ≠ [] then some (.inr ⟨out.map fun i => p.getD i true, Flat.pack (partsOf par dec (FermT.tracePairs ax1 ax2) out bs)⟩)
        else some (.inl ((partsOf par dec (FermT.tracePairs ax1 ax2) out bs).map fun e => e.2.2).flatten.sum)) ∧
      (∀ e ∈ l, FermT.aligned p (FermT.tracePairs ax1 ax2) (e.1.map dec) =
        decide (pick ((FermT.tracePairs ax1 ax2).map Prod.fst) e.1 = pick ((FermT.tracePairs ax1 ax2).map Prod.snd) e.1)) := by
  intro T out bs
  have hps := tracePairs_length h.len
  have hperm := tracePairs_perm h.len
  have hpat := tracePairs_forall h.pat (fun i j e => by rw [e]; simp)
  have hblocks : (T.toSparse dec).blocks = l.map fun e => (e.1.map dec, Arr.ofList e.2.1 e.2.2) := Flat.toSparse_pack dec hl
  have hon : ∀ e ∈ l, IsCombination legs (e.1.map dec) e.2.1 := by
    intro e he
    have := h.on
    rw [show (FlatFermT.toSparse dec ⟨p, Flat.pack l⟩ : FermT Q K).blocks = _ from hblocks] at this
    exact this _ (List.mem_map_of_mem (f := fun e : List C × List Nat × List K => (e.1.map dec, Arr.ofList e.2.1 e.2.2)) he)
  have hlen : ∀ e ∈ l, e.1.length = legs.length := by
    intro e he
    have := (hon e he).lengths
    simp only [List.length_map] at this
    omega
  have hlne : l ≠ [] := by
    intro e
    apply h.ne
    rw [show (FlatFermT.toSparse dec ⟨p, Flat.pack l⟩ : FermT Q K).blocks = _ from hblocks, e]
    rfl
  obtain ⟨e0, t0, hl0⟩ := List.exists_cons_of_ne_nil hlne
  have hnd : T.ndim = legs.length := by
    have := hlen e0 (by rw [hl0]; simp)
    simp only [FlatFermT.ndim, T, Flat.pack, hl0, List.map_cons, List.headD_cons, this]
  have hd1 : (T.toSparse dec).dq = some (BondFusingInfo.combine (e0.1.map dec) p) := by
    unfold FermT.dq
    rw [hblocks, hl0]
    rfl
  have hd2 : T.dq dec = some (BondFusingInfo.combine (e0.1.map dec) p) := by
    simp only [FlatFermT.dq, T, Flat.pack, hl0, List.map_cons, List.head?_cons, Option.map_some]
  have hal : ∀ e ∈ l, FermT.aligned p (FermT.tracePairs ax1 ax2) (e.1.map dec) =
        decide (pick ((FermT.tracePairs ax1 ax2).map Prod.fst) e.1 = pick ((FermT.tracePairs ax1 ax2).map Prod.snd) e.1) := by
    intro e he
    rw [Bool.eq_iff_iff, decide_eq_true_eq]
    refine (aligned_iff p _ hpat _).trans ?_
    have i1 : ∀ i ∈ (FermT.tracePairs ax1 ax2).map Prod.fst, i < e.1.length := fun i hi => by
      rw [hlen e he]; exact h.lt i (hperm.mem_iff.1 (List.mem_append_left _ hi))
    have i2 : ∀ i ∈ (FermT.tracePairs ax1 ax2).map Prod.snd, i < e.1.length := fun i hi => by
      rw [hlen e he]; exact h.lt i (hperm.mem_iff.1 (List.mem_append_right _ hi))
    rw [pick_map_in dec i1, pick_map_in dec i2]
    constructor
    · intro hq
      have hqm : e.1 ∈ T.flat.qs := List.mem_map_of_mem (f := fun e : List C × List Nat × List K => e.1) he
      unfold pick at hq ⊢
      simp only [List.map_map] at hq ⊢
      apply List.map_congr_left
      intro k hk
      have := List.map_inj_left.1 hq k hk
      simp only [Function.comp] at this ⊢
      have j1 := i1 k.1 (List.mem_map_of_mem hk)
      have j2 := i2 k.2 (List.mem_map_of_mem hk)
      rw [List.getD_eq_getElem _ _ j1, List.getD_eq_getElem _ _ j2] at this ⊢
      exact hinj e.1 hqm e.1 hqm _ (List.getElem_mem j1) _ (List.getElem_mem j2) this
    · intro hq; rw [hq]
  refine ⟨_, hd1, ?_, hal⟩
  unfold FlatFermT.trace
  rw [if_neg (by simpa using h.len), hd2, Option.bind_some, hnd]
  simp only [hps]
  by_cases hz : ax1.length + ax1.length = legs.length ∧ BondFusingInfo.combine (e0.1.map dec) p ≠ 0
  · rw [if_pos hz, if_pos hz]
  rw [if_neg hz, if_neg hz]
  have hany : ((FermT.tracePairs ax1 ax2).any fun q => decide (T.pattern.getD q.1 true = T.pattern.getD q.2 true)) = false := by
    rw [List.any_eq_false]
    intro q hq
    have := hpat q hq
    rw [decide_eq_true_eq]
    intro e
    have e' : p.getD q.1 true = p.getD q.2 true := e
    have t' : p.getD q.1 true = !p.getD q.2 true := this
    rw [e'] at t'
    cases hh : p.getD q.2 true <;> rw [hh] at t' <;> simp at t'
  rw [hany]
  have hrows : T.rows = l := rows_pack hl
  simp only [hrows, Bool.false_eq_true, if_false]
  have hsq : (bs.all fun e => decide (pick ((FermT.tracePairs ax1 ax2).map Prod.fst) e.2.1 = pick ((FermT.tracePairs ax1 ax2).map Prod.snd) e.2.1)) = true := by
    rw [List.all_eq_true]
    intro e he
    obtain ⟨h1, h2⟩ := List.mem_filter.1 he
    rw [decide_eq_true_eq] at h2 ⊢
    have l1 : ∀ i ∈ (FermT.tracePairs ax1 ax2).map Prod.fst, i < legs.length := fun i hi => h.lt i (hperm.mem_iff.1 (List.mem_append_left _ hi))
    have l2 : ∀ i ∈ (FermT.tracePairs ax1 ax2).map Prod.snd, i < legs.length := fun i hi => h.lt i (hperm.mem_iff.1 (List.mem_append_right _ hi))
    have c1 := (hon e h1).pick l1
    have c2 := (hon e h1).pick l2
    have hpk := tracePairs_pick [] legs h.bonds
    have hp : pick ((FermT.tracePairs ax1 ax2).map Prod.snd) legs = pick ((FermT.tracePairs ax1 ax2).map Prod.fst) legs := by
      have a := hpk.1
      have b := hpk.2
      unfold pick
      rw [List.map_map, List.map_map]
      exact b.trans a.symm
    rw [hp, pick_map_in dec (fun i hi => by rw [hlen e h1]; exact l2 i hi), ← h2, ← pick_map_in dec (fun i hi => by rw [hlen e h1]; exact l1 i hi)] at c2
    exact c1.shape_unique c2
  rw [if_neg (not_not.2 hsq)]
  by_cases hb : bs = []
  · rw [if_pos hb]
    have : groupRows (fun e : List C × List Nat × List K => pick out e.1) bs = [] := by rw [hb]; rfl
    rw [if_pos]
    rw [show (List.filter (fun e => decide (pick ((FermT.tracePairs ax1 ax2).map Prod.fst) e.1 = pick ((FermT.tracePairs ax1 ax2).map Prod.snd) e.1)) l) = bs from rfl,
      show SpT.outAxes legs.length (ax1 ++ ax2) = out from rfl, this]
    rfl
  · rw [if_neg hb, if_neg]
    · rfl
    · intro hg
      exact groupRows_ne _ hb (List.isEmpty_iff.1 hg)

/-- C77: the trace of a flat fermionic tensor is the trace of the tensor in block form: it succeeds, lives on the free legs, and its entries are the sums over
equal indices of the tensor transposed so that traced legs are neighbours, as in C73.  (At least one stored block must contribute.) -/
theorem C77_trace (par : Q → Nat) (dec : C → Q) (T : FlatFermT C K) (legs : List (BondInfo Q)) (ax1 ax2 : List Nat) (hT : T.flat.WellFormed)
    (h : Traceable (T.toSparse dec) legs ax1 ax2) (hinj : CodesDistinct dec T) (hb : HasDiagonalBlock T ax1 ax2) :
    ∃ R, T.trace par dec ax1 ax2 = some R ∧
      IsResult (Sum.map id (FlatFermT.toSparse dec) R) ((freeAxes legs.length (ax1 ++ ax2)).map fun i => T.pattern.getD i true)
        ((freeAxes legs.length (ax1 ++ ax2)).map fun i => legs.getD i []) (traceValue par (T.toSparse dec) legs ax1 ax2) ∧
      ∀ S, R = .inr S → S.flat.WellFormed := by
  obtain ⟨p, F⟩ := T
  obtain ⟨l, hl, rfl⟩ := Flat.exists_pack hT
  obtain ⟨d, hd, htr, hal⟩ := flat_trace_unfold par dec hl h hinj
  obtain ⟨R0, r1, r2⟩ := trace_spec par h
  have hnd := ndim_eq h.on h.ne
  have hps := tracePairs_length h.len
  unfold FermT.trace at r1
  rw [if_neg (by simpa using h.len), hd, Option.bind_some, hnd] at r1
  simp only [hps] at r1
  rw [htr]
  by_cases hz : ax1.length + ax1.length = legs.length ∧ d ≠ 0
  · rw [if_pos hz] at r1 ⊢
    refine ⟨_, rfl, ?_, fun S hS => by cases hS⟩
    rw [← Option.some.inj r1] at r2
    exact r2
  rw [if_neg hz] at r1 ⊢
  set out := SpT.outAxes legs.length (ax1 ++ ax2) with hout
  set ps := FermT.tracePairs ax1 ax2 with hpsdef
  set bs := l.filter fun e => decide (pick (ps.map Prod.fst) e.1 = pick (ps.map Prod.snd) e.1) with hbs
  have hbne : bs ≠ [] := by
    obtain ⟨q, hq, e⟩ := hb
    obtain ⟨b, hbl, rfl⟩ := List.mem_map.1 hq
    intro h0
    have : b ∈ bs := List.mem_filter.2 ⟨hbl, decide_eq_true ((tracePairs_pick_iff h.len b.1).2 e)⟩
    rw [h0] at this
    simp at this
  rw [if_neg hbne]
  have hol : ∀ i ∈ out, i < legs.length := fun i hi => by rw [hout, mem_outAxes] at hi; exact hi.1
  have hblocks : (FlatFermT.toSparse dec ⟨p, Flat.pack l⟩ : FermT Q K).blocks = l.map fun e => (e.1.map dec, Arr.ofList e.2.1 e.2.2) := Flat.toSparse_pack dec hl
  have hon : ∀ e ∈ l, IsCombination legs (e.1.map dec) e.2.1 := by
    intro e he
    have := h.on
    rw [hblocks] at this
    exact this _ (List.mem_map_of_mem (f := fun e : List C × List Nat × List K => (e.1.map dec, Arr.ofList e.2.1 e.2.2)) he)
  obtain ⟨q1, q2, q3, q4⟩ := parts_spec par dec ps hol bs (fun e he => hon e (List.mem_filter.1 he).1) (fun e he e' he' =>
    hinj e.1 (List.mem_map_of_mem (f := fun e : List C × List Nat × List K => e.1) (List.mem_filter.1 he).1) e'.1
      (List.mem_map_of_mem (f := fun e : List C × List Nat × List K => e.1) (List.mem_filter.1 he').1))
  obtain ⟨m, hm, r1⟩ := Option.map_eq_some_iff.1 r1
  have hent : ∀ x, entry (Flat.toSparse dec (Flat.pack (partsOf par dec ps out bs))) x = entry m x := by
    intro x
    rw [q4, (traceBlocks_entry par h.on hol hm x).2, hblocks, List.filter_map, List.map_map]
    have : l.filter ((fun b : List Q × Arr K => FermT.aligned (FlatFermT.toSparse dec ⟨p, Flat.pack l⟩ : FermT Q K).pattern ps b.1) ∘
        fun e => (e.1.map dec, Arr.ofList e.2.1 e.2.2)) = bs := by
      apply List.filter_congr
      intro e he
      exact hal e he
    rw [this]
    rfl
  change (if (out.map fun i => p.getD i true) ≠ [] then _ else _) = _ at r1
  by_cases ho : (out.map fun i => p.getD i true) ≠ []
  · rw [if_pos ho] at r1 ⊢
    refine ⟨_, rfl, ?_, ?_⟩
    · rw [← r1] at r2
      obtain ⟨s1, s2, s3, s4, s5⟩ := r2
      refine ⟨s1, ?_, ?_, ?_, ?_⟩
      · exact s2
      · rw [freeAxes_eq]
        exact q2
      · exact q3
      · intro f hf
        rw [← s5 f hf]
        exact hent f
    · intro S hS
      have := Sum.inr.inj hS
      rw [← this]
      exact Flat.pack_wellFormed q1
  · rw [if_neg ho] at r1 ⊢
    refine ⟨_, rfl, ?_, fun S hS => by cases hS⟩
    rw [← r1] at r2
    obtain ⟨s1, s2⟩ := r2
    refine ⟨s1, ?_⟩
    rw [← s2]
    have hoe : out = [] := by simpa using ho
    have e1 : (m.map fun b => b.2.get []).sum = entry m [] := (entry_noLegs (by
      have := (traceBlocks_entry par h.on hol hm []).1
      rw [hoe] at this
      exact this)).symm
    have e2 : ((partsOf par dec ps out bs).map fun e => e.2.2).flatten.sum = entry (Flat.toSparse dec (Flat.pack (partsOf par dec ps out bs))) [] := by
      rw [hoe] at q1 q2 ⊢
      rw [Flat.toSparse_pack dec q1] at q2 ⊢
      rw [entry_noLegs q2, List.map_map, List.sum_flatten, List.map_map]
      congr 1
      apply List.map_congr_left
      intro e he
      have c := (q2 _ (List.mem_map_of_mem (f := fun e : List C × List Nat × List K => (e.1.map dec, Arr.ofList e.2.1 e.2.2)) he)).lengths
      have c' : e.2.1 = [] := List.eq_nil_of_length_eq_zero c.2
      have k := q1 e he
      rw [c'] at k
      simp only [Function.comp, c', Arr.ofList]
      obtain ⟨v, hv⟩ := List.length_eq_one_iff.1 k
      rw [hv]
      simp [ravel]
    rw [e1, ← hent []]
    exact e2

/-- C77, violation: if no stored block contributes, the flat form raises (unless all legs are traced and the charge is not zero, when it returns zero). -/
theorem C77_no_diagonal_block (par : Q → Nat) (dec : C → Q) (T : FlatFermT C K) (legs : List (BondInfo Q)) (ax1 ax2 : List Nat) (hT : T.flat.WellFormed)
    (h : Traceable (T.toSparse dec) legs ax1 ax2) (hinj : CodesDistinct dec T) (hb : ¬ HasDiagonalBlock T ax1 ax2) :
    T.trace par dec ax1 ax2 = if ax1.length + ax1.length = legs.length ∧ (T.toSparse dec).dq ≠ some 0 then some (.inl 0) else none := by
  obtain ⟨p, F⟩ := T
  obtain ⟨l, hl, rfl⟩ := Flat.exists_pack hT
  obtain ⟨d, hd, htr, -⟩ := flat_trace_unfold par dec hl h hinj
  rw [htr, hd]
  simp only [ne_eq, Option.some.injEq]
  split_ifs with h1 h2 h3
  · rfl
  · rfl
  all_goals
    exfalso
    apply h2
    rw [List.filter_eq_nil_iff]
    intro e he
    rw [decide_eq_true_eq]
    intro hq
    exact hb ⟨e.1, List.mem_map_of_mem (f := fun e : List C × List Nat × List K => e.1) he, (tracePairs_pick_iff h.len e.1).1 hq⟩

/-! ### Concrete cases -/

/-- The tensor `trT` of C73 in flat form. -/
def trFlat : FlatFermT Int Int :=
  ⟨[true, true, false, false], ⟨[[0, 0, 0, 0], [0, 1, 0, 1], [1, 0, 1, 0], [1, 1, 1, 1], [0, 1, 1, 0]], List.replicate 5 [1, 1, 1, 1], [2, 3, 5, 7, 11],
    [0, 1, 2, 3, 4, 5]⟩⟩

theorem trFlat_traceable : Traceable (trFlat.toSparse id) [trBond, trBond, trBond, trBond] [0] [2] :=
  ⟨by decide +kernel, by decide +kernel, ⟨0, by unfold Conserves; decide +kernel⟩, rfl, rfl, by decide, by decide +kernel, rfl,
    by unfold trBond Dict.WF; decide +kernel, .cons rfl .nil⟩

example : trFlat.flat.WellFormed ∧ CodesDistinct id trFlat ∧ HasDiagonalBlock trFlat [0] [2] :=
  ⟨by decide +kernel, fun _ _ _ _ _ _ _ _ h => h, [0, 1, 0, 1], by decide, rfl⟩

/-- The values of the flat form: `2 + 5` on the even states, `3 - 7` on the odd ones. -/
example : ((trFlat.trace (fun q => q.toNat % 2) id [0] [2]).map fun R => match R with
      | .inl v => [v]
      | .inr S => S.flat.data) = some [7, -4] := by decide +kernel

/-- C77, violation, concretely: a tensor with the single block `(0, 1)`, `(1, 0)` on its pairs; the block form returns the zero tensor, the flat form raises. -/
theorem C77_no_diagonal_block_differs : ∃ (T : FlatFermT Int Int) (legs : List (BondInfo Int)), T.flat.WellFormed ∧
    Traceable (T.toSparse id) legs [0] [2] ∧ CodesDistinct id T ∧ T.trace (fun q => q.toNat % 2) id [0] [2] = none ∧
    ∃ p, (T.toSparse id).trace (fun q => q.toNat % 2) [0] [2] = some (.inr ⟨p, []⟩) :=
  ⟨⟨[true, true, false, false], ⟨[[0, 1, 1, 0]], [[1, 1, 1, 1]], [11], [0, 1]⟩⟩, [trBond, trBond, trBond, trBond], by decide +kernel,
    ⟨by decide +kernel, by decide +kernel, ⟨0, by unfold Conserves; decide +kernel⟩, rfl, rfl, by decide, by decide +kernel, rfl,
      by unfold trBond Dict.WF; decide +kernel, .cons rfl .nil⟩, fun _ _ _ _ _ _ _ _ h => h, rfl, _, rfl⟩

/-- C77: tracing two legs whose signs agree raises (when a leg is left). -/
theorem C77_sign_mismatch (par : Q → Nat) (dec : C → Q) (T : FlatFermT C K) (ax1 ax2 : List Nat) (p : Nat × Nat) (hp : p ∈ ax1.zip ax2)
    (hs : T.pattern.getD p.1 true = T.pattern.getD p.2 true) (hfree : 2 * ax1.length ≠ T.ndim) : T.trace par dec ax1 ax2 = none := by
  unfold FlatFermT.trace
  split_ifs with hl
  · rfl
  have hlen := tracePairs_length (not_not.1 hl)
  cases T.dq dec with
  | none => rfl
  | some d =>
    rw [Option.bind_some]
    simp only
    rw [if_neg (by omega), if_pos]
    rw [List.any_eq_true]
    refine ⟨(min p.1 p.2, max p.1 p.2), ?_, ?_⟩
    · unfold FermT.tracePairs
      exact List.mem_map.2 ⟨p, hp, rfl⟩
    · rw [decide_eq_true_eq]
      rcases le_total p.1 p.2 with h | h
      · rw [min_eq_left h, max_eq_right h]; exact hs
      · rw [min_eq_right h, max_eq_left h]; exact hs.symm

/-- C77: so do lists of axes of different lengths. -/
theorem C77_unequal_axes (par : Q → Nat) (dec : C → Q) (T : FlatFermT C K) (ax1 ax2 : List Nat) (h : ax1.length ≠ ax2.length) :
    T.trace par dec ax1 ax2 = none := by
  unfold FlatFermT.trace
  rw [if_pos h]

example : trFlat.trace (fun q => q.toNat % 2) (id : Int → Int) [1] [0] = none :=
  C77_sign_mismatch _ _ _ [1] [0] (1, 0) (by decide) rfl (by decide)

end Verif
