import Verif.Proof.Fuse
import Verif.Thm.Fusing

/-!
Property C15: fusing and unfusing legs.
-/

set_option linter.unusedSectionVars false

namespace Verif
open SpT
variable {Q K : Type} [DecidableEq Q] [AddCommGroup Q]

/-! ### The tables built by the library are good -/

theorem addWindow_wf (ref : Option (BondInfo Q)) (pattern : List Bool) (items : List (List Q × List Nat))
    (st : BondInfo Q × Dict Q (FuseTable Q))
    (h : Dict.WF st.1 ∧ ∀ q t, Dict.get? st.2 q = some t → Dict.WF t ∧ q ∈ Dict.keys st.1) :
    let r := items.foldl (BondFusingInfo.addWindow ref pattern) st
    Dict.WF r.1 ∧ ∀ q t, Dict.get? r.2 q = some t → Dict.WF t ∧ q ∈ Dict.keys r.1 := by
  induction items generalizing st with
  | nil => exact h
  | cons it t ih =>
    apply ih
    unfold BondFusingInfo.addWindow
    simp only
    split_ifs
    · refine ⟨h.1.set _ _, ?_⟩
      intro q t' ht
      simp only [Dict.get?_set] at ht
      split_ifs at ht with e
      · simp only [Option.some.injEq] at ht
        subst ht
        refine ⟨?_, ?_⟩
        · apply Dict.WF.set
          cases hg : Dict.get? st.2 (BondFusingInfo.combine it.1 pattern) with
          | none => exact Dict.WF.nil
          | some t0 => exact (h.2 _ t0 hg).1
        · unfold Dict.keys Counter.incr
          rw [Dict.mem_map_fst_set]; exact Or.inl e.symm
      · refine ⟨(h.2 q t' ht).1, ?_⟩
        unfold Dict.keys Counter.incr
        rw [Dict.mem_map_fst_set]; exact Or.inr (h.2 q t' ht).2
    · exact h

/-- C15: complete tables, built from bonds with positive multiplicities, are good. -/
theorem C15_good_tensorProduct (le : Q → Q → Bool) (infos : List (BondInfo Q)) (ref : Option (BondInfo Q))
    (pattern : Option (List Bool)) (fi : BondFusingInfo Q) (h : ∀ b ∈ infos, Dict.WF b)
    (hpos : ∀ b ∈ infos, ∀ e ∈ b, 0 < e.2)
    (hfi : BondFusingInfo.tensorProduct le infos ref pattern = some fi) : GoodTable fi := by
  have hpat := (tensorProduct_inv le infos ref pattern fi h hfi).1
  have hent := C08_entries le infos ref pattern fi h hfi
  have hwf : Dict.WF fi.quanta ∧ ∀ q t, Dict.get? fi.finfo q = some t → Dict.WF t ∧ q ∈ Dict.keys fi.quanta := by
    unfold BondFusingInfo.tensorProduct at hfi
    split_ifs at hfi
    simp only [Option.some.injEq] at hfi
    subst hfi
    exact addWindow_wf _ _ _ _ ⟨Dict.WF.nil, by simp⟩
  refine ⟨C08_tiles le infos ref pattern fi h hfi, ?_, ?_, ⟨hwf.1, fun q t ht => (hwf.2 q t ht).1⟩,
    fun q t ht => (hwf.2 q t ht).2⟩
  · intro q qs sh hs
    rw [hpat]
    exact ((hent q qs sh).1 hs).2.1
  · intro q qs sh hs
    have hc := ((hent q qs sh).1 hs).1
    clear hs hent hfi hwf hpat
    induction hc with
    | nil => simp
    | @cons b bs q' qs' s shs h1 h2 ih =>
      simp only [List.prod_cons]
      refine Nat.mul_pos (hpos b List.mem_cons_self _ (Dict.mem_of_get? h1)) (ih ?_ ?_)
      · intro b' hb'; exact h b' (List.mem_cons_of_mem _ hb')
      · intro b' hb'; exact hpos b' (List.mem_cons_of_mem _ hb')

theorem sumTable_wf (l : List (List Q × List Nat)) (n : Nat) (t : FuseTable Q) (n' : Nat) (t' : FuseTable Q)
    (ht : Dict.WF t) (h : BondFusingInfo.sumTable l n t = some (n', t')) : Dict.WF t' := by
  induction l generalizing n t with
  | nil =>
    simp only [BondFusingInfo.sumTable, Option.some.injEq, Prod.mk.injEq] at h
    rw [← h.2]; exact ht
  | cons it rest ih =>
    obtain ⟨qs, shs⟩ := it
    simp only [BondFusingInfo.sumTable] at h
    split at h
    · exact ih _ _ (ht.set _ _) h
    · split_ifs at h
      exact ih _ _ ht h

theorem sumTables_wf (leL : List Q → List Q → Bool) (c : Dict Q (List (List Q × List Nat)))
    (st st' : BondInfo Q × Dict Q (FuseTable Q))
    (h : Dict.WF st.1 ∧ ∀ q t, Dict.get? st.2 q = some t → Dict.WF t ∧ q ∈ Dict.keys st.1)
    (hs : BondFusingInfo.sumTables leL c st = some st') :
    Dict.WF st'.1 ∧ ∀ q t, Dict.get? st'.2 q = some t → Dict.WF t ∧ q ∈ Dict.keys st'.1 := by
  induction c generalizing st with
  | nil =>
    simp only [BondFusingInfo.sumTables, Option.some.injEq] at hs
    rw [← hs]; exact h
  | cons e rest ih =>
    obtain ⟨q0, v⟩ := e
    simp only [BondFusingInfo.sumTables] at hs
    split at hs
    · simp at hs
    · next n t hst =>
      refine ih _ ⟨h.1.set _ _, ?_⟩ hs
      intro q t' ht'
      simp only [Dict.get?_set] at ht'
      split_ifs at ht' with e
      · simp only [Option.some.injEq] at ht'
        subst ht'
        refine ⟨sumTable_wf _ _ _ _ _ Dict.WF.nil hst, ?_⟩
        unfold Dict.keys
        rw [Dict.mem_map_fst_set]; exact Or.inl e.symm
      · refine ⟨(h.2 q t' ht').1, ?_⟩
        unfold Dict.keys
        rw [Dict.mem_map_fst_set]; exact Or.inr (h.2 q t' ht').2

/-- C15: minimal tables, built from items with positive shapes, are good. -/
theorem C15_good_kronSum (leL : List Q → List Q → Bool) (items : List (List Q × List Nat))
    (ref : Option (BondInfo Q)) (pattern : List Bool) (fi : BondFusingInfo Q)
    (hpos : ∀ it ∈ items, 0 < it.2.prod)
    (hfi : BondFusingInfo.kronSum leL items ref pattern = some fi) : GoodTable fi := by
  have hent := C09_entries leL items ref pattern fi hfi
  have hx : fi.pattern = pattern ∧
      (Dict.WF fi.quanta ∧ ∀ q t, Dict.get? fi.finfo q = some t → Dict.WF t ∧ q ∈ Dict.keys fi.quanta) := by
    unfold BondFusingInfo.kronSum at hfi
    split at hfi
    · simp at hfi
    · next st hst =>
      simp only [Option.some.injEq] at hfi
      subst hfi
      exact ⟨rfl, sumTables_wf leL _ _ _ ⟨Dict.WF.nil, by simp⟩ hst⟩
  refine ⟨C09_tiles leL items ref pattern fi hfi, ?_, ?_, ⟨hx.2.1, fun q t ht => (hx.2.2 q t ht).1⟩,
    fun q t ht => (hx.2.2 q t ht).2⟩
  · intro q qs sh hs
    rw [hx.1]
    exact ((hent q qs sh).1 hs).2.1
  · intro q qs sh hs
    exact hpos _ ((hent q qs sh).1 hs).1

/-! ### Fusing -/

theorem set_append_cons {α : Type} (l r : List α) (a v : α) (m : Nat) (h : l.length = m) :
    (l ++ a :: r).set m v = l ++ v :: r := by
  subst h
  rw [List.set_append_right _ _ (Nat.le_refl _)]
  simp

theorem getD_append_cons {α : Type} (l r : List α) (a d : α) (m : Nat) (h : l.length = m) :
    (l ++ a :: r).getD m d = a := by
  subst h
  simp [List.getD_eq_getElem?_getD]

/-- The array stored for a block. -/
def fuseArr (L idxs R : List Nat) (b : List Q × Arr K) : Arr K :=
  (b.2.transpose (L ++ idxs ++ R)).reshape (pick L b.2.shape ++ (pick idxs b.2.shape).prod :: pick R b.2.shape)

theorem fuseArr_get {legs : List (BondInfo Q)} {m : Nat} {idxs : List Nat}
    (b : List Q × Arr K) (il ir : List Nat) (j : Nat)
    (hl : inBox (pick (List.range m) b.2.shape) il = true)
    (hj : j < (pick idxs b.2.shape).prod)
    (hr : inBox (pick (restAxes legs.length idxs m) b.2.shape) ir = true) :
    (fuseArr (List.range m) idxs (restAxes legs.length idxs m) b).get (il ++ j :: ir) =
      b.2.get (unpick (List.range m ++ idxs ++ restAxes legs.length idxs m)
        (il ++ unravel (pick idxs b.2.shape) j ++ ir)) := by
  unfold fuseArr Arr.reshape Arr.transpose
  simp only [pick_append]
  congr 2
  have := reshape_group hl hj hr
  simpa using this

section fuse
variable [AddCommMonoid K] {legs : List (BondInfo Q)} {T : SpT Q K} {fi : BondFusingInfo Q}
  {idxs : List Nat} {m : Nat}

theorem fusePiece_eq (hax : FuseAxes legs.length idxs m) (b : List Q × Arr K)
    (hb : IsCombination legs b.1 b.2.shape) (pattern : List Bool) :
    fusePiece fi pattern idxs (idxs.filter (· != m)) m b =
      match Dict.get? fi.quanta (signedSum pattern (pick idxs b.1)) with
      | none => some none
      | some x =>
        match (Dict.get? fi.finfo (signedSum pattern (pick idxs b.1))).bind fun t =>
          Dict.get? t (pick idxs b.1) with
        | none => none
        | some e => some (some ⟨pick (List.range m) b.1 ++ signedSum pattern (pick idxs b.1) ::
            pick (restAxes legs.length idxs m) b.1,
            pick (List.range m) b.2.shape ++ x :: pick (restAxes legs.length idxs m) b.2.shape, e.1,
            (pick idxs b.2.shape).prod,
            fuseArr (List.range m) idxs (restAxes legs.length idxs m) b⟩) := by
  have hl := hb.lengths
  unfold fusePiece fuseArr
  simp only [BondFusingInfo.combine_eq]
  have h1 : FuseAxes b.1.length idxs m := by rw [hl.1]; exact hax
  have h2 : FuseAxes b.2.shape.length idxs m := by rw [hl.2]; exact hax
  cases hq : Dict.get? fi.quanta (signedSum pattern (pick idxs b.1)) with
  | none => rfl
  | some x =>
    simp only
    cases ht : (Dict.get? fi.finfo (signedSum pattern (pick idxs b.1))).bind fun t =>
          Dict.get? t (pick idxs b.1) with
    | none => rfl
    | some e =>
      simp only
      rw [newLegs_eq b.1 h1, newLegs_eq b.2.shape h2, newPerm_eq h2, hl.1, hl.2,
        set_append_cons _ _ _ _ _ (by simp)]

/-- What the block `b` contributes to the fused tensor at `y`. -/
def contrib (fi : BondFusingInfo Q) (pattern : List Bool) (idxs : List Nat) (m : Nat) (b : List Q × Arr K)
    (y : List (Q × Nat)) : K :=
  match (fusePiece fi pattern idxs (idxs.filter (· != m)) m b).getD none with
  | none => 0
  | some pc => if pc.key = y.map Prod.fst ∧ inBox pc.full (y.map Prod.snd) = true then
      pieceAt m (pc.k, pc.nk, pc.arr) ((y.map Prod.snd).getD m 0) (y.map Prod.snd) else 0

theorem sum_filterMap' {α β : Type} (f : α → Option β) (l : List α) (g : β → K) :
    ((l.filterMap f).map g).sum = (l.map fun a => match f a with | none => 0 | some b => g b).sum := by
  induction l with
  | nil => simp
  | cons a t ih =>
    simp only [List.filterMap_cons, List.map_cons, List.sum_cons, ← ih]
    cases f a <;> simp

/-- Two pieces with the same key do not overlap. -/
theorem pieces_disjoint (hfi : GoodTable fi) (hax : FuseAxes legs.length idxs m)
    (hT : Conforms legs T) (hu : UniqueLabels T)
    (hcov : ∀ b ∈ T, signedSum fi.pattern (pick idxs b.1) ∈ Dict.keys fi.quanta →
      fi.shapeOf (signedSum fi.pattern (pick idxs b.1)) (pick idxs b.1) = some (pick idxs b.2.shape)) :
    ((T.filterMap fun b => (fusePiece fi fi.pattern idxs (idxs.filter (· != m)) m b).getD none)).Pairwise
      fun p p' => p.key = p'.key → p.k + p.nk ≤ p'.k ∨ p'.k + p'.nk ≤ p.k := by
  rw [List.pairwise_filterMap]
  have hp : T.Pairwise fun a b => a.1 ≠ b.1 := by
    unfold UniqueLabels at hu
    rw [List.nodup_iff_pairwise_ne, List.pairwise_map] at hu
    exact hu
  refine (List.Pairwise.and_mem.1 hp).imp ?_
  rintro a b ⟨ha, hb, hne⟩ pa hpa pb hpb hkey
  rw [fusePiece_eq hax a (hT a ha)] at hpa
  rw [fusePiece_eq hax b (hT b hb)] at hpb
  have la := (hT a ha).lengths
  have lb := (hT b hb).lengths
  cases hqa : Dict.get? fi.quanta (signedSum fi.pattern (pick idxs a.1)) with
  | none => simp [hqa] at hpa
  | some xa =>
  cases hqb : Dict.get? fi.quanta (signedSum fi.pattern (pick idxs b.1)) with
  | none => simp [hqb] at hpb
  | some xb =>
  simp only [hqa] at hpa
  simp only [hqb] at hpb
  cases hta : (Dict.get? fi.finfo (signedSum fi.pattern (pick idxs a.1))).bind fun t =>
          Dict.get? t (pick idxs a.1) with
  | none => simp [hta] at hpa
  | some ea =>
  cases htb : (Dict.get? fi.finfo (signedSum fi.pattern (pick idxs b.1))).bind fun t =>
          Dict.get? t (pick idxs b.1) with
  | none => simp [htb] at hpb
  | some eb =>
  simp only [hta, Option.getD_some, Option.some.injEq] at hpa
  simp only [htb, Option.getD_some, Option.some.injEq] at hpb
  subst hpa hpb
  simp only at hkey ⊢
  obtain ⟨hk1, hk2⟩ := List.append_inj hkey (by simp)
  simp only [List.cons.injEq] at hk2
  obtain ⟨hq, hk2⟩ := hk2
  -- same fused label, different combination
  have hs : pick idxs a.1 ≠ pick idxs b.1 := by
    intro hs
    apply hne
    have hperm := newPerm_perm hax
    rw [← unpick_pick hperm a.1 la.1, ← unpick_pick hperm b.1 lb.1]
    simp only [pick_append, hk1, hs, hk2]
  have ca := hcov a ha (Dict.mem_keys_iff.2 ⟨_, hqa⟩)
  have cb := hcov b hb (Dict.mem_keys_iff.2 ⟨_, hqb⟩)
  have wa : fi.window (signedSum fi.pattern (pick idxs a.1)) (pick idxs a.1) =
      some (ea.1, (pick idxs a.2.shape).prod) := by
    unfold BondFusingInfo.shapeOf at ca
    unfold BondFusingInfo.window
    rw [hta] at ca ⊢
    simp only [Option.map_some, Option.some.injEq] at ca ⊢
    rw [ca]
  have wb : fi.window (signedSum fi.pattern (pick idxs a.1)) (pick idxs b.1) =
      some (eb.1, (pick idxs b.2.shape).prod) := by
    unfold BondFusingInfo.shapeOf at cb
    unfold BondFusingInfo.window
    rw [hq, htb]
    rw [htb] at cb
    simp only [Option.map_some, Option.some.injEq] at cb ⊢
    rw [cb]
  have pa := hfi.pos _ _ _ ca
  have pb := hfi.pos _ _ _ cb
  obtain ⟨t1, t2⟩ := hfi.tiles (signedSum fi.pattern (pick idxs a.1))
  by_contra hc
  simp only [not_or, not_le] at hc
  have la' := t1 _ _ _ wa
  have lb' := t1 _ _ _ wb
  -- the larger start lies in both windows
  have hpos : max ea.1 eb.1 < Counter.count fi.quanta (signedSum fi.pattern (pick idxs a.1)) := by omega
  obtain ⟨c, _, huniq⟩ := t2 _ hpos
  have e1 := huniq _ ⟨_, _, wa, by omega, by omega⟩
  have e2 := huniq _ ⟨_, _, wb, by omega, by omega⟩
  exact hs (e1.trans e2.symm)

/-- The fused tensor, written as a map over the collected pieces, at every index. -/
theorem fuse_sum (hfi : GoodTable fi) (hax : FuseAxes legs.length idxs m)
    (hT : Conforms legs T) (hu : UniqueLabels T)
    (hcov : ∀ b ∈ T, signedSum fi.pattern (pick idxs b.1) ∈ Dict.keys fi.quanta →
      fi.shapeOf (signedSum fi.pattern (pick idxs b.1)) (pick idxs b.1) = some (pick idxs b.2.shape))
    (R : SpT Q K) (hR : R = (collectPieces (T.filterMap fun b =>
      (fusePiece fi fi.pattern idxs (idxs.filter (· != m)) m b).getD none)).map fun x =>
        (x.1, Arr.concat m (fillGaps m x.2.1 (sortBy pieceLe x.2.2) 0))) :
    Conforms (pick (List.range m) legs ++ fi.quanta :: pick (restAxes legs.length idxs m) legs) R ∧
    UniqueLabels R ∧
    ∀ y : List (Q × Nat), entry R y = (T.map fun b => contrib fi fi.pattern idxs m b y).sum := by
  set ps := T.filterMap fun b => (fusePiece fi fi.pattern idxs (idxs.filter (· != m)) m b).getD none with hps
  obtain ⟨hwf, hget⟩ := collectPieces_spec ps
  have hdis := pieces_disjoint (T := T) hfi hax hT hu hcov
  rw [← hps] at hdis
  have hm := hax.lt m hax.mem
  -- facts about one piece
  have hpc : ∀ p ∈ ps, IsCombination (pick (List.range m) legs ++ fi.quanta ::
      pick (restAxes legs.length idxs m) legs) p.key p.full ∧
      m < p.full.length ∧ p.k + p.nk ≤ p.full.getD m 0 ∧ p.arr.shape.getD m 0 = p.nk ∧
      (∀ v, p.arr.shape.set m v = p.full.set m v) := by
    intro p hp
    rw [hps, List.mem_filterMap] at hp
    obtain ⟨b, hb, hp⟩ := hp
    rw [fusePiece_eq hax b (hT b hb)] at hp
    cases hq : Dict.get? fi.quanta (signedSum fi.pattern (pick idxs b.1)) with
    | none => simp [hq] at hp
    | some x =>
    simp only [hq] at hp
    cases ht : (Dict.get? fi.finfo (signedSum fi.pattern (pick idxs b.1))).bind fun t =>
            Dict.get? t (pick idxs b.1) with
    | none => simp [ht] at hp
    | some e =>
    simp only [ht, Option.getD_some, Option.some.injEq] at hp
    subst hp
    simp only
    have hc := hcov b hb (Dict.mem_keys_iff.2 ⟨_, hq⟩)
    refine ⟨?_, ?_, ?_, ?_, ?_⟩
    · apply IsCombination.append
      · exact (hT b hb).pick (fun i hi => by simp only [List.mem_range] at hi; omega)
      · exact .cons hq ((hT b hb).pick (fun i hi => (mem_restAxes.1 hi).1))
    · simp
    · rw [getD_append_cons _ _ _ _ _ (by simp)]
      have hw : fi.window (signedSum fi.pattern (pick idxs b.1)) (pick idxs b.1) =
          some (e.1, (pick idxs b.2.shape).prod) := by
        unfold BondFusingInfo.shapeOf at hc
        unfold BondFusingInfo.window
        rw [ht] at hc ⊢
        simp only [Option.map_some, Option.some.injEq] at hc ⊢
        rw [hc]
      have := (hfi.tiles _).1 _ _ _ hw
      unfold Counter.count at this
      rw [hq] at this
      exact this
    · unfold fuseArr Arr.reshape
      simp only
      rw [getD_append_cons _ _ _ _ _ (by simp)]
    · intro v
      unfold fuseArr Arr.reshape
      simp only
      rw [set_append_cons _ _ _ _ _ (by simp), set_append_cons _ _ _ _ _ (by simp)]
  -- facts about one group
  have hgrp : ∀ key full l, Dict.get? (collectPieces ps) key = some (full, l) →
      l = (ps.filter fun p => p.key = key).map (fun p => (p.k, p.nk, p.arr)) ∧ l ≠ [] ∧
      (∀ p ∈ ps, p.key = key → p.full = full) ∧
      IsCombination (pick (List.range m) legs ++ fi.quanta :: pick (restAxes legs.length idxs m) legs) key full ∧
      m < full.length ∧
      (sortBy pieceLe l).Pairwise (fun a b => a.1 + a.2.1 ≤ b.1) ∧
      (∀ g ∈ l, g.1 + g.2.1 ≤ full.getD m 0) ∧ (∀ g ∈ l, g.2.2.shape.getD m 0 = g.2.1) ∧
      (∀ g ∈ l, ∀ v, g.2.2.shape.set m v = full.set m v) := by
    intro key full l h
    rw [hget, Option.map_eq_some_iff] at h
    obtain ⟨p0, hp0, he⟩ := h
    simp only [Prod.mk.injEq] at he
    obtain ⟨rfl, rfl⟩ := he
    have hp0m : p0 ∈ ps.filter fun p => p.key = key := List.mem_of_mem_head? hp0
    rw [List.mem_filter] at hp0m
    have hk0 : p0.key = key := by simpa using hp0m.2
    have hfull : ∀ p ∈ ps, p.key = key → p.full = p0.full := by
      intro p hp hk
      have h1 := (hpc p hp).1
      have h2 := (hpc p0 hp0m.1).1
      rw [hk] at h1
      rw [hk0] at h2
      exact h1.shape_unique h2
    have hsub : ((ps.filter fun p => p.key = key)).Pairwise
        fun p p' => p.k + p.nk ≤ p'.k ∨ p'.k + p'.nk ≤ p.k := by
      have h1 := hdis.sublist (List.filter_sublist (p := fun p => decide (p.key = key)))
      refine (List.Pairwise.and_mem.1 h1).imp ?_
      rintro a b ⟨ha, hb, h⟩
      rw [List.mem_filter] at ha hb
      apply h
      have e1 : a.key = key := by simpa using ha.2
      have e2 : b.key = key := by simpa using hb.2
      rw [e1, e2]
    refine ⟨rfl, ?_, hfull, ?_, (hpc p0 hp0m.1).2.1, ?_, ?_, ?_, ?_⟩
    · intro h0
      rw [List.map_eq_nil_iff] at h0
      rw [h0] at hp0
      simp at hp0
    · rw [← hk0]; exact (hpc p0 hp0m.1).1
    · have hsort := sortBy_sorted (pieceLe (K := K)) (by
          intro a b; unfold pieceLe
          simp only [Bool.or_eq_true, decide_eq_true_eq, Bool.and_eq_true, beq_iff_eq]; omega) (by
          intro a b c; unfold pieceLe
          simp only [Bool.or_eq_true, decide_eq_true_eq, Bool.and_eq_true, beq_iff_eq]; omega)
          ((ps.filter fun p => p.key = key).map (fun p => (p.k, p.nk, p.arr)))
      have hd : ((ps.filter fun p => p.key = key).map (fun p => (p.k, p.nk, p.arr))).Pairwise
          fun a b => a.1 + a.2.1 ≤ b.1 ∨ b.1 + b.2.1 ≤ a.1 := by
        rw [List.pairwise_map]; exact hsub
      have hd' : (sortBy pieceLe ((ps.filter fun p => p.key = key).map (fun p => (p.k, p.nk, p.arr)))).Pairwise
          fun a b => a.1 + a.2.1 ≤ b.1 ∨ b.1 + b.2.1 ≤ a.1 :=
        ((sortBy_perm pieceLe _).pairwise_iff (fun {a b} h => by omega)).2 hd
      refine (hsort.and hd').imp ?_
      rintro a b ⟨h1, h2⟩
      unfold pieceLe at h1
      simp only [Bool.or_eq_true, decide_eq_true_eq, Bool.and_eq_true, beq_iff_eq] at h1
      omega
    · intro g hg
      obtain ⟨p, hp, rfl⟩ := List.mem_map.1 hg
      rw [List.mem_filter] at hp
      rw [← hfull p hp.1 (by simpa using hp.2)]
      exact (hpc p hp.1).2.2.1
    · intro g hg
      obtain ⟨p, hp, rfl⟩ := List.mem_map.1 hg
      rw [List.mem_filter] at hp
      exact (hpc p hp.1).2.2.2.1
    · intro g hg v
      obtain ⟨p, hp, rfl⟩ := List.mem_map.1 hg
      rw [List.mem_filter] at hp
      rw [← hfull p hp.1 (by simpa using hp.2)]
      exact (hpc p hp.1).2.2.2.2 v
  have hshape : ∀ key full l, Dict.get? (collectPieces ps) key = some (full, l) →
      (Arr.concat m (fillGaps m full (sortBy pieceLe l) 0)).shape = full := by
    intro key full l h
    obtain ⟨h1, h2, h3, h4, h5, h6, h7, h8, h9⟩ := hgrp key full l h
    apply concat_shape m full h5 _ _ h6
    · intro g hg; exact h7 g ((mem_sortBy _ _ _).1 hg)
    · intro g hg; exact h8 g ((mem_sortBy _ _ _).1 hg)
    · intro g hg; exact h9 g ((mem_sortBy _ _ _).1 hg)
    · intro h0
      apply h2
      have := (sortBy_perm pieceLe l).length_eq
      rw [h0] at this
      exact List.length_eq_zero_iff.1 this.symm
  have hRu : UniqueLabels R := by
    rw [hR]
    unfold UniqueLabels
    rw [List.map_map]
    exact hwf
  refine ⟨?_, hRu, ?_⟩
  · intro r hr
    rw [hR] at hr
    obtain ⟨⟨key, full, l⟩, hm', rfl⟩ := List.mem_map.1 hr
    have hg := Dict.get?_of_mem hwf hm'
    rw [hshape key full l hg]
    exact (hgrp key full l hg).2.2.2.1
  · intro y
    have hrhs : (T.map fun b => contrib fi fi.pattern idxs m b y).sum =
        (ps.map fun pc => if pc.key = y.map Prod.fst ∧ inBox pc.full (y.map Prod.snd) = true then
          pieceAt m (pc.k, pc.nk, pc.arr) ((y.map Prod.snd).getD m 0) (y.map Prod.snd) else 0).sum := by
      rw [hps, sum_filterMap']
      apply sum_map_congr'
      intro b _
      unfold contrib
      cases (fusePiece fi fi.pattern idxs (idxs.filter (· != m)) m b).getD none <;> rfl
    rw [hrhs]
    cases hg : Dict.get? (collectPieces ps) (y.map Prod.fst) with
    | none =>
      rw [entry_of_not_mem, sum_map_zero']
      · intro pc hpcm
        rw [if_neg]
        rintro ⟨h1, _⟩
        rw [hget] at hg
        simp only [Option.map_eq_none_iff, List.head?_eq_none_iff, List.filter_eq_nil_iff] at hg
        exact hg pc hpcm (by simpa using h1)
      · rw [hR, List.map_map]
        exact (Dict.get?_eq_none_iff _ _).1 hg
    | some v =>
      obtain ⟨full, l⟩ := v
      obtain ⟨h1, h2, h3, h4, h5, h6, h7, h8, h9⟩ := hgrp _ full l hg
      have hmemR : (y.map Prod.fst, Arr.concat m (fillGaps m full (sortBy pieceLe l) 0)) ∈ R := by
        rw [hR]
        exact List.mem_map.2 ⟨_, Dict.mem_of_get? hg, rfl⟩
      rw [entry_of_mem hRu hmemR rfl]
      unfold blockEntry
      simp only [true_and]
      rw [hshape _ full l hg]
      have hfilt : (ps.map fun pc => if pc.key = y.map Prod.fst ∧ inBox pc.full (y.map Prod.snd) = true then
          pieceAt m (pc.k, pc.nk, pc.arr) ((y.map Prod.snd).getD m 0) (y.map Prod.snd) else 0).sum =
          ((ps.filter fun p => p.key = y.map Prod.fst).map fun pc =>
            if inBox full (y.map Prod.snd) = true then
            pieceAt m (pc.k, pc.nk, pc.arr) ((y.map Prod.snd).getD m 0) (y.map Prod.snd) else 0).sum := by
        rw [sum_filter']
        apply sum_map_congr'
        intro pc hpcm
        by_cases hk : pc.key = y.map Prod.fst
        · simp [hk, h3 pc hpcm hk]
        · simp [hk]
      rw [hfilt]
      split_ifs with hin
      · have hlen := inBox_length hin
        have hlt := (inBox_iff.1 hin).2 m h5
        rw [show (Arr.concat m (fillGaps m full (sortBy pieceLe l) 0)).get =
          Arr.concatGet m (fillGaps m full (sortBy pieceLe l) 0) from rfl]
        rw [concatGet_fillGaps m full h5 _ 0 _ (by omega) (by omega) (fun _ _ => Nat.zero_le _) h6
          (fun g hg => h8 g ((mem_sortBy _ _ _).1 hg))]
        rw [((sortBy_perm pieceLe l).map _).sum_eq, h1, List.map_map]
        simp only [Nat.zero_add]
        rfl
      · rw [sum_map_zero']
        intro _ _; rfl

end fuse

/-- The axes given to `fuse`: distinct legs, the smallest being `m`. -/
theorem min?_eq_of {idxs : List Nat} {m : Nat} (h1 : m ∈ idxs) (h2 : ∀ i ∈ idxs, m ≤ i) :
    idxs.min? = some m := List.min?_eq_some_iff.2 ⟨h1, h2⟩

section thms
variable [AddCommMonoid K]

/-- Every block with a fused label in the table is listed in the table with its shape. -/
def Covers (fi : BondFusingInfo Q) (idxs : List Nat) (T : SpT Q K) : Prop :=
  ∀ b ∈ T, signedSum fi.pattern (idxs.map fun i => b.1.getD i 0) ∈ Dict.keys fi.quanta →
    fi.shapeOf (signedSum fi.pattern (idxs.map fun i => b.1.getD i 0)) (idxs.map fun i => b.1.getD i 0) =
      some (idxs.map fun i => b.2.shape.getD i 0)

/-- C15: fusing the legs `idxs` (any distinct legs, in any order) with a good table that covers the tensor succeeds;
the result lives on the legs with the fused bond at position `m = min idxs`; the entry with basis vectors
`x` moves to the position given by the table: window start plus row-major position inside the window.
Positions outside the fused dimension hold nothing. -/
theorem C15_fuse (legs : List (BondInfo Q)) (T : SpT Q K) (fi : BondFusingInfo Q) (idxs : List Nat) (m : Nat)
    (hfi : GoodTable fi) (hT : Conforms legs T) (hu : UniqueLabels T)
    (hm : m ∈ idxs) (hmin : ∀ i ∈ idxs, m ≤ i) (hlt : ∀ i ∈ idxs, i < legs.length) (hnd : idxs.Nodup)
    (hcov : Covers fi idxs T) :
    ∃ R, SpT.fuse T idxs fi none = some R ∧ UniqueLabels R ∧
      Conforms (fusedIndex (α := BondInfo Q) idxs m legs fi.quanta) R ∧
      (∀ (x : List (Q × Nat)) (q : Q) (k : Nat) (sh : List Nat), x.length = legs.length →
        fi.window q (idxs.map fun i => (x.getD i 0).1) = some (k, sh.prod) →
        fi.shapeOf q (idxs.map fun i => (x.getD i 0).1) = some sh →
        inBox sh (idxs.map fun i => (x.getD i 0).2) = true →
        entry R (fusedIndex idxs m x (q, k + ravel sh (idxs.map fun i => (x.getD i 0).2))) = entry T x) ∧
      (∀ (x : List (Q × Nat)) (q : Q) (p : Nat), x.length = legs.length → Counter.count fi.quanta q ≤ p →
        entry R (fusedIndex idxs m x (q, p)) = 0) := by
  have hax : FuseAxes legs.length idxs m := ⟨hm, hmin, hlt, hnd⟩
  have hml := hlt m hm
  have hcov' : ∀ b ∈ T, signedSum fi.pattern (pick idxs b.1) ∈ Dict.keys fi.quanta →
      fi.shapeOf (signedSum fi.pattern (pick idxs b.1)) (pick idxs b.1) = some (pick idxs b.2.shape) := hcov
  have hsome : (T.mapM (fusePiece fi fi.pattern idxs (idxs.filter (· != m)) m)).isSome := by
    apply mapM_isSome
    intro b hb
    rw [fusePiece_eq hax b (hT b hb)]
    cases hq : Dict.get? fi.quanta (signedSum fi.pattern (pick idxs b.1)) with
    | none => rfl
    | some x =>
      simp only
      have hc := hcov' b hb (Dict.mem_keys_iff.2 ⟨_, hq⟩)
      unfold BondFusingInfo.shapeOf at hc
      rw [Option.map_eq_some_iff] at hc
      obtain ⟨e, he, _⟩ := hc
      rw [he]; rfl
  obtain ⟨ps, hps⟩ := Option.isSome_iff_exists.1 hsome
  obtain ⟨_, hpe⟩ := mapM_some_eq _ _ _ hps
  have hfuse : SpT.fuse T idxs fi none = some ((collectPieces (T.filterMap fun b =>
      (fusePiece fi fi.pattern idxs (idxs.filter (· != m)) m b).getD none)).map fun x =>
        (x.1, Arr.concat m (fillGaps m x.2.1 (sortBy pieceLe x.2.2) 0))) := by
    unfold SpT.fuse
    rw [min?_eq_of hm hmin]
    simp only [Option.getD_none]
    rw [hps]
    simp only [Option.some.injEq]
    rw [hpe, List.filterMap_map]
    rfl
  obtain ⟨hc, hru, hent⟩ := fuse_sum (T := T) hfi hax hT hu hcov' _ rfl
  have hfl : ∀ {α : Type} [Zero α] (x : List α) (v : α), x.length = legs.length →
      fusedIndex idxs m x v = pick (List.range m) x ++ v :: pick (restAxes legs.length idxs m) x := by
    intro α _ x v hx
    unfold fusedIndex
    rw [pick_range_take m x (by omega), hx]
    rfl
  refine ⟨_, hfuse, hru, ?_, ?_, ?_⟩
  · rw [hfl legs _ rfl]; exact hc
  · intro x q k sh hx hw hsh hin
    rw [hent, hfl x _ hx]
    unfold entry
    apply sum_map_congr'
    intro b hb
    have hl := (hT b hb).lengths
    set sqs := pick idxs (x.map Prod.fst) with hsqs
    have es : (idxs.map fun i => (x.getD i 0).1) = sqs := by
      rw [hsqs, ← map_pick Prod.fst rfl]
      simp [pick]
    set v := pick idxs (x.map Prod.snd) with hv
    have ev : (idxs.map fun i => (x.getD i 0).2) = v := by
      rw [hv, ← map_pick Prod.snd rfl]
      simp [pick]
    rw [es] at hw hsh
    rw [ev] at hin ⊢
    have hrl := ravel_lt hin
    have hq := hfi.sound _ _ _ hsh
    have hperm := newPerm_perm hax
    have hpn := perm_range_length hperm
    -- the label and box conditions for `x` itself
    have hcond1 : b.1 = x.map Prod.fst ↔ pick (List.range m) b.1 = pick (List.range m) (x.map Prod.fst) ∧
        pick idxs b.1 = sqs ∧
        pick (restAxes legs.length idxs m) b.1 = pick (restAxes legs.length idxs m) (x.map Prod.fst) := by
      constructor
      · intro h; rw [h]; exact ⟨rfl, rfl, rfl⟩
      · rintro ⟨h1, h2, h3⟩
        rw [← unpick_pick hperm b.1 hl.1, ← unpick_pick hperm (x.map Prod.fst) (by simp [hx])]
        simp only [pick_append, h1, h2, h3, hsqs]
    have hcond2 : inBox b.2.shape (x.map Prod.snd) = true ↔
        inBox (pick (List.range m) b.2.shape) (pick (List.range m) (x.map Prod.snd)) = true ∧
        inBox (pick idxs b.2.shape) v = true ∧
        inBox (pick (restAxes legs.length idxs m) b.2.shape)
          (pick (restAxes legs.length idxs m) (x.map Prod.snd)) = true := by
      have e := inBox_unpick hperm b.2.shape (pick (List.range m ++ idxs ++ restAxes legs.length idxs m)
        (x.map Prod.snd)) hl.2 (by rw [pick_length, hpn])
      rw [unpick_pick hperm _ (by simp [hx])] at e
      rw [e]
      simp only [pick_append]
      rw [inBox_append (by simp), inBox_append (by simp)]
      simp [and_assoc, hv]
    have hyf : List.map Prod.fst (pick (List.range m) x ++ (q, k + ravel sh v) ::
        pick (restAxes legs.length idxs m) x) = pick (List.range m) (x.map Prod.fst) ++ q ::
        pick (restAxes legs.length idxs m) (x.map Prod.fst) := by
      rw [List.map_append, List.map_cons, map_pick Prod.fst rfl, map_pick Prod.fst rfl]
    have hys : List.map Prod.snd (pick (List.range m) x ++ (q, k + ravel sh v) ::
        pick (restAxes legs.length idxs m) x) = pick (List.range m) (x.map Prod.snd) ++ (k + ravel sh v) ::
        pick (restAxes legs.length idxs m) (x.map Prod.snd) := by
      rw [List.map_append, List.map_cons, map_pick Prod.snd rfl, map_pick Prod.snd rfl]
    unfold contrib
    rw [fusePiece_eq hax b (hT b hb), hyf, hys]
    by_cases hsb : pick idxs b.1 = sqs
    · -- the block with these labels on the fused legs
      rw [hsb, hq]
      have hkq : q ∈ Dict.keys fi.quanta := by
        unfold BondFusingInfo.window at hw
        rw [Option.map_eq_some_iff] at hw
        obtain ⟨e, he, _⟩ := hw
        rw [Option.bind_eq_some_iff] at he
        obtain ⟨t, ht, _⟩ := he
        exact hfi.listed q t ht
      obtain ⟨d, hd⟩ := Dict.mem_keys_iff.1 hkq
      have hshb : pick idxs b.2.shape = sh := by
        have := hcov' b hb (by rw [hsb, hq]; exact hkq)
        rw [hsb, hq, hsh] at this
        exact (Option.some.inj this).symm
      rw [hd]
      simp only
      have hwk : ((Dict.get? fi.finfo q).bind fun t => Dict.get? t sqs) = some (k, sh) := by
        unfold BondFusingInfo.window at hw
        unfold BondFusingInfo.shapeOf at hsh
        cases hbb : (Dict.get? fi.finfo q).bind fun t => Dict.get? t sqs with
        | none => rw [hbb] at hw; simp at hw
        | some e =>
          rw [hbb] at hw hsh
          simp only [Option.map_some, Option.some.injEq, Prod.mk.injEq] at hw hsh
          rw [← hsh, ← hw.1]
      rw [hwk]
      simp only [Option.getD_some]
      rw [hshb]
      have hkd : k + sh.prod ≤ d := by
        have := (hfi.tiles q).1 _ _ _ hw
        unfold Counter.count at this
        rw [hd] at this
        exact this
      unfold blockEntry
      have hbox : inBox (pick (List.range m) b.2.shape ++ d :: pick (restAxes legs.length idxs m) b.2.shape)
          (pick (List.range m) (x.map Prod.snd) ++ (k + ravel sh v) ::
            pick (restAxes legs.length idxs m) (x.map Prod.snd)) = true ↔
          inBox (pick (List.range m) b.2.shape) (pick (List.range m) (x.map Prod.snd)) = true ∧
          inBox (pick (restAxes legs.length idxs m) b.2.shape)
            (pick (restAxes legs.length idxs m) (x.map Prod.snd)) = true := by
        rw [inBox_append (by simp)]
        simp only [inBox, Bool.and_eq_true, decide_eq_true_eq]
        have : k + ravel sh v < d := by omega
        simp [this]
      have hlab : (pick (List.range m) b.1 ++ q :: pick (restAxes legs.length idxs m) b.1 =
          pick (List.range m) (x.map Prod.fst) ++ q :: pick (restAxes legs.length idxs m) (x.map Prod.fst)) ↔
          b.1 = x.map Prod.fst := by
        rw [hcond1]
        constructor
        · intro h
          obtain ⟨h1, h2⟩ := List.append_inj h (by simp)
          simp only [List.cons.injEq, true_and] at h2
          exact ⟨h1, hsb, h2⟩
        · rintro ⟨h1, _, h2⟩; rw [h1, h2]
      have hcc : (pick (List.range m) b.1 ++ q :: pick (restAxes legs.length idxs m) b.1 =
          pick (List.range m) (x.map Prod.fst) ++ q :: pick (restAxes legs.length idxs m) (x.map Prod.fst) ∧
          inBox (pick (List.range m) b.2.shape ++ d :: pick (restAxes legs.length idxs m) b.2.shape)
          (pick (List.range m) (x.map Prod.snd) ++ (k + ravel sh v) ::
            pick (restAxes legs.length idxs m) (x.map Prod.snd)) = true) ↔
          (b.1 = x.map Prod.fst ∧ inBox b.2.shape (x.map Prod.snd) = true) := by
        rw [hbox, hlab, hcond2, hshb]
        simp only [hin, true_and]
      simp only [hcc]
      split_ifs with hc1
      · have hc1 := hcc.2 hc1
        rw [hbox] at hc1
        rw [getD_append_cons _ _ _ _ _ (by simp)]
        unfold pieceAt
        simp only
        rw [if_pos ⟨by omega, by omega⟩, Nat.add_sub_cancel_left, set_append_cons _ _ _ _ _ (by simp)]
        have := fuseArr_get (legs := legs) (m := m) (idxs := idxs) b (pick (List.range m) (x.map Prod.snd))
          (pick (restAxes legs.length idxs m) (x.map Prod.snd)) (ravel sh v) hc1.2.1
          (by rw [hshb]; exact hrl) hc1.2.2
        rw [this, hshb, unravel_ravel hin]
        have e : pick (List.range m) (x.map Prod.snd) ++ v ++
            pick (restAxes legs.length idxs m) (x.map Prod.snd) =
            pick (List.range m ++ idxs ++ restAxes legs.length idxs m) (x.map Prod.snd) := by
          simp only [pick_append, hv]
        rw [e, unpick_pick hperm _ (by simp [hx])]
      · rfl
    · -- other combinations: the windows are disjoint
      have hz : blockEntry b x = 0 := by
        unfold blockEntry
        rw [if_neg]
        rintro ⟨h1, _⟩
        exact hsb (hcond1.1 h1).2.1
      rw [hz]
      cases hqb : Dict.get? fi.quanta (signedSum fi.pattern (pick idxs b.1)) with
      | none => rfl
      | some d =>
      simp only
      cases htb : (Dict.get? fi.finfo (signedSum fi.pattern (pick idxs b.1))).bind fun t =>
          Dict.get? t (pick idxs b.1) with
      | none => rfl
      | some e =>
      simp only [Option.getD_some]
      split_ifs with hc1
      · rw [getD_append_cons _ _ _ _ _ (by simp)]
        unfold pieceAt
        simp only
        rw [if_neg]
        rintro ⟨h1, h2⟩
        obtain ⟨_, h3⟩ := List.append_inj hc1.1 (by simp)
        simp only [List.cons.injEq] at h3
        have hcb := hcov' b hb (Dict.mem_keys_iff.2 ⟨_, hqb⟩)
        have wb : fi.window q (pick idxs b.1) = some (e.1, (pick idxs b.2.shape).prod) := by
          unfold BondFusingInfo.shapeOf at hcb
          unfold BondFusingInfo.window
          rw [← h3.1, htb]
          rw [htb] at hcb
          simp only [Option.map_some, Option.some.injEq] at hcb ⊢
          rw [hcb]
        obtain ⟨t1, t2⟩ := hfi.tiles q
        have := t1 _ _ _ wb
        obtain ⟨c, _, huniq⟩ := t2 (k + ravel sh v) (by omega)
        have e1 := huniq _ ⟨_, _, wb, h1, h2⟩
        have e2 := huniq _ ⟨_, _, hw, by omega, by omega⟩
        exact hsb (e1.trans e2.symm)
      · rfl
  · intro x q p hx hp
    rw [hfl x _ hx]
    apply sum_map_zero'
    intro r hr
    unfold blockEntry
    rw [if_neg]
    rintro ⟨h1, h2⟩
    have hcr := hc r hr
    rw [isCombination_iff_getD] at hcr
    have h3 := hcr.2.2 m (by simp)
    have hbm := (inBox_iff.1 h2).2 m (by rw [hcr.2.1]; simp)
    rw [h1] at h3
    simp only [List.map_append, List.map_cons] at h3 hbm
    rw [getD_append_cons _ _ _ _ _ (by simp), getD_append_cons _ _ _ _ _ (by simp)] at h3
    rw [getD_append_cons _ _ _ _ _ (by simp)] at hbm
    unfold Counter.count at hp
    rw [h3] at hp
    simp only [Option.getD_some] at hp
    omega


/-! ### Unfusing -/

/-- Sum over a dictionary of a function that vanishes off one key. -/
theorem sum_dict {α β : Type} [DecidableEq α] (d : Dict α β) (hd : Dict.WF d) (key : α) (f : α × β → K)
    (hf : ∀ e ∈ d, e.1 ≠ key → f e = 0) :
    (d.map f).sum = match Dict.get? d key with | none => 0 | some v => f (key, v) := by
  induction d with
  | nil => rfl
  | cons a t ih =>
    obtain ⟨k, v⟩ := a
    unfold Dict.WF at hd
    simp only [List.map_cons, List.nodup_cons] at hd
    simp only [List.map_cons, List.sum_cons]
    rw [Dict.get?_cons]
    by_cases hk : k = key
    · subst hk
      have : (t.map f).sum = 0 := by
        apply sum_map_zero'
        intro e he
        apply hf e (List.mem_cons_of_mem _ he)
        rintro rfl
        exact hd.1 (List.mem_map.2 ⟨e, he, rfl⟩)
      simp [this]
    · rw [hf (k, v) List.mem_cons_self hk, zero_add, ih hd.2 (fun e he => hf e (List.mem_cons_of_mem _ he))]
      simp [hk]

/-- All combinations in the table have `r` labels and `r` dimensions. -/
def TableArity (fi : BondFusingInfo Q) (r : Nat) : Prop :=
  ∀ q qs sh, fi.shapeOf q qs = some sh → qs.length = r ∧ sh.length = r

/-- Contribution of the table `t` to the unfused tensor for one block. -/
theorem unfuseBlock_sum {legs : List (BondInfo Q)} {fi : BondFusingInfo Q} {i r : Nat}
    (hfi : GoodTable fi) (har : TableArity fi r) (hi : i < legs.length) (hleg : legs.getD i [] = fi.quanta)
    (b : List Q × Arr K) (hb : IsCombination legs b.1 b.2.shape)
    (xl zs xr : List (Q × Nat)) (hxl : xl.length = i) (hzs : zs.length = r) :
    ((unfuseBlock fi i (b.1.getD i 0) b).map fun c => blockEntry c (xl ++ zs ++ xr)).sum =
      match (Dict.get? fi.finfo (b.1.getD i 0)).bind fun t => Dict.get? t (zs.map Prod.fst) with
      | none => 0
      | some e => if inBox e.2 (zs.map Prod.snd) = true then
          blockEntry b (xl ++ (b.1.getD i 0, e.1 + ravel e.2 (zs.map Prod.snd)) :: xr) else 0 := by
  obtain ⟨qs, A⟩ := b
  simp only at hb ⊢
  have hl := hb.lengths
  have hfull := (isCombination_iff_getD.1 hb).2.2 i hi
  have eq1 : qs = qs.take i ++ qs.getD i 0 :: qs.drop (i + 1) := by
    conv_lhs => rw [← List.take_append_drop i qs, List.drop_eq_getElem_cons (by omega)]
    simp [List.getD_eq_getElem?_getD, List.getElem?_eq_getElem (show i < qs.length by omega)]
  have eq2 : A.shape = A.shape.take i ++ A.shape.getD i 0 :: A.shape.drop (i + 1) := by
    conv_lhs => rw [← List.take_append_drop i A.shape, List.drop_eq_getElem_cons (by omega)]
    simp [List.getD_eq_getElem?_getD, List.getElem?_eq_getElem (show i < A.shape.length by omega)]
  have lt1 : (qs.take i).length = i := by simp; omega
  have lt2 : (A.shape.take i).length = i := by simp; omega
  rw [hleg] at hfull
  unfold unfuseBlock
  rw [List.map_map]
  cases ht : Dict.get? fi.finfo (qs.getD i 0) with
  | none => simp
  | some t =>
    simp only [Option.getD_some, Option.bind_some]
    rw [sum_dict t (hfi.wf.2 _ t ht) (zs.map Prod.fst)]
    · cases hz : Dict.get? t (zs.map Prod.fst) with
      | none => rfl
      | some e =>
        obtain ⟨k, sh⟩ := e
        simp only [Function.comp]
        have hsh : fi.shapeOf (qs.getD i 0) (zs.map Prod.fst) = some sh := by
          unfold BondFusingInfo.shapeOf; rw [ht]; simp [hz]
        have hw : fi.window (qs.getD i 0) (zs.map Prod.fst) = some (k, sh.prod) := by
          unfold BondFusingInfo.window; rw [ht]; simp [hz]
        have hin := (hfi.tiles _).1 _ _ _ hw
        have hcount : Counter.count fi.quanta (qs.getD i 0) = A.shape.getD i 0 := by
          unfold Counter.count; rw [hfull]; rfl
        rw [hcount] at hin
        have hshl := (har _ _ _ hsh).2
        unfold blockEntry
        simp only [List.map_append, List.map_cons, Arr.reshape, Arr.sliceAxis]
        have c1 : (qs.take i ++ zs.map Prod.fst ++ qs.drop (i + 1) =
            xl.map Prod.fst ++ zs.map Prod.fst ++ xr.map Prod.fst) ↔
            (qs.take i = xl.map Prod.fst ∧ qs.drop (i + 1) = xr.map Prod.fst) := by
          constructor
          · intro h
            rw [List.append_assoc, List.append_assoc] at h
            obtain ⟨h1, h2⟩ := List.append_inj h (by simp [lt1, hxl])
            exact ⟨h1, List.append_cancel_left h2⟩
          · rintro ⟨h1, h2⟩; rw [h1, h2]
        have c2 : (qs = xl.map Prod.fst ++ qs.getD i 0 :: xr.map Prod.fst) ↔
            (qs.take i = xl.map Prod.fst ∧ qs.drop (i + 1) = xr.map Prod.fst) := by
          constructor
          · intro h
            rw [eq1] at h
            have h' : qs.take i ++ qs.getD i 0 :: qs.drop (i + 1) =
              xl.map Prod.fst ++ qs.getD i 0 :: xr.map Prod.fst := by rw [← eq1]; rw [eq1]; rw [h]; congr 2; rw [← h, ← eq1]
            obtain ⟨h1, h2⟩ := List.append_inj h' (by simp [lt1, hxl])
            simp only [List.cons.injEq, true_and] at h2
            exact ⟨h1, h2⟩
          · rintro ⟨h1, h2⟩; rw [← h1, ← h2]; exact eq1
        have b1 : inBox (A.shape.take i ++ sh ++ A.shape.drop (i + 1))
            (xl.map Prod.snd ++ zs.map Prod.snd ++ xr.map Prod.snd) = true ↔
            (inBox (A.shape.take i) (xl.map Prod.snd) = true ∧ inBox sh (zs.map Prod.snd) = true ∧
              inBox (A.shape.drop (i + 1)) (xr.map Prod.snd) = true) := by
          rw [inBox_append (by simp [lt2, hxl, hshl, hzs]), inBox_append (by simp [lt2, hxl])]
          simp [and_assoc]
        by_cases hz2 : inBox sh (zs.map Prod.snd) = true
        · rw [if_pos hz2]
          have hrl := ravel_lt hz2
          have b2 : inBox A.shape (xl.map Prod.snd ++ (k + ravel sh (zs.map Prod.snd)) :: xr.map Prod.snd) = true ↔
              (inBox (A.shape.take i) (xl.map Prod.snd) = true ∧
              inBox (A.shape.drop (i + 1)) (xr.map Prod.snd) = true) := by
            conv_lhs => rw [eq2]
            rw [inBox_append (by simp [lt2, hxl])]
            simp only [inBox, Bool.and_eq_true, decide_eq_true_eq]
            have : k + ravel sh (zs.map Prod.snd) < A.shape.getD i 0 := by omega
            simp only [this, true_and]
          have hcc : (qs.take i ++ zs.map Prod.fst ++ qs.drop (i + 1) =
              xl.map Prod.fst ++ zs.map Prod.fst ++ xr.map Prod.fst ∧
              inBox (A.shape.take i ++ sh ++ A.shape.drop (i + 1))
              (xl.map Prod.snd ++ zs.map Prod.snd ++ xr.map Prod.snd) = true) ↔
              (qs = xl.map Prod.fst ++ qs.getD i 0 :: xr.map Prod.fst ∧
              inBox A.shape (xl.map Prod.snd ++ (k + ravel sh (zs.map Prod.snd)) :: xr.map Prod.snd) = true) := by
            rw [c1, c2, b1, b2]; simp only [hz2, true_and]
          simp only [hcc]
          split_ifs with hc
          · obtain ⟨_, h2⟩ := hc
            rw [b2] at h2
            have hset : A.shape.set i sh.prod = A.shape.take i ++ [sh.prod] ++ A.shape.drop (i + 1) := by
              conv_lhs => rw [eq2]
              rw [set_append_cons _ _ _ _ _ lt2]; simp
            rw [hset, reshape_ungroup h2.1 hz2 h2.2]
            rw [List.append_assoc, List.singleton_append, getD_append_cons _ _ _ _ _ (by simp [hxl]),
              set_append_cons _ _ _ _ _ (by simp [hxl]), Nat.add_comm]
          · rfl
        · rw [if_neg hz2, if_neg]
          rintro ⟨_, h2⟩
          exact hz2 (b1.1 h2).2.1
    · intro e he hne
      obtain ⟨ks, k, sh⟩ := e
      simp only [Function.comp]
      unfold blockEntry
      rw [if_neg]
      rintro ⟨h1, _⟩
      have hsh : fi.shapeOf (qs.getD i 0) ks = some sh := by
        unfold BondFusingInfo.shapeOf; rw [ht]; simp [Dict.get?_of_mem (hfi.wf.2 _ t ht) he]
      have hkl := (har _ _ _ hsh).1
      simp only [List.map_append, List.append_assoc] at h1
      obtain ⟨_, h2⟩ := List.append_inj h1 (by simp [lt1, hxl])
      obtain ⟨h3, _⟩ := List.append_inj h2 (by simp [hkl, hzs])
      exact hne h3

/-- C15: unfusing leg `i` with a good table of the bond on that leg succeeds.  The entry at a choice of basis
vectors `zs` on the new legs is the entry at the position the table gives to `zs`; combinations not in
the table hold nothing.  Labels stay distinct. -/
theorem C15_unfuse (legs : List (BondInfo Q)) (S : SpT Q K) (fi : BondFusingInfo Q) (i r : Nat)
    (hfi : GoodTable fi) (har : TableArity fi r) (hS : Conforms legs S)
    (hi : i < legs.length) (hleg : legs.getD i [] = fi.quanta) :
    ∃ R, SpT.unfuse S i fi = some R ∧ (UniqueLabels S → UniqueLabels R) ∧
      ∀ xl zs xr : List (Q × Nat), xl.length = i → zs.length = r →
        (∀ q k sh, fi.window q (zs.map Prod.fst) = some (k, sh.prod) →
          fi.shapeOf q (zs.map Prod.fst) = some sh → inBox sh (zs.map Prod.snd) = true →
          entry R (xl ++ zs ++ xr) = entry S (xl ++ (q, k + ravel sh (zs.map Prod.snd)) :: xr)) ∧
        ((∀ q sh, fi.shapeOf q (zs.map Prod.fst) = some sh → inBox sh (zs.map Prod.snd) = false) →
          entry R (xl ++ zs ++ xr) = 0) := by
  have hgd : ∀ b ∈ S, Dict.get? fi.quanta (b.1.getD i 0) = some (b.2.shape.getD i 0) := by
    intro b hb
    have := (isCombination_iff_getD.1 (hS b hb)).2.2 i hi
    rw [hleg] at this
    exact this
  have hU : SpT.unfuse S i fi = some (S.flatMap fun b => unfuseBlock fi i (b.1.getD i 0) b) := by
    unfold SpT.unfuse
    rw [if_pos]
    · congr 1
      apply List.flatMap_congr
      intro b hb
      rw [if_pos]
      rw [Dict.has_iff]
      exact Dict.mem_keys_iff.2 ⟨_, hgd b hb⟩
    · rw [List.all_eq_true]
      intro b hb
      rw [hgd b hb]
      simp
  have hlen : ∀ b ∈ S, (b.1.take i).length = i := by
    intro b hb
    have := (hS b hb).lengths.1
    simp; omega
  have heq : ∀ b ∈ S, b.1 = b.1.take i ++ b.1.getD i 0 :: b.1.drop (i + 1) := by
    intro b hb
    have := (hS b hb).lengths.1
    conv_lhs => rw [← List.take_append_drop i b.1, List.drop_eq_getElem_cons (by omega)]
    simp [List.getD_eq_getElem?_getD, List.getElem?_eq_getElem (show i < b.1.length by omega)]
  refine ⟨_, hU, ?_, ?_⟩
  · intro hu
    unfold UniqueLabels
    rw [List.map_flatMap, List.nodup_flatMap]
    constructor
    · intro b hb
      unfold unfuseBlock
      rw [List.map_map]
      cases ht : Dict.get? fi.finfo (b.1.getD i 0) with
      | none => simp
      | some t =>
        simp only [Option.getD_some]
        have hw := hfi.wf.2 _ t ht
        unfold Dict.WF at hw
        have : (t.map (Prod.fst ∘ fun e : List Q × Nat × List Nat => (b.1.take i ++ e.1 ++ b.1.drop (i + 1),
            (b.2.sliceAxis i e.2.1 e.2.2.prod).reshape (b.2.shape.take i ++ e.2.2 ++ b.2.shape.drop (i + 1))))) =
            (t.map Prod.fst).map fun k => b.1.take i ++ k ++ b.1.drop (i + 1) := by
          rw [List.map_map]; rfl
        rw [this]
        apply hw.map
        intro a c hac
        simp only [List.append_assoc] at hac
        exact List.append_cancel_right (List.append_cancel_left hac)
    · have hp : S.Pairwise fun a b => a.1 ≠ b.1 := by
        unfold UniqueLabels at hu
        rw [List.nodup_iff_pairwise_ne, List.pairwise_map] at hu
        exact hu
      refine (List.Pairwise.and_mem.1 hp).imp ?_
      rintro a b ⟨ha, hb, hne⟩
      intro l hla hlb
      obtain ⟨ca, hca, rfl⟩ := List.mem_map.1 hla
      obtain ⟨cb, hcb, hlab⟩ := List.mem_map.1 hlb
      obtain ⟨ea, hea, rfl⟩ := List.mem_map.1 hca
      obtain ⟨eb, heb, rfl⟩ := List.mem_map.1 hcb
      simp only at hlab
      have key : ∀ (b : List Q × Arr K) (e : List Q × Nat × List Nat), b ∈ S →
          e ∈ (Dict.get? fi.finfo (b.1.getD i 0)).getD [] →
          fi.shapeOf (b.1.getD i 0) e.1 = some e.2.2 := by
        intro b e _ he
        cases ht : Dict.get? fi.finfo (b.1.getD i 0) with
        | none => rw [ht] at he; simp at he
        | some t =>
          rw [ht] at he
          simp only [Option.getD_some] at he
          unfold BondFusingInfo.shapeOf
          rw [ht]
          obtain ⟨k, v⟩ := e
          simp [Dict.get?_of_mem (hfi.wf.2 _ t ht) he]
      have sa := key a ea ha hea
      have sb := key b eb hb heb
      rw [List.append_assoc, List.append_assoc] at hlab
      obtain ⟨h1, h2⟩ := List.append_inj hlab (by rw [hlen a ha, hlen b hb])
      obtain ⟨h3, h4⟩ := List.append_inj h2 (by rw [(har _ _ _ sa).1, (har _ _ _ sb).1])
      apply hne
      rw [heq a ha, heq b hb, h1, h4, ← hfi.sound _ _ _ sa, ← hfi.sound _ _ _ sb, h3]
  · intro xl zs xr hxl hzs
    have hsum : entry (S.flatMap fun b => unfuseBlock fi i (b.1.getD i 0) b) (xl ++ zs ++ xr) =
        (S.map fun b => match (Dict.get? fi.finfo (b.1.getD i 0)).bind fun t => Dict.get? t (zs.map Prod.fst) with
          | none => 0
          | some e => if inBox e.2 (zs.map Prod.snd) = true then
              blockEntry b (xl ++ (b.1.getD i 0, e.1 + ravel e.2 (zs.map Prod.snd)) :: xr) else 0).sum := by
      unfold entry
      rw [sum_flatMap']
      apply sum_map_congr'
      intro b hb
      exact unfuseBlock_sum hfi har hi hleg b (hS b hb) xl zs xr hxl hzs
    rw [hsum]
    constructor
    · intro q k sh hw hsh hin
      unfold entry
      apply sum_map_congr'
      intro b hb
      have hq := hfi.sound _ _ _ hsh
      have hke : ((Dict.get? fi.finfo q).bind fun t => Dict.get? t (zs.map Prod.fst)) = some (k, sh) := by
        unfold BondFusingInfo.window at hw
        unfold BondFusingInfo.shapeOf at hsh
        cases hbb : (Dict.get? fi.finfo q).bind fun t => Dict.get? t (zs.map Prod.fst) with
        | none => rw [hbb] at hw; simp at hw
        | some e =>
          rw [hbb] at hw hsh
          simp only [Option.map_some, Option.some.injEq, Prod.mk.injEq] at hw hsh
          rw [← hsh, ← hw.1]
      by_cases hqb : b.1.getD i 0 = q
      · rw [hqb, hke]
        simp only
        rw [if_pos hin]
      · have hr : blockEntry b (xl ++ (q, k + ravel sh (zs.map Prod.snd)) :: xr) = 0 := by
          unfold blockEntry
          rw [if_neg]
          rintro ⟨h1, _⟩
          apply hqb
          rw [h1, List.map_append, List.map_cons, getD_append_cons _ _ _ _ _ (by simp [hxl])]
        rw [hr]
        cases hbb : (Dict.get? fi.finfo (b.1.getD i 0)).bind fun t => Dict.get? t (zs.map Prod.fst) with
        | none => rfl
        | some e =>
          exfalso
          apply hqb
          rw [← hq]
          have : fi.shapeOf (b.1.getD i 0) (zs.map Prod.fst) = some e.2 := by
            unfold BondFusingInfo.shapeOf; rw [hbb]; rfl
          exact (hfi.sound _ _ _ this).symm
    · intro hz
      apply sum_map_zero'
      intro b hb
      cases hbb : (Dict.get? fi.finfo (b.1.getD i 0)).bind fun t => Dict.get? t (zs.map Prod.fst) with
      | none => rfl
      | some e =>
        simp only
        have : fi.shapeOf (b.1.getD i 0) (zs.map Prod.fst) = some e.2 := by
          unfold BondFusingInfo.shapeOf; rw [hbb]; rfl
        rw [if_neg]
        rw [hz _ _ this]
        simp


/-! ### Round trip -/

/-- Every block is listed in the table with its shape. -/
def CoversAll (fi : BondFusingInfo Q) (idxs : List Nat) (T : SpT Q K) : Prop :=
  ∀ b ∈ T, ∃ q, fi.shapeOf q (idxs.map fun i => b.1.getD i 0) = some (idxs.map fun i => b.2.shape.getD i 0)

/-- C15: unfusing the fused leg with the same table returns every entry to its place (the unfused legs stand
together at leg `m`). -/
theorem C15_roundtrip (legs : List (BondInfo Q)) (T : SpT Q K) (fi : BondFusingInfo Q) (idxs : List Nat) (m : Nat)
    (hfi : GoodTable fi) (har : TableArity fi idxs.length) (hT : Conforms legs T) (hu : UniqueLabels T)
    (hm : m ∈ idxs) (hmin : ∀ i ∈ idxs, m ≤ i) (hlt : ∀ i ∈ idxs, i < legs.length) (hnd : idxs.Nodup)
    (hcov : CoversAll fi idxs T) :
    ∃ F U, SpT.fuse T idxs fi none = some F ∧ SpT.unfuse F m fi = some U ∧ UniqueLabels U ∧
      ∀ x : List (Q × Nat), x.length = legs.length → entry U (gatheredIndex idxs m x) = entry T x := by
  have hml := hlt m hm
  have hcov' : Covers fi idxs T := by
    intro b hb _
    obtain ⟨q, hq⟩ := hcov b hb
    rw [hfi.sound _ _ _ hq]
    exact hq
  obtain ⟨F, hF, hFu, hFc, hFe, _⟩ := C15_fuse legs T fi idxs m hfi hT hu hm hmin hlt hnd hcov'
  have hlm : m < (fusedIndex idxs m legs fi.quanta).length := by
    unfold fusedIndex; simp; omega
  have hlg : (fusedIndex idxs m legs fi.quanta).getD m [] = fi.quanta := by
    unfold fusedIndex
    rw [getD_append_cons _ _ _ _ _ (by simp; omega)]
  obtain ⟨U, hU, hUu, hUe⟩ := C15_unfuse _ F fi m idxs.length hfi har hFc hlm hlg
  refine ⟨F, U, hF, hU, hUu hFu, ?_⟩
  intro x hx
  have e := hUe (x.take m) (idxs.map fun i => x.getD i 0)
    (((List.range x.length).filter fun i => decide (m < i ∧ i ∉ idxs)).map fun i => x.getD i 0)
    (by simp; omega) (by simp)
  simp only [List.map_map] at e
  by_cases hc : ∃ q sh, fi.shapeOf q (idxs.map fun i => (x.getD i 0).1) = some sh ∧
      inBox sh (idxs.map fun i => (x.getD i 0).2) = true
  · obtain ⟨q, sh, hsh, hin⟩ := hc
    obtain ⟨k, hw⟩ : ∃ k, fi.window q (idxs.map fun i => (x.getD i 0).1) = some (k, sh.prod) := by
      unfold BondFusingInfo.shapeOf at hsh
      unfold BondFusingInfo.window
      rw [Option.map_eq_some_iff] at hsh
      obtain ⟨e, he, rfl⟩ := hsh
      exact ⟨e.1, by rw [he]; rfl⟩
    rw [show entry T x = _ from (hFe x q k sh hx hw hsh hin).symm]
    exact e.1 q k sh hw hsh hin
  · simp only [not_exists, not_and, Bool.not_eq_true] at hc
    have h0 : entry T x = 0 := by
      apply sum_map_zero'
      intro b hb
      unfold blockEntry
      rw [if_neg]
      rintro ⟨h1, h2⟩
      obtain ⟨q, hq⟩ := hcov b hb
      have hl := (hT b hb).lengths
      have e1 : (idxs.map fun i => b.1.getD i 0) = idxs.map fun i => (x.getD i 0).1 := by
        rw [h1]
        have := map_pick (Prod.fst : Q × Nat → Q) rfl idxs x
        simpa [pick] using this.symm
      rw [e1] at hq
      have := hc q _ hq
      rw [← Bool.not_eq_true] at this
      apply this
      rw [inBox_iff]
      refine ⟨by simp, ?_⟩
      intro j hj
      simp only [List.length_map] at hj
      have hj' := hlt _ (List.getElem_mem hj)
      have hbx := (inBox_iff.1 h2).2 idxs[j] (by omega)
      simp only [List.getD_eq_getElem?_getD, List.getElem?_map, List.getElem?_eq_getElem hj, Option.map_some,
        Option.getD_some] at hbx ⊢
      rw [List.getElem?_eq_getElem (show idxs[j] < x.length by omega)] at hbx ⊢
      simpa using hbx
    rw [h0]
    exact e.2 hc

theorem range'_zero_append (a b : Nat) : List.range' 0 a ++ List.range' a b = List.range' 0 (a + b) := by
  have := List.range'_append (s := 0) (m := a) (n := b) (step := 1)
  simpa using this

/-- Legs already standing together: gathering changes nothing. -/
theorem gatheredIndex_consecutive {α : Type} [Zero α] (m r : Nat) (x : List α) (hr : 0 < r)
    (h : m + r ≤ x.length) : gatheredIndex (List.range' m r) m x = x := by
  have hrest : (List.range x.length).filter (fun i => decide (m < i ∧ i ∉ List.range' m r)) =
      List.range' (m + r) (x.length - (m + r)) := by
    have : List.range x.length = List.range (m + r) ++ List.range' (m + r) (x.length - (m + r)) := by
      rw [List.range_eq_range', List.range_eq_range', range'_zero_append]
      congr 1; omega
    rw [this, List.filter_append]
    have h1 : (List.range (m + r)).filter (fun i => decide (m < i ∧ i ∉ List.range' m r)) = [] := by
      rw [List.filter_eq_nil_iff]
      intro i hi
      simp only [List.mem_range] at hi
      simp only [List.mem_range'_1, decide_eq_true_eq, not_and]
      omega
    have h2 : (List.range' (m + r) (x.length - (m + r))).filter
        (fun i => decide (m < i ∧ i ∉ List.range' m r)) = List.range' (m + r) (x.length - (m + r)) := by
      rw [List.filter_eq_self]
      intro i hi
      simp only [List.mem_range'_1] at hi
      simp only [List.mem_range'_1, decide_eq_true_eq]
      omega
    rw [h1, h2]; rfl
  unfold gatheredIndex
  rw [hrest]
  have e1 : x.take m = (List.range' 0 m).map fun i => x.getD i 0 := by
    rw [← List.range_eq_range']
    exact (pick_range_take m x (by omega)).symm
  rw [e1, ← List.map_append, ← List.map_append, range'_zero_append, range'_zero_append,
    show m + r + (x.length - (m + r)) = x.length by omega, ← List.range_eq_range']
  exact pick_range x

/-- The legs `m, ..., m + r - 1` of a tensor with a minimal table: fusing and unfusing gives back every
entry.  (`kron_sum_info` then `fuse` then `unfuse`.) -/
theorem C15_roundtrip_minimal (leL : List Q → List Q → Bool) (legs : List (BondInfo Q)) (T : SpT Q K)
    (pattern : List Bool) (m r : Nat) (hr : 0 < r) (hmr : m + r ≤ legs.length)
    (hT : Conforms legs T) (hu : UniqueLabels T) (hpos : ∀ leg ∈ legs, ∀ e ∈ leg, 0 < e.2) :
    ∃ fi F U, SpT.kronSumInfo leL T (List.range' m r) pattern = some fi ∧
      SpT.fuse T (List.range' m r) fi none = some F ∧ SpT.unfuse F m fi = some U ∧ UniqueLabels U ∧
      ∀ x : List (Q × Nat), x.length = legs.length → entry U x = entry T x := by
  have hlt : ∀ i ∈ List.range' m r, i < legs.length := by
    intro i hi
    rw [List.mem_range'_1] at hi
    omega
  have hcomb : ∀ b ∈ T, IsCombination (pick (List.range' m r) legs) (pick (List.range' m r) b.1)
      (pick (List.range' m r) b.2.shape) := fun b hb => (hT b hb).pick hlt
  have hposl : ∀ (ls : List (BondInfo Q)) qs sh, IsCombination ls qs sh → (∀ leg ∈ ls, ∀ e ∈ leg, 0 < e.2) →
      0 < sh.prod := by
    intro ls qs sh hc
    induction hc with
    | nil => intro _; simp
    | @cons b bs q' qs' s shs h1 h2 ih =>
      intro hp
      simp only [List.prod_cons]
      exact Nat.mul_pos (hp b List.mem_cons_self _ (Dict.mem_of_get? h1))
        (ih fun l hl => hp l (List.mem_cons_of_mem _ hl))
  have hpl : ∀ leg ∈ pick (List.range' m r) legs, ∀ e ∈ leg, 0 < e.2 := by
    intro leg hleg
    obtain ⟨i, hi, rfl⟩ := List.mem_map.1 hleg
    have hil := hlt i hi
    rw [List.getD_eq_getElem?_getD, List.getElem?_eq_getElem hil]
    exact hpos _ (List.getElem_mem hil)
  obtain ⟨fi, hfi⟩ : ∃ fi, SpT.kronSumInfo leL T (List.range' m r) pattern = some fi := by
    cases hk : SpT.kronSumInfo leL T (List.range' m r) pattern with
    | some fi => exact ⟨fi, rfl⟩
    | none =>
      exfalso
      unfold SpT.kronSumInfo at hk
      rw [C09_reject_iff] at hk
      obtain ⟨qs, s, s', hne, h1, h2, _⟩ := hk
      obtain ⟨b, hb, he⟩ := List.mem_map.1 h1
      obtain ⟨b', hb', he'⟩ := List.mem_map.1 h2
      simp only [Prod.mk.injEq] at he he'
      apply hne
      have c1 := hcomb b hb
      have c2 := hcomb b' hb'
      rw [he.1, he.2] at c1
      rw [he'.1, he'.2] at c2
      exact c1.shape_unique c2
  have hent := C09_entries leL _ _ _ _ hfi
  have hgood := C15_good_kronSum leL _ _ _ _ (by
    intro it hit
    obtain ⟨b, hb, rfl⟩ := List.mem_map.1 hit
    exact hposl _ _ _ (hcomb b hb) hpl) hfi
  have har : TableArity fi (List.range' m r).length := by
    intro q qs sh hsh
    obtain ⟨b, hb, he⟩ := List.mem_map.1 ((hent q qs sh).1 hsh).1
    simp only [Prod.mk.injEq] at he
    rw [← he.1, ← he.2]
    simp
  have hcov : CoversAll fi (List.range' m r) T := by
    intro b hb
    refine ⟨signedSum pattern (pick (List.range' m r) b.1), ?_⟩
    exact (hent _ _ _).2 ⟨List.mem_map.2 ⟨b, hb, rfl⟩, rfl, by simp⟩
  obtain ⟨F, U, hF, hU, hUu, hUe⟩ := C15_roundtrip legs T fi (List.range' m r) m hgood har hT hu
    (by rw [List.mem_range'_1]; omega) (by intro i hi; rw [List.mem_range'_1] at hi; omega) hlt
    List.nodup_range' hcov
  refine ⟨fi, F, U, hfi, hF, hU, hUu, ?_⟩
  intro x hx
  have := hUe x hx
  rwa [gatheredIndex_consecutive m r x hr (by omega)] at this

/-- The same with a complete table of the bonds on these legs. -/
theorem C15_roundtrip_complete (le : Q → Q → Bool) (legs : List (BondInfo Q)) (T : SpT Q K)
    (pattern : Option (List Bool)) (m r : Nat) (hr : 0 < r) (hmr : m + r ≤ legs.length)
    (hT : Conforms legs T) (hu : UniqueLabels T) (hpos : ∀ leg ∈ legs, ∀ e ∈ leg, 0 < e.2)
    (hwf : ∀ leg ∈ legs, Dict.WF leg) (hne : ∀ leg ∈ legs, leg ≠ []) :
    ∃ fi F U, BondFusingInfo.tensorProduct le ((legs.drop m).take r) none pattern = some fi ∧
      SpT.fuse T (List.range' m r) fi none = some F ∧ SpT.unfuse F m fi = some U ∧ UniqueLabels U ∧
      ∀ x : List (Q × Nat), x.length = legs.length → entry U x = entry T x := by
  have hlt : ∀ i ∈ List.range' m r, i < legs.length := by
    intro i hi
    rw [List.mem_range'_1] at hi
    omega
  have hpk : pick (List.range' m r) legs = (legs.drop m).take r := by
    apply List.ext_getElem
    · simp; omega
    · intro j h1 h2
      simp only [pick_length, List.length_range'] at h1
      have : m + j < legs.length := by omega
      simp [pick, List.getElem?_eq_getElem this]
  have hmem : ∀ leg ∈ (legs.drop m).take r, leg ∈ legs := fun leg h =>
    List.mem_of_mem_drop (List.mem_of_mem_take h)
  obtain ⟨fi, hfi⟩ := Option.isSome_iff_exists.1 (C08_total le ((legs.drop m).take r) none pattern
    fun b hb => hne b (hmem b hb))
  have hw : ∀ b ∈ (legs.drop m).take r, Dict.WF b := fun b hb => hwf b (hmem b hb)
  have hent := C08_entries le _ _ _ _ hw hfi
  have hgood := C15_good_tensorProduct le _ _ _ _ hw (fun b hb => hpos b (hmem b hb)) hfi
  have hll : ((legs.drop m).take r).length = r := by simp; omega
  have har : TableArity fi (List.range' m r).length := by
    intro q qs sh hsh
    have := ((hent q qs sh).1 hsh).1.lengths
    rw [hll] at this
    simpa using this
  have hcov : CoversAll fi (List.range' m r) T := by
    intro b hb
    refine ⟨_, (hent _ _ _).2 ⟨?_, rfl, by simp⟩⟩
    rw [← hpk]
    exact (hT b hb).pick hlt
  obtain ⟨F, U, hF, hU, hUu, hUe⟩ := C15_roundtrip legs T fi (List.range' m r) m hgood har hT hu
    (by rw [List.mem_range'_1]; omega) (by intro i hi; rw [List.mem_range'_1] at hi; omega) hlt
    List.nodup_range' hcov
  refine ⟨fi, F, U, hfi, hF, hU, hUu, ?_⟩
  intro x hx
  have := hUe x hx
  rwa [gatheredIndex_consecutive m r x hr (by omega)] at this

end thms

/-! ### Concrete cases -/

/-- A tensor on three legs with labels in `Int`; blocks of several shapes. -/
def exF : SpT Int Int :=
  [([0, 1, 1], ⟨[2, 1, 1], fun ix => 10 + ix.getD 0 0⟩), ([1, 0, 1], ⟨[1, 2, 1], fun ix => 20 + ix.getD 1 0⟩),
   ([0, 0, 0], ⟨[2, 2, 3], fun ix => 100 + 12 * ix.getD 0 0 + 3 * ix.getD 1 0 + ix.getD 2 0⟩)]

def exFLegs : List (BondInfo Int) := [[(0, 2), (1, 1)], [(0, 2), (1, 1)], [(0, 3), (1, 1)]]

example : Conforms exFLegs exF ∧ UniqueLabels exF ∧ (∀ leg ∈ exFLegs, ∀ e ∈ leg, 0 < e.2) ∧
    (∀ leg ∈ exFLegs, Dict.WF leg) ∧ (∀ leg ∈ exFLegs, leg ≠ []) := by decide

/-- Fusing legs 0 and 1: fused sector 1 holds the rows of two blocks one after another. -/
example : (do
    let fi ← SpT.kronSumInfo (fun a b => decide (a ≤ b)) exF [0, 1] [true, true]
    let F ← SpT.fuse exF [0, 1] fi none
    let U ← SpT.unfuse F 0 fi
    some (F.map Prod.fst, F.map (fun b => b.2.shape), entry F [(1, 1), (1, 0)], entry F [(1, 3), (1, 0)],
      entry F [(0, 3), (0, 2)], entry U [(1, 0), (0, 1), (1, 0)])) =
    some ([[1, 1], [0, 0]], [[4, 1], [4, 3]], 11, 21, 117, 21) := by decide

end Verif
