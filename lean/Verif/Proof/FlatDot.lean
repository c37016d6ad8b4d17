import Verif.Proof.Flat

/-! Flat contraction simulates block contraction. -/

set_option linter.unusedSectionVars false

namespace Verif
variable {C K : Type} [DecidableEq C] [CommSemiring K]

theorem dict_set_eq_set {α β : Type} [DecidableEq α] (m : Dict α β) (hm : Dict.WF m) (q : α) (v : β) (i : Nat)
    (hi : (m.map Prod.fst)[i]? = some q) : Dict.set m q v = List.set m i (q, v) := by
  induction m generalizing i with
  | nil => simp at hi
  | cons p t ih =>
    obtain ⟨k, w⟩ := p
    unfold Dict.WF at hm
    simp only [List.map_cons, List.nodup_cons] at hm
    cases i with
    | zero =>
      simp only [List.map_cons, List.getElem?_cons_zero, Option.some.injEq] at hi
      subst hi; simp [Dict.set]
    | succ j =>
      simp only [List.map_cons, List.getElem?_cons_succ] at hi
      have hne : k ≠ q := by
        rintro rfl
        exact hm.1 (List.mem_of_getElem? hi)
      simp only [Dict.set, if_neg hne, List.set_cons_succ]
      rw [ih hm.2 j hi]

namespace Flat

/-- The loop state holds the dictionary of the block version. -/
structure Sim (st : TdState C K) (m : SpT C K) : Prop where
  wf : UniqueLabels m
  qs : st.qs = m.map Prod.fst
  shs : st.shs = m.map fun b => b.2.shape
  mats : st.mats = m.map fun b => b.2.toList
  idxs : st.idxs = offsets 0 (m.map fun b => b.2.shape)
  none : ∀ q, Dict.get? st.map q = none ↔ q ∉ m.map Prod.fst
  some : ∀ q i, Dict.get? st.map q = some i → (m.map Prod.fst)[i]? = some q

theorem Sim.step {st : TdState C K} {m : SpT C K} (h : Sim st m) {legs : List (BondInfo C)} (hm : Conforms legs m)
    (outq : List C) (mat : Arr K) (hmat : IsCombination legs outq mat.shape) :
    Sim (tdStep st outq mat) (SpT.accumulate m outq mat) := by
  have hwf' := h.wf.accumulate outq mat
  unfold tdStep
  cases hg : Dict.get? st.map outq with
  | none =>
    have hn := (h.none outq).1 hg
    have hacc : SpT.accumulate m outq mat = m ++ [(outq, mat)] := by
      unfold SpT.accumulate
      rw [(Dict.get?_eq_none_iff m outq).2 hn]
      exact Dict.set_of_not_mem m mat hn
    rw [hacc] at hwf' ⊢
    refine ⟨hwf', by simp [h.qs], by simp [h.shs], by simp [h.mats], ?_, ?_, ?_⟩
    · simp only [List.map_append, List.map_cons, List.map_nil]
      rw [offsets_append, ← h.idxs]
    · intro q
      rw [Dict.get?_set]
      split_ifs with e
      · subst e; simp
      · rw [h.none q]; simp [Ne.symm e]
    · intro q i
      rw [Dict.get?_set]
      split_ifs with e
      · subst e
        intro hi
        simp only [Option.some.injEq] at hi
        subst hi
        rw [h.qs]; simp
      · intro hi
        have := h.some q i hi
        rw [List.map_append, List.getElem?_append_left]
        · exact this
        · by_contra hc
          rw [List.getElem?_eq_none (by omega)] at this
          simp at this
  | some i =>
    have hi := h.some outq i hg
    rw [List.getElem?_map, Option.map_eq_some_iff] at hi
    obtain ⟨⟨q', o⟩, hi, rfl⟩ := hi
    have hmem : (q', o) ∈ m := List.mem_of_getElem? hi
    have hget : Dict.get? m q' = Option.some o := Dict.get?_of_mem h.wf hmem
    have hshape : o.shape = mat.shape := (hm _ hmem).shape_unique hmat
    have hset : SpT.accumulate m q' mat = List.set m i (q', o.add mat) := by
      unfold SpT.accumulate
      rw [hget]
      exact dict_set_eq_set m h.wf q' _ i (by rw [List.getElem?_map, hi]; rfl)
    obtain ⟨hlt, hie⟩ := List.getElem?_eq_some_iff.1 hi
    rw [hset] at hwf' ⊢
    have hfst : (List.set m i (q', o.add mat)).map Prod.fst = m.map Prod.fst := by
      rw [List.map_set]
      apply List.ext_getElem
      · simp
      · intro j h1 h2
        rw [List.getElem_set]
        split_ifs with hij
        · subst hij; simp [hie]
        · rfl
    have hshs : (List.set m i (q', o.add mat)).map (fun b => b.2.shape) = m.map fun b => b.2.shape := by
      rw [List.map_set]
      apply List.ext_getElem
      · simp
      · intro j h1 h2
        rw [List.getElem_set]
        split_ifs with hij
        · subst hij; simp [hie, Arr.add]
        · rfl
    refine ⟨hwf', ?_, ?_, ?_, ?_, ?_, ?_⟩
    · simp only [hfst]; exact h.qs
    · simp only [hshs]; exact h.shs
    · simp only
      rw [h.mats, List.map_set, Arr.toList_add _ _ hshape]
      apply List.ext_getElem
      · simp
      · intro j h1 h2
        rw [List.getElem_modify, List.getElem_set]
        split_ifs with hij
        · subst hij; simp [hie]
        · rfl
    · simp only [hshs]; exact h.idxs
    · simp only [hfst]; exact h.none
    · simp only [hfst]; exact h.some

theorem Sim.fold {legs : List (BondInfo C)} (l : SpT C K) (hl : Conforms legs l) (st : TdState C K) (m : SpT C K)
    (h : Sim st m) (hm : Conforms legs m) :
    Sim (l.foldl (fun st b => tdStep st b.1 b.2) st) (l.foldl (fun m b => SpT.accumulate m b.1 b.2) m) := by
  induction l generalizing st m with
  | nil => exact h
  | cons b t ih =>
    obtain ⟨hb, ht⟩ := Conforms.cons.1 hl
    exact ih ht _ _ (h.step hm b.1 b.2 hb) (hm.accumulate hb)

variable [Zero C]

theorem get?_mapIdxB (bqs : List (List C)) (idxb : List Nat) (c : List C) :
    (Dict.get? (mapIdxB bqs idxb) c).getD [] =
      (bqs.zipIdx.filter fun p => pick idxb p.1 = c).map Prod.snd := by
  unfold mapIdxB
  suffices h : ∀ (L : List (List C × Nat)) (m : Dict (List C) (List Nat)),
      (Dict.get? (L.foldl (fun m p => Dict.set m (pick idxb p.1)
        ((Dict.get? m (pick idxb p.1)).getD [] ++ [p.2])) m) c).getD [] =
      (Dict.get? m c).getD [] ++ (L.filter fun p => pick idxb p.1 = c).map Prod.snd by
    simpa using h bqs.zipIdx []
  intro L
  induction L with
  | nil => simp
  | cons b t ih =>
    intro m
    simp only [List.foldl_cons]
    rw [ih, Dict.get?_set]
    by_cases e : pick idxb b.1 = c
    · simp [e]
    · simp [e]

theorem tensordot_pack (legs : List (BondInfo C)) (la lb : List (List C × List Nat × List K)) (ha : Chunked la)
    (hb : Chunked lb) (idxa idxb outa outb : List Nat)
    (hc : Conforms legs (contributions (toSparse id (pack la)) (toSparse id (pack lb)) idxa idxb outa outb)) :
    tensordot (pack la) (pack lb) idxa idxb outa outb =
      fromSparse id (SpT.tensordotCore (toSparse id (pack la)) (toSparse id (pack lb)) idxa idxb outa outb) := by
  by_cases hla : la = []
  · subst hla
    rw [fromSparse_eq]
    simp [tensordot, pack, SpT.tensordotCore, toSparse]
  by_cases hlb : lb = []
  · subst hlb
    rw [fromSparse_eq, tensordotCore_eq]
    have : contributions (toSparse id (pack la)) (toSparse id (pack ([] : List (List C × List Nat × List K))))
        idxa idxb outa outb = [] := by
      unfold contributions
      rw [List.flatMap_eq_nil_iff]
      intro a _
      simp [toSparse, pack]
    rw [this]
    simp [tensordot, pack, hla]
  have hfold : ∀ st : TdState C K, ((pack la).qs.zip (pack la).shs).zipIdx.foldl
      (tdOuter (pack la) (pack lb) (mapIdxB (pack lb).qs idxb) idxa idxb outa outb) st =
      (contributions (toSparse id (pack la)) (toSparse id (pack lb)) idxa idxb outa outb).foldl
        (fun st b => tdStep st b.1 b.2) st := by
    have hz : ((pack la).qs.zip (pack la).shs).zipIdx = la.zipIdx.map fun p => ((p.1.1, p.1.2.1), p.2) := by
      simp only [pack]
      rw [List.zip_map', List.zipIdx_map]
      rfl
    intro st
    rw [hz, List.foldl_map]
    rw [toSparse_pack id ha, toSparse_pack id hb]
    have hla2 : la = la.zipIdx.map Prod.fst := (List.zipIdx_map_fst 0 la).symm
    unfold contributions
    conv_rhs => rw [hla2]
    rw [List.map_map]
    have hmem : ∀ p ∈ la.zipIdx, (pack la).block p.2 = p.1.2.2 := by
      intro p hp
      have := List.mem_zipIdx_iff_getElem?.1 hp
      obtain ⟨hlt, he⟩ := List.getElem?_eq_some_iff.1 this
      rw [pack_block ha _ hlt, he]
    clear hz hla2
    generalize la.zipIdx = L at hmem
    induction L generalizing st with
    | nil => rfl
    | cons a t ih =>
      simp only [List.foldl_cons, List.map_cons, List.flatMap_cons, List.foldl_append]
      rw [ih _ (fun p hp => hmem p (List.mem_cons_of_mem _ hp))]
      congr 1
      simp only [Function.comp, List.map_id]
      unfold tdOuter
      simp only
      rw [hmem a List.mem_cons_self]
      have hq : (pack lb).qs.zipIdx = lb.zipIdx.map fun p => (p.1.1, p.2) := by
        simp only [pack]
        rw [List.zipIdx_map]; rfl
      have hg := get?_mapIdxB (pack lb).qs idxb (pick idxa a.1.1)
      rw [hq, List.filter_map, List.map_map] at hg
      have hr : ((lb.map fun e => (e.1, Arr.ofList e.2.1 e.2.2)).filter fun b =>
          decide (pick idxb b.1 = pick idxa a.1.1)) =
          ((lb.zipIdx.filter fun p => decide (pick idxb p.1.1 = pick idxa a.1.1)).map fun p =>
            (p.1.1, Arr.ofList p.1.2.1 p.1.2.2)) := by
        conv_lhs => rw [show lb = lb.zipIdx.map Prod.fst from (List.zipIdx_map_fst 0 lb).symm]
        rw [List.map_map, List.filter_map]
        rfl
      rw [hr, List.map_map, List.foldl_map]
      have hcore : ∀ st : TdState C K, ((Dict.get? (mapIdxB (pack lb).qs idxb) (pick idxa a.1.1)).getD []).foldl
          (fun st ib => tdStep st (pick outa a.1.1 ++ pick outb ((pack lb).qs.getD ib []))
            ((Arr.ofList a.1.2.1 a.1.2.2).tensordot
              (Arr.ofList ((pack lb).shs.getD ib []) ((pack lb).block ib)) idxa idxb outa outb)) st =
          (lb.zipIdx.filter fun p => decide (pick idxb p.1.1 = pick idxa a.1.1)).foldl (fun st p =>
            tdStep st (pick outa a.1.1 ++ pick outb p.1.1) ((Arr.ofList a.1.2.1 a.1.2.2).tensordot
              (Arr.ofList p.1.2.1 p.1.2.2) idxa idxb outa outb)) st := by
        intro st
        rw [hg, List.foldl_map]
        apply List.foldl_ext
        intro st p hp
        rw [List.mem_filter] at hp
        have := List.mem_zipIdx_iff_getElem?.1 hp.1
        obtain ⟨hlt, he⟩ := List.getElem?_eq_some_iff.1 this
        simp only [Function.comp]
        rw [pack_block hb _ hlt, he]
        have e1 : (pack lb).qs.getD p.2 [] = p.1.1 := by
          simp [pack, this]
        have e2 : (pack lb).shs.getD p.2 [] = p.1.2.1 := by
          simp [pack, this]
        rw [e1, e2]
      cases hgc : Dict.get? (mapIdxB (pack lb).qs idxb) (pick idxa a.1.1) with
      | none =>
        have := hcore st
        rw [hgc] at this
        simp only [Option.getD_none, List.foldl_nil] at this
        exact this
      | some l =>
        have := hcore st
        rw [hgc] at this
        simp only [Option.getD_some] at this
        exact this
  have hsim : Sim (⟨[], [0], [], [], []⟩ : TdState C K) ([] : SpT C K) :=
    ⟨List.nodup_nil, rfl, rfl, rfl, rfl, by simp, by simp⟩
  have hs := Sim.fold _ hc _ _ hsim (by intro b hb; simp at hb)
  rw [← tensordotCore_eq] at hs
  unfold tensordot
  rw [if_neg (by simpa [pack] using hla), if_neg (by simpa [pack] using hlb)]
  simp only
  rw [hfold, fromSparse_eq]
  rw [hs.qs, hs.shs, hs.mats, hs.idxs]
  unfold pack
  simp only [List.map_map, List.map_id]
  rfl

end Flat
end Verif
