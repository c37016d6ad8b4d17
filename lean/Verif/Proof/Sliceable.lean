import Verif.Model.Sliceable
import Verif.Spec.Sliceable
import Verif.Proof.LocalOne

/-! Proofs about sliceable tensors. -/

set_option linter.unusedSectionVars false

namespace Verif
section
variable {Q K : Type} [DecidableEq Q]

theorem sorted_take {le : Q → Q → Bool} (o : LabelOrder le) {L : List Q} (hs : L.Pairwise fun a b => le a b = true) (hn : L.Nodup) {q : Q} (hq : q ∈ L) :
    (L.filter fun p => decide (p ≠ q) && le p q).length = L.idxOf q := by
  induction L with
  | nil => simp at hq
  | cons a t ih =>
    rw [List.pairwise_cons] at hs
    rw [List.nodup_cons] at hn
    by_cases ha : a = q
    · subst ha
      rw [List.idxOf_cons_self, List.length_eq_zero_iff, List.filter_eq_nil_iff]
      intro x hx
      rcases List.mem_cons.1 hx with rfl | hx
      · simp
      · have h1 := hs.1 x hx
        simp only [Bool.and_eq_true, decide_eq_true_eq, not_and]
        intro hne h2
        exact hne (o.antisymm _ _ h2 h1)
    · have hq' : q ∈ t := by
        rcases List.mem_cons.1 hq with h | h
        · exact absurd h.symm ha
        · exact h
      rw [List.idxOf_cons_ne _ (fun h => ha h), List.filter_cons_of_pos (by simp [ha, hs.1 q hq']), List.length_cons, ih hs.2 hn.2 hq']

theorem sortedLabels_perm (le : Q → Q → Bool) (info : BondInfo Q) : (sortedLabels le info).Perm (info.map Prod.fst) := sortBy_perm _ _

theorem place_of_mem {le : Q → Q → Bool} (o : LabelOrder le) {info : BondInfo Q} (hw : Dict.WF info) {q : Q} (hq : q ∈ info.map Prod.fst) :
    SpT.labelPlace le info q = ((info.map Prod.fst).filter fun p => decide (p ≠ q) && le p q).length ∧ (sortedLabels le info)[SpT.labelPlace le info q]? = some q := by
  have hp := sortedLabels_perm le info
  have hq' : q ∈ sortedLabels le info := hp.mem_iff.2 hq
  unfold SpT.labelPlace
  rw [if_pos hq']
  refine ⟨?_, ?_⟩
  · have hs : (sortedLabels le info).Pairwise fun a b => le a b = true := sortBy_sorted le o.total o.trans _
    rw [← sorted_take o hs (hp.nodup_iff.2 hw) hq']
    exact (hp.filter _).length_eq
  · rw [List.getElem?_eq_getElem (List.idxOf_lt_length_of_mem hq'), List.getElem_idxOf]

theorem place_lt {le : Q → Q → Bool} {info : BondInfo Q} {q : Q} (hq : q ∈ info.map Prod.fst) : SpT.labelPlace le info q < info.length := by
  have hp := sortedLabels_perm le info
  have hq' : q ∈ sortedLabels le info := hp.mem_iff.2 hq
  unfold SpT.labelPlace
  rw [if_pos hq']
  have := List.idxOf_lt_length_of_mem hq'
  rw [hp.length_eq, List.length_map] at this
  exact this

theorem place_inj {le : Q → Q → Bool} {info : BondInfo Q} {q q' : Q} (hq : q ∈ info.map Prod.fst) (hq' : q' ∈ info.map Prod.fst)
    (h : SpT.labelPlace le info q = SpT.labelPlace le info q') : q = q' := by
  have hp := sortedLabels_perm le info
  have m : q ∈ sortedLabels le info := hp.mem_iff.2 hq
  have m' : q' ∈ sortedLabels le info := hp.mem_iff.2 hq'
  unfold SpT.labelPlace at h
  rw [if_pos m, if_pos m'] at h
  exact (List.idxOf_inj m).1 h

/-- The labels of the blocks are among the labels of the legs. -/
def LabelsIn (I : List (BondInfo Q)) (qs : List Q) : Prop := List.Forall₂ (fun q i => q ∈ i.map Prod.fst) qs I

theorem places_inj {le : Q → Q → Bool} {I : List (BondInfo Q)} {qs qs' : List Q} (h : LabelsIn I qs) (h' : LabelsIn I qs')
    (e : SpT.blockPlace le I qs = SpT.blockPlace le I qs') : qs = qs' := by
  induction h generalizing qs' with
  | nil => cases h'; rfl
  | cons h1 h2 ih =>
    cases h' with
    | cons g1 g2 =>
      simp only [SpT.blockPlace, List.zip_cons_cons, List.map_cons, List.cons.injEq] at e
      rw [place_inj h1 g1 e.1, ih g2 e.2]

theorem places_inBox {le : Q → Q → Bool} {I : List (BondInfo Q)} {qs : List Q} (h : LabelsIn I qs) :
    inBox (I.map List.length) (SpT.blockPlace le I qs) = true := by
  induction h with
  | nil => rfl
  | cons h1 h2 ih =>
    simp only [SpT.blockPlace, List.zip_cons_cons, List.map_cons, inBox, Bool.and_eq_true, decide_eq_true_eq]
    exact ⟨place_lt h1, ih⟩

/-- The array `S` holds the blocks of `T` at the places of their labels. -/
structure Rep (le : Q → Q → Bool) (I : List (BondInfo Q)) (T : SpT Q K) (S : SlT Q K) : Prop where
  infos : S.infos = I
  shape : S.shape = I.map List.length
  cell : ∀ ix b, S.cell ix = some b ↔ b ∈ T ∧ SpT.blockPlace le I b.1 = ix
  lab : ∀ b ∈ T, LabelsIn I b.1
  uniq : UniqueLabels T

theorem fold_cell {le : Q → Q → Bool} {I : List (BondInfo Q)} (T : SpT Q K) (f : List Nat → Option (List Q × Arr K)) (hu : UniqueLabels T)
    (hl : ∀ b ∈ T, LabelsIn I b.1) (ix : List Nat) (b : List Q × Arr K) :
    T.foldl (fun f b ix => if ix = SpT.blockPlace le I b.1 then some b else f ix) f ix = some b ↔
      (b ∈ T ∧ SpT.blockPlace le I b.1 = ix) ∨ (f ix = some b ∧ ∀ c ∈ T, SpT.blockPlace le I c.1 ≠ ix) := by
  induction T generalizing f with
  | nil => simp
  | cons a T ih =>
    unfold UniqueLabels at hu
    rw [List.map_cons, List.nodup_cons] at hu
    have hla := hl a (by simp)
    have hne : ∀ c ∈ T, SpT.blockPlace le I c.1 ≠ SpT.blockPlace le I a.1 := fun c hc e =>
      hu.1 (List.mem_map.2 ⟨c, hc, places_inj (hl c (by simp [hc])) hla e⟩)
    rw [List.foldl_cons, ih _ hu.2 fun c hc => hl c (by simp [hc])]
    by_cases hx : ix = SpT.blockPlace le I a.1
    · rw [if_pos hx]
      subst hx
      simp only [List.mem_cons, Option.some.injEq]
      constructor
      · rintro (⟨h1, h2⟩ | ⟨rfl, h2⟩)
        · exact absurd h2 (hne b h1)
        · exact .inl ⟨.inl rfl, rfl⟩
      · rintro (⟨rfl | h1, h2⟩ | ⟨h1, h2⟩)
        · exact .inr ⟨rfl, hne⟩
        · exact absurd h2 (hne b h1)
        · exact absurd rfl (h2 a (.inl rfl))
    · rw [if_neg hx]
      simp only [List.mem_cons]
      constructor
      · rintro (⟨h1, h2⟩ | ⟨h1, h2⟩)
        · exact .inl ⟨.inr h1, h2⟩
        · refine .inr ⟨h1, ?_⟩
          rintro c (rfl | hc)
          · exact fun e => hx e.symm
          · exact h2 c hc
      · rintro (⟨rfl | h1, h2⟩ | ⟨h1, h2⟩)
        · exact absurd h2.symm hx
        · exact .inl ⟨h1, h2⟩
        · exact .inr ⟨h1, fun c hc => h2 c (.inr hc)⟩

theorem toSliceable_rep (le : Q → Q → Bool) {I : List (BondInfo Q)} {T : SpT Q K} (hu : UniqueLabels T) (hl : ∀ b ∈ T, LabelsIn I b.1) :
    ∃ S, T.toSliceable le (some I) = some S ∧ Rep le I T S := by
  unfold SpT.toSliceable
  simp only [Option.orElse_some, Option.bind_some]
  rw [if_pos]
  · refine ⟨_, rfl, rfl, rfl, ?_, hl, hu⟩
    intro ix b
    rw [fold_cell T _ hu hl]
    simp
  · rw [List.all_eq_true]
    intro b hb
    rw [Bool.and_eq_true, decide_eq_true_eq]
    exact ⟨(hl b hb).length_eq, places_inBox (hl b hb)⟩

theorem UniqueLabels.nodup {T : SpT Q K} (h : UniqueLabels T) : T.Nodup := List.Nodup.of_map _ h

theorem unique_of_perm_blocks {T T' : SpT Q K} (h : T.Perm T') (hu : UniqueLabels T') : UniqueLabels T := (h.map Prod.fst).nodup_iff.2 hu

/-- The blocks of a part of an array, when each block stands at the place of its labels. -/
theorem filterMap_nodup {α β : Type} {l : List α} (hl : l.Nodup) (f : α → Option β) (g : β → α) (h : ∀ x ∈ l, ∀ b, f x = some b → g b = x) :
    (l.filterMap f).Nodup := by
  induction l with
  | nil => simp
  | cons a t ih =>
    rw [List.nodup_cons] at hl
    have ih := ih hl.2 fun x hx => h x (by simp [hx])
    rcases ha : f a with _ | b
    · rw [List.filterMap_cons_none ha]; exact ih
    · rw [List.filterMap_cons_some ha, List.nodup_cons]
      refine ⟨?_, ih⟩
      intro hm
      obtain ⟨x, hx, hb⟩ := List.mem_filterMap.1 hm
      have e1 := h a (by simp) b ha
      have e2 := h x (by simp [hx]) b hb
      exact hl.1 (e1 ▸ e2 ▸ hx)

theorem Rep.sparse {le : Q → Q → Bool} {I : List (BondInfo Q)} {T : SpT Q K} {S : SlT Q K} (h : Rep le I T S) : S.toSparse.Perm T := by
  refine (List.perm_ext_iff_of_nodup ?_ h.uniq.nodup).2 ?_
  · exact filterMap_nodup (box_nodup _) _ (fun b => SpT.blockPlace le I b.1) fun x _ b hb => ((h.cell x b).1 hb).2
  · intro b
    unfold SlT.toSparse
    rw [List.mem_filterMap]
    constructor
    · rintro ⟨ix, -, hc⟩
      exact ((h.cell _ _).1 hc).1
    · intro hb
      exact ⟨SpT.blockPlace le I b.1, mem_box.2 (h.shape ▸ places_inBox (h.lab b hb)), (h.cell _ _).2 ⟨hb, rfl⟩⟩

theorem entry_perm' [AddCommMonoid K] {T T' : SpT Q K} (h : T.Perm T') (x : List (Q × Nat)) : entry T x = entry T' x := (h.map _).sum_eq

theorem entry_filter_labels [AddCommMonoid K] (p : List Q → Bool) (T : SpT Q K) (x : List (Q × Nat)) (h : p (x.map Prod.fst) = true) :
    entry (T.filter fun b => p b.1) x = entry T x := by
  induction T with
  | nil => rfl
  | cons b T ih =>
    by_cases hb : p b.1 = true
    · rw [List.filter_cons_of_pos (p := fun b : List Q × Arr K => p b.1) hb, entry_cons, entry_cons, ih]
    · rw [List.filter_cons_of_neg (p := fun b : List Q × Arr K => p b.1) hb, entry_cons, ih, blockEntry, if_neg (fun hc : b.1 = x.map Prod.fst ∧ _ => hb (hc.1 ▸ h)), zero_add]

/-! ### Slicing -/

theorem pyIndex_of {n k : Nat} {x : Int} (h : NamesAxis n x k) : SlT.pyIndex n x = some k := by
  obtain ⟨h1, h2⟩ := h
  unfold SlT.pyIndex
  rcases h2 with rfl | rfl
  · rw [if_pos (by omega)]; simp
  · rw [if_neg (by omega), if_pos (by omega)]
    congr 1
    omega

theorem pyIndex_iff {n k : Nat} {x : Int} : SlT.pyIndex n x = some k ↔ NamesAxis n x k := by
  refine ⟨?_, pyIndex_of⟩
  unfold SlT.pyIndex NamesAxis
  split
  · intro h; simp only [Option.some.injEq] at h; omega
  · split
    · intro h; simp only [Option.some.injEq] at h; omega
    · simp

/-- `c` chooses a label on each of the legs. -/
def Choice (le : Q → Q → Bool) (ph : List (BondInfo Q)) (c : List (Int × Q)) : Prop :=
  List.Forall₂ (fun i x => Numbers le (i.map Prod.fst) x.1 x.2) ph c

theorem Choice.labelsIn {le : Q → Q → Bool} {ph : List (BondInfo Q)} {c : List (Int × Q)} (h : Choice le ph c) : LabelsIn ph (c.map Prod.snd) := by
  induction h with
  | nil => exact .nil
  | cons h1 _ ih => exact .cons h1.1 ih

/-- The legs after the slice: one label each. -/
def singles (ph : List (BondInfo Q)) (c : List (Int × Q)) : List (BondInfo Q) := (ph.zip c).map fun x => [(x.2.2, Counter.count x.1 x.2.2)]

theorem choice_keys {le : Q → Q → Bool} (o : LabelOrder le) {ph : List (BondInfo Q)} {c : List (Int × Q)} (h : Choice le ph c) (hw : ∀ i ∈ ph, Dict.WF i)
    (r : BondInfo Q) :
    (((c.map fun x : Int × Q => some x.1) ++ [none]).zip (ph.map List.length ++ [r.length])).mapM (fun x : Option Int × Nat => SlT.axisKey x.2 x.1) = some ((SpT.blockPlace le ph (c.map Prod.snd)).map some ++ [none]) := by
  induction h with
  | nil => rfl
  | cons h1 h2 ih =>
    rename_i i x ph c
    have hp := place_of_mem o (hw i (by simp)) h1.1
    have hk : SlT.pyIndex i.length x.1 = some (SpT.labelPlace le i x.2) := by
      refine pyIndex_of ?_
      have := h1.2
      rw [← hp.1, List.length_map] at this
      exact this
    have ha : SlT.axisKey i.length (some x.1) = some (some (SpT.labelPlace le i x.2)) := by simp only [SlT.axisKey, hk, Option.map_some]
    simp only [List.map_cons, List.cons_append, List.zip_cons_cons, List.mapM_cons, ha, ih fun j hj => hw j (by simp [hj])]
    rfl

theorem choice_restrict {le : Q → Q → Bool} (o : LabelOrder le) {ph : List (BondInfo Q)} {c : List (Int × Q)} (h : Choice le ph c) (hw : ∀ i ∈ ph, Dict.WF i)
    (r : BondInfo Q) :
    (((c.map fun x : Int × Q => some x.1) ++ [none]).zip (ph ++ [r])).mapM (fun x : Option Int × BondInfo Q => SlT.restrict le x.2 x.1) =
      some (singles ph c ++ [r]) := by
  induction h with
  | nil => rfl
  | cons h1 h2 ih =>
    rename_i i x ph c
    have hp := place_of_mem o (hw i (by simp)) h1.1
    have hk : SlT.pyIndex i.length x.1 = some (SpT.labelPlace le i x.2) := by
      refine pyIndex_of ?_
      have := h1.2
      rw [← hp.1, List.length_map] at this
      exact this
    have hr : SlT.restrict le i (some x.1) = some [(x.2, Counter.count i x.2)] := by
      simp only [SlT.restrict, hk, Option.bind_some, hp.2, Option.map_some]
    simp only [List.map_cons, List.cons_append, List.zip_cons_cons, List.mapM_cons, hr, ih fun j hj => hw j (by simp [hj])]
    rfl

theorem fill_mid (i j : Nat) (ds : List Nat) : SlT.fill (none :: ds.map some ++ [none]) [i, j] = i :: ds ++ [j] := by
  have : SlT.fill (ds.map some ++ [none]) [j] = ds ++ [j] := by
    induction ds with
    | nil => rfl
    | cons d ds ih => simp [SlT.fill, ih]
  simp only [List.cons_append, SlT.fill, this]

theorem blockPlace_append {le : Q → Q → Bool} {I J : List (BondInfo Q)} {a b : List Q} (h : a.length = I.length) :
    SpT.blockPlace le (I ++ J) (a ++ b) = SpT.blockPlace le I a ++ SpT.blockPlace le J b := by
  unfold SpT.blockPlace
  rw [List.zip_append h, List.map_append]

/-- Labels on a first leg, some legs, and a last leg. -/
theorem LabelsIn.split {l r : BondInfo Q} {ph : List (BondInfo Q)} {qs : List Q} (h : LabelsIn (l :: ph ++ [r]) qs) :
    ∃ x m y, qs = x :: m ++ [y] ∧ x ∈ l.map Prod.fst ∧ LabelsIn ph m ∧ y ∈ r.map Prod.fst := by
  cases h with
  | cons h1 h2 =>
    rename_i x t
    obtain ⟨m, e, g1, g2, rfl⟩ : ∃ m e, LabelsIn ph m ∧ LabelsIn [r] e ∧ t = m ++ e :=
      ⟨t.take ph.length, t.drop ph.length, by
        have := List.forall₂_take_append t ph [r] h2; exact this, by
        have := List.forall₂_drop_append t ph [r] h2; exact this, by simp⟩
    cases g2 with
    | cons k1 k2 =>
      cases k2
      exact ⟨x, m, _, rfl, h1, g1, k1⟩

/-- Slicing the middle legs of an array keeps the blocks with the chosen labels. -/
theorem slice_mid {le : Q → Q → Bool} (o : LabelOrder le) {l r : BondInfo Q} {ph : List (BondInfo Q)} {T : SpT Q K} {S : SlT Q K}
    (h : Rep le (l :: ph ++ [r]) T S) (hw : ∀ i ∈ ph, Dict.WF i) {c : List (Int × Q)} (hc : Choice le ph c) :
    ∃ R, S.getitem le (none :: (c.map Prod.fst).map some ++ [none]) = some R ∧ R.infos = l :: singles ph c ++ [r] ∧
      R.toSparse.Perm (T.filter fun b => decide ((b.1.drop 1).dropLast = c.map Prod.snd)) := by
  have hlen : c.length = ph.length := hc.length_eq.symm
  have k1 := choice_keys o hc hw r
  have k2 := choice_restrict o hc hw r
  unfold SlT.getitem
  rw [h.shape, h.infos, if_pos (by simp [hlen])]
  have e1 : (none :: (c.map Prod.fst).map some ++ [none] : List (Option Int)) = none :: ((c.map fun x : Int × Q => some x.1) ++ [none]) := by
    rw [List.map_map]; rfl
  have e2 : (l :: ph ++ [r]).map List.length = l.length :: (ph.map List.length ++ [r.length]) := by simp
  rw [e1, e2]
  have r1 : SlT.axisKey l.length none = some none := rfl
  have r2 : SlT.restrict le l none = some l := rfl
  simp only [List.zip_cons_cons, List.mapM_cons, List.cons_append, k1, k2, r1, r2, Option.pure_def, Option.bind_eq_bind, Option.bind_some,
    Option.map_some]
  refine ⟨⟨_, _, _⟩, rfl, rfl, ?_⟩
  have hsh : (((none, l.length) :: ((c.map fun x : Int × Q => some x.1) ++ [none]).zip (ph.map List.length ++ [r.length])).filter
      fun x : Option Int × Nat => x.1.isNone).map Prod.snd = [l.length, r.length] := by
    rw [List.filter_cons_of_pos (by rfl), List.zip_append (by simp [hlen]), List.filter_append]
    have : (((c.map fun x : Int × Q => some x.1).zip (ph.map List.length)).filter fun x : Option Int × Nat => x.1.isNone) = [] := by
      rw [List.filter_eq_nil_iff]
      rintro ⟨x, n⟩ hx
      obtain ⟨y, -, rfl⟩ := List.mem_map.1 (List.of_mem_zip hx).1
      simp
    rw [this]
    rfl
  unfold SlT.toSparse
  simp only [hsh]
  set ds := SpT.blockPlace le ph (c.map Prod.snd) with hds
  have hcell : ∀ ix ∈ box [l.length, r.length], ∃ i j, ix = [i, j] ∧ i < l.length ∧ j < r.length := by
    intro ix hix
    have := mem_box.1 hix
    rcases ix with _ | ⟨i, _ | ⟨j, _ | ⟨k, ix⟩⟩⟩ <;> simp [inBox] at this
    exact ⟨i, j, rfl, this.1, this.2⟩
  refine (List.perm_ext_iff_of_nodup ?_ (h.uniq.nodup.filter _)).2 ?_
  · refine filterMap_nodup (box_nodup _) _ (fun b => [(SpT.blockPlace le (l :: ph ++ [r]) b.1).headD 0, (SpT.blockPlace le (l :: ph ++ [r]) b.1).getLastD 0]) ?_
    intro ix hix b hb
    obtain ⟨i, j, rfl, -, -⟩ := hcell ix hix
    have := ((h.cell _ _).1 hb).2
    rw [← List.cons_append, fill_mid] at this
    simp only [this]
    rw [List.getLastD_concat]
    rfl
  · intro b
    rw [List.mem_filterMap, List.mem_filter, decide_eq_true_eq]
    constructor
    · rintro ⟨ix, hix, hb⟩
      obtain ⟨i, j, rfl, -, -⟩ := hcell ix hix
      obtain ⟨h1, h2⟩ := (h.cell _ _).1 hb
      refine ⟨h1, ?_⟩
      obtain ⟨x, m, y, e, hx, hm, hy⟩ := (h.lab b h1).split
      rw [← List.cons_append, fill_mid, e, blockPlace_append (by simp [hm.length_eq])] at h2
      have h3 : SpT.blockPlace le (l :: ph) (x :: m) = SpT.labelPlace le l x :: SpT.blockPlace le ph m := rfl
      have h4 : SpT.blockPlace le [r] [y] = [SpT.labelPlace le r y] := rfl
      rw [h3, h4] at h2
      simp only [List.cons_append, List.cons.injEq] at h2
      have h5 := (List.append_inj' h2.2 rfl).1
      rw [e]
      simp only [List.cons_append, List.drop_succ_cons, List.drop_zero, List.dropLast_concat]
      exact places_inj hm hc.labelsIn h5
    · rintro ⟨h1, h2⟩
      obtain ⟨x, m, y, e, hx, hm, hy⟩ := (h.lab b h1).split
      rw [e] at h2
      simp only [List.cons_append, List.drop_succ_cons, List.drop_zero, List.dropLast_concat] at h2
      refine ⟨[SpT.labelPlace le l x, SpT.labelPlace le r y], mem_box.2 (by simp [inBox, place_lt hx, place_lt hy]), (h.cell _ _).2 ⟨h1, ?_⟩⟩
      rw [← List.cons_append, fill_mid, e, blockPlace_append (by simp [hm.length_eq]), h2]
      rfl

end
end Verif
