import Verif.Proof.Functor

/-! Lemmas for C67: legs, skeletons and vectors of a functor. -/

set_option linter.unusedSectionVars false

namespace Verif
open Functor

section
variable {Q K : Type} [DecidableEq Q]

namespace Flat

theorem mem_toSparse [Zero K] {F : Flat Q K} {b : List Q × Arr K} (h : b ∈ toSparse id F) : (b.1, b.2.shape) ∈ F.rows := by
  unfold toSparse at h
  obtain ⟨p, hp, rfl⟩ := List.mem_map.1 h
  obtain ⟨i, hi, e⟩ := List.mem_iff_getElem.1 hp
  have : p.1 ∈ F.qs.zip F.shs := by
    rw [← e]
    simp only [List.getElem_zipIdx]
    exact List.getElem_mem _
  simpa [Arr.ofList, rows] using this

theorem mem_rows [Zero K] {F : Flat Q K} {r : List Q × List Nat} (h : r ∈ F.rows) : ∃ b ∈ toSparse id F, b.1 = r.1 ∧ b.2.shape = r.2 := by
  obtain ⟨i, hi, e⟩ := List.mem_iff_getElem.1 h
  refine ⟨(r.1.map id, Arr.ofList r.2 (F.block i)), ?_, by simp, rfl⟩
  unfold toSparse
  refine List.mem_map.2 ⟨(r, i), ?_, rfl⟩
  rw [List.mk_mem_zipIdx_iff_getElem?]
  exact List.getElem?_eq_some_iff.2 ⟨hi, e⟩

theorem conforms_rows [Zero K] {F : Flat Q K} {legs : List (BondInfo Q)} :
    Conforms legs (toSparse id F) ↔ ∀ r ∈ F.rows, IsCombination legs r.1 r.2 := by
  constructor
  · intro h r hr
    obtain ⟨b, hb, e1, e2⟩ := mem_rows hr
    have := h b hb
    rwa [e1, e2] at this
  · intro h b hb
    exact h _ (mem_toSparse hb)

theorem rows_fst {F : Flat Q K} (h : F.WellFormed) : F.rows.map Prod.fst = F.qs := by
  unfold rows
  exact List.map_fst_zip (by rw [h.1])

theorem labels_toSparse [Zero K] {F : Flat Q K} (h : F.WellFormed) : (toSparse id F).map Prod.fst = F.qs := by
  obtain ⟨l, hl, rfl⟩ := exists_pack h
  rw [toSparse_pack id hl]
  simp [pack]

theorem rows_eq {F : Flat Q K} {l : List (List Q × List Nat × List K)} (e : F = pack l) : F.rows = l.map fun e => (e.1, e.2.1) := by
  subst e
  simp only [rows, pack]
  rw [List.zip_map']

end Flat

section
variable [AddCommGroup Q]

theorem blockEntry_tail [Zero K] (q : List Q) (s : List Nat) (d : List K) (x : List (Q × Nat)) :
    blockEntry ((0 : Q) :: q, Arr.ofList (1 :: s) d) ((0, 0) :: x) = blockEntry (q, Arr.ofList s d) x := by
  unfold blockEntry Arr.ofList
  simp [inBox, ravel]

theorem inBox_concat (s i : List Nat) (h : s.length = i.length) : inBox (s ++ [1]) (i ++ [0]) = inBox s i := by
  induction s generalizing i with
  | nil =>
    cases i with
    | nil => rfl
    | cons => simp at h
  | cons a s ih =>
    cases i with
    | nil => simp at h
    | cons b i =>
      simp only [List.length_cons, Nat.add_right_cancel_iff] at h
      simp only [List.cons_append, inBox, ih i h]

theorem blockEntry_init [Zero K] (q : List Q) (s : List Nat) (d : List K) (x : List (Q × Nat)) (h : s.length = x.length) :
    blockEntry (q ++ [(0 : Q)], Arr.ofList (s ++ [1]) d) (x ++ [(0, 0)]) = blockEntry (q, Arr.ofList s d) x := by
  unfold blockEntry Arr.ofList
  simp only [List.map_append, List.map_cons, List.map_nil]
  have e1 : (q ++ [(0 : Q)] = x.map Prod.fst ++ [0]) ↔ q = x.map Prod.fst := by simp
  have e2 := inBox_concat s (x.map Prod.snd) (by simp [h])
  have e3 : ravel (s ++ [1]) (x.map Prod.snd ++ [0]) = ravel s (x.map Prod.snd) := by
    rw [ravel_append (by simp [h])]
    simp [ravel]
  rw [e2, e3]
  by_cases hc : q = x.map Prod.fst ∧ inBox s (x.map Prod.snd) = true
  · rw [if_pos hc, if_pos ⟨e1.2 hc.1, hc.2⟩]
  · rw [if_neg hc, if_neg fun h => hc ⟨e1.1 h.1, h.2⟩]

theorem isCombination_edge {q : List Q} {s : List Nat} (h : IsCombination [[((0 : Q), 1)]] q s) : q = [0] ∧ s = [1] := by
  cases h with
  | cons h1 h2 =>
    cases h2
    rw [Dict.get?_cons] at h1
    split_ifs at h1 with e
    · simp at h1
      rw [← e, ← h1]
      exact ⟨rfl, rfl⟩
    · simp at h1

theorem isCombination_tail {legs : List (BondInfo Q)} {q : List Q} {s : List Nat} (h : IsCombination ([((0 : Q), 1)] :: legs) q s) :
    ∃ q' s', q = 0 :: q' ∧ s = 1 :: s' ∧ IsCombination legs q' s' := by
  obtain ⟨q1, q2, s1, s2, rfl, rfl, c1, c2⟩ := combination_split (l1 := [[((0 : Q), 1)]]) h
  obtain ⟨rfl, rfl⟩ := isCombination_edge c1
  exact ⟨_, _, rfl, rfl, c2⟩

theorem isCombination_init {legs : List (BondInfo Q)} {q : List Q} {s : List Nat} (h : IsCombination (legs ++ [[((0 : Q), 1)]]) q s) :
    ∃ q' s', q = q' ++ [0] ∧ s = s' ++ [1] ∧ IsCombination legs q' s' := by
  obtain ⟨q1, q2, s1, s2, rfl, rfl, c1, c2⟩ := combination_split h
  obtain ⟨rfl, rfl⟩ := isCombination_edge c2
  exact ⟨_, _, rfl, rfl, c1⟩

theorem tail_spec [AddCommMonoid K] {F : Flat Q K} (hF : F.WellFormed) {legs : List (BondInfo Q)} (hc : Conforms ([((0 : Q), 1)] :: legs) (F.toSparse id)) :
    (tailLegs F).WellFormed ∧ Conforms legs ((tailLegs F).toSparse id) ∧ (tailLegs F).rows = F.rows.map (fun r => (r.1.tail, r.2.tail)) ∧
      ∀ x, entry ((tailLegs F).toSparse id) x = entry (F.toSparse id) ((0, 0) :: x) := by
  obtain ⟨l, hl, rfl⟩ := Flat.exists_pack hF
  rw [Flat.conforms_rows, Flat.rows_eq rfl] at hc
  have hc : ∀ e ∈ l, ∃ q s, e.1 = 0 :: q ∧ e.2.1 = 1 :: s ∧ IsCombination legs q s := fun e he =>
    isCombination_tail (hc _ (List.mem_map.2 ⟨e, he, rfl⟩))
  have hp : ∀ e ∈ l, e.2.1.tail.prod = e.2.1.prod := by
    intro e he
    obtain ⟨q, s, e1, e2, -⟩ := hc e he
    rw [e2]
    simp
  have hl' : Flat.Chunked (l.map fun e => (e.1.tail, e.2.1.tail, e.2.2)) := by
    intro e he
    obtain ⟨e', he', rfl⟩ := List.mem_map.1 he
    exact (hl e' he').trans (hp e' he').symm
  have ht : tailLegs (Flat.pack l) = Flat.pack (l.map fun e => (e.1.tail, e.2.1.tail, e.2.2)) := by
    unfold tailLegs Flat.pack
    simp only [List.map_map, Flat.mk.injEq]
    refine ⟨rfl, rfl, rfl, ?_⟩
    rw [Flat.offsets_eq, Flat.offsets_eq]
    simp only [List.length_map]
    refine List.map_congr_left fun i _ => ?_
    rw [← List.map_take, ← List.map_take, List.map_map, List.map_map]
    congr 1
    exact List.map_congr_left fun e he => (hp e (List.mem_of_mem_take he)).symm
  rw [ht]
  refine ⟨Flat.pack_wellFormed hl', ?_, ?_, fun x => ?_⟩
  · rw [Flat.conforms_rows, Flat.rows_eq rfl]
    intro r hr
    obtain ⟨e, he, rfl⟩ := List.mem_map.1 hr
    obtain ⟨e', he', rfl⟩ := List.mem_map.1 he
    obtain ⟨q, s, e1, e2, c⟩ := hc e' he'
    dsimp only
    rw [e1, e2]
    exact c
  · rw [Flat.rows_eq rfl, Flat.rows_eq rfl, List.map_map, List.map_map]
    rfl
  · rw [Flat.toSparse_pack id hl', Flat.toSparse_pack id hl]
    unfold entry
    rw [List.map_map, List.map_map, List.map_map]
    refine sum_map_congr' _ _ _ fun e he => ?_
    obtain ⟨q, s, e1, e2, -⟩ := hc e he
    simp only [Function.comp, List.map_id_fun, id]
    rw [e1, e2, blockEntry_tail]
    rfl

theorem init_spec [AddCommMonoid K] {F : Flat Q K} (hF : F.WellFormed) {legs : List (BondInfo Q)} (hc : Conforms (legs ++ [[((0 : Q), 1)]]) (F.toSparse id)) :
    (initLegs F).WellFormed ∧ Conforms legs ((initLegs F).toSparse id) ∧ (initLegs F).rows = F.rows.map (fun r => (r.1.dropLast, r.2.dropLast)) ∧
      ∀ x, x.length = legs.length → entry ((initLegs F).toSparse id) x = entry (F.toSparse id) (x ++ [(0, 0)]) := by
  obtain ⟨l, hl, rfl⟩ := Flat.exists_pack hF
  rw [Flat.conforms_rows, Flat.rows_eq rfl] at hc
  have hc : ∀ e ∈ l, ∃ q s, e.1 = q ++ [0] ∧ e.2.1 = s ++ [1] ∧ IsCombination legs q s := fun e he =>
    isCombination_init (hc _ (List.mem_map.2 ⟨e, he, rfl⟩))
  have hp : ∀ e ∈ l, e.2.1.dropLast.prod = e.2.1.prod := by
    intro e he
    obtain ⟨q, s, e1, e2, -⟩ := hc e he
    rw [e2]
    simp
  have hl' : Flat.Chunked (l.map fun e => (e.1.dropLast, e.2.1.dropLast, e.2.2)) := by
    intro e he
    obtain ⟨e', he', rfl⟩ := List.mem_map.1 he
    exact (hl e' he').trans (hp e' he').symm
  have ht : initLegs (Flat.pack l) = Flat.pack (l.map fun e => (e.1.dropLast, e.2.1.dropLast, e.2.2)) := by
    unfold initLegs Flat.pack
    simp only [List.map_map, Flat.mk.injEq]
    refine ⟨rfl, rfl, rfl, ?_⟩
    rw [Flat.offsets_eq, Flat.offsets_eq]
    simp only [List.length_map]
    refine List.map_congr_left fun i _ => ?_
    rw [← List.map_take, ← List.map_take, List.map_map, List.map_map]
    congr 1
    exact List.map_congr_left fun e he => (hp e (List.mem_of_mem_take he)).symm
  rw [ht]
  refine ⟨Flat.pack_wellFormed hl', ?_, ?_, fun x hx => ?_⟩
  · rw [Flat.conforms_rows, Flat.rows_eq rfl]
    intro r hr
    obtain ⟨e, he, rfl⟩ := List.mem_map.1 hr
    obtain ⟨e', he', rfl⟩ := List.mem_map.1 he
    obtain ⟨q, s, e1, e2, c⟩ := hc e' he'
    dsimp only
    rw [e1, e2, List.dropLast_concat, List.dropLast_concat]
    exact c
  · rw [Flat.rows_eq rfl, Flat.rows_eq rfl, List.map_map, List.map_map]
    rfl
  · rw [Flat.toSparse_pack id hl', Flat.toSparse_pack id hl]
    unfold entry
    rw [List.map_map, List.map_map, List.map_map]
    refine sum_map_congr' _ _ _ fun e he => ?_
    obtain ⟨q, s, e1, e2, c⟩ := hc e he
    simp only [Function.comp, List.map_id_fun, id]
    rw [e1, e2, blockEntry_init _ _ _ _ (by rw [hx]; exact c.lengths.2), List.dropLast_concat, List.dropLast_concat]

theorem inner_spec [AddCommMonoid K] {F : Flat Q K} (hF : F.WellFormed) {legs : List (BondInfo Q)}
    (hc : Conforms ([((0 : Q), 1)] :: legs ++ [[((0 : Q), 1)]]) (F.toSparse id)) :
    (innerLegs F).WellFormed ∧ Conforms legs ((innerLegs F).toSparse id) ∧ (innerLegs F).rows = F.rows.map (fun r => (r.1.tail.dropLast, r.2.tail.dropLast)) ∧
      ∀ x, x.length = legs.length → entry ((innerLegs F).toSparse id) x = entry (F.toSparse id) ((0, 0) :: x ++ [(0, 0)]) := by
  obtain ⟨w1, c1, r1, e1⟩ := tail_spec hF hc
  obtain ⟨w2, c2, r2, e2⟩ := init_spec w1 c1
  refine ⟨w2, c2, ?_, fun x hx => ?_⟩
  · unfold innerLegs
    rw [r2, r1, List.map_map]
    rfl
  · unfold innerLegs
    rw [e2 x hx, e1]
    rfl

/-! ### Dimensions of the labels of a leg -/

/-- Labels of `d` are labels of `b` with the same dimension. -/
def SubInfo (d b : BondInfo Q) : Prop := ∀ q n, Dict.get? d q = some n → Dict.get? b q = some n

theorem isCombination_sub {ds bs : List (BondInfo Q)} (h : List.Forall₂ SubInfo ds bs) {q : List Q} {s : List Nat} (c : IsCombination ds q s) : IsCombination bs q s := by
  induction h generalizing q s with
  | nil => exact c
  | cons h1 _ ih =>
    cases c with
    | cons c1 c2 => exact .cons (h1 _ _ c1) (ih c2)

theorem foldl_set_wf {α : Type} (f : α → Q) (g : α → Nat) (l : List α) (d : BondInfo Q) (hd : Dict.WF d) : Dict.WF (l.foldl (fun d b => Dict.set d (f b) (g b)) d) := by
  induction l generalizing d with
  | nil => exact hd
  | cons a t ih => exact ih _ (hd.set _ _)

theorem foldl_set_get {α : Type} (f : α → Q) (g : α → Nat) (l : List α) (d : BondInfo Q) {b : BondInfo Q} (hd : SubInfo d b)
    (hl : ∀ a ∈ l, Dict.get? b (f a) = some (g a)) :
    SubInfo (l.foldl (fun d b => Dict.set d (f b) (g b)) d) b ∧
      ∀ q, (∃ n, Dict.get? (l.foldl (fun d b => Dict.set d (f b) (g b)) d) q = some n) ↔ (∃ n, Dict.get? d q = some n) ∨ ∃ a ∈ l, f a = q := by
  induction l generalizing d with
  | nil => exact ⟨hd, fun q => by simp⟩
  | cons a t ih =>
    have h' : SubInfo (Dict.set d (f a) (g a)) b := by
      intro q n h
      rw [Dict.get?_set] at h
      split_ifs at h with e
      · rw [← e, ← Option.some.inj h]
        exact hl a (List.mem_cons_self)
      · exact hd _ _ h
    obtain ⟨i1, i2⟩ := ih (Dict.set d (f a) (g a)) h' fun c hc => hl c (List.mem_cons_of_mem _ hc)
    refine ⟨i1, fun q => ?_⟩
    rw [List.foldl_cons, i2 q]
    have : (∃ n, Dict.get? (Dict.set d (f a) (g a)) q = some n) ↔ (∃ n, Dict.get? d q = some n) ∨ f a = q := by
      rw [Dict.get?_set]
      by_cases e : f a = q
      · simp [e]
      · simp [e]
    rw [this]
    simp only [List.mem_cons, exists_eq_or_imp, or_assoc]

theorem legDict_wf (W : FlatOp Q K) (i : Nat) : Dict.WF (legDict W i) := foldl_set_wf _ _ _ _ Dict.WF.nil

theorem isCombination_getD {legs : List (BondInfo Q)} {q : List Q} {s : List Nat} (c : IsCombination legs q s) {i : Nat} (hi : i < legs.length) :
    Dict.get? (legs.getD i []) (q.getD i 0) = some (s.getD i 0) := by
  induction c generalizing i with
  | nil => simp at hi
  | cons h1 _ ih =>
    cases i with
    | zero => simpa using h1
    | succ i => simpa using ih (by simpa using hi)

/-- All rows of the two parts of the operator tensor. -/
def FlatOp.rows (W : FlatOp Q K) : List (List Q × List Nat) := W.odd.rows ++ W.even.rows

theorem legDict_spec {W : FlatOp Q K} {legs : List (BondInfo Q)} (h : ∀ r ∈ W.rows, IsCombination legs r.1 r.2) {i : Nat} (hi : i < legs.length) :
    SubInfo (legDict W i) (legs.getD i []) ∧ ∀ q, (∃ n, Dict.get? (legDict W i) q = some n) ↔ ∃ r ∈ W.rows, r.1.getD i 0 = q := by
  have := foldl_set_get (fun r : List Q × List Nat => r.1.getD i 0) (fun r => r.2.getD i 0) W.rows ([] : BondInfo Q) (b := legs.getD i []) (by intro q n h; simp at h)
    fun r hr => isCombination_getD (h r hr) hi
  refine ⟨this.1, fun q => ?_⟩
  have h2 := this.2 q
  simp only [Dict.get?_nil, reduceCtorEq, exists_false, false_or] at h2
  exact h2

theorem orInfo_wf (x y : BondInfo Q) (hx : Dict.WF x) : Dict.WF (orInfo x y) := by
  unfold orInfo
  induction y generalizing x with
  | nil => exact hx
  | cons p t ih =>
    rw [List.foldl_cons]
    split_ifs
    · exact ih _ hx
    · exact ih _ (hx.set _ _)

theorem orInfo_spec (x y : BondInfo Q) {b : BondInfo Q} (hx : SubInfo x b) (hw : Dict.WF y) (hy : SubInfo y b) :
    SubInfo (orInfo x y) b ∧ ∀ q, (∃ n, Dict.get? (orInfo x y) q = some n) ↔ (∃ n, Dict.get? x q = some n) ∨ ∃ n, Dict.get? y q = some n := by
  have hy' : ∀ p ∈ y, Dict.get? b p.1 = some p.2 := fun p hp => hy _ _ (Dict.get?_of_mem hw hp)
  have hk : ∀ q, (∃ n, Dict.get? y q = some n) ↔ ∃ p ∈ y, p.1 = q := by
    intro q
    rw [← Dict.mem_keys_iff, List.mem_map]
  simp only [hk]
  clear hk hy hw
  unfold orInfo
  induction y generalizing x with
  | nil => exact ⟨hx, fun q => by simp⟩
  | cons p t ih =>
    rw [List.foldl_cons]
    by_cases hp : Dict.has x p.1 = true
    · rw [if_pos hp]
      obtain ⟨i1, i2⟩ := ih x hx fun c hc => hy' c (List.mem_cons_of_mem _ hc)
      refine ⟨i1, fun q => ?_⟩
      rw [i2 q]
      have := Dict.mem_keys_iff.1 (Dict.has_iff.1 hp)
      constructor
      · rintro (h | ⟨c, hc, e⟩)
        · exact .inl h
        · exact .inr ⟨c, List.mem_cons_of_mem _ hc, e⟩
      · rintro (h | ⟨c, hc, e⟩)
        · exact .inl h
        · rcases List.mem_cons.1 hc with rfl | hc
          · rw [← e]
            exact .inl this
          · exact .inr ⟨c, hc, e⟩
    · rw [if_neg hp]
      have h' : SubInfo (Dict.set x p.1 p.2) b := by
        intro q n h
        rw [Dict.get?_set] at h
        split_ifs at h with e
        · rw [← e, ← Option.some.inj h]
          exact hy' p List.mem_cons_self
        · exact hx _ _ h
      obtain ⟨i1, i2⟩ := ih _ h' fun c hc => hy' c (List.mem_cons_of_mem _ hc)
      refine ⟨i1, fun q => ?_⟩
      rw [i2 q]
      have : (∃ n, Dict.get? (Dict.set x p.1 p.2) q = some n) ↔ (∃ n, Dict.get? x q = some n) ∨ p.1 = q := by
        rw [Dict.get?_set]
        by_cases e : p.1 = q
        · simp [e]
        · simp [e]
      rw [this]
      simp only [List.mem_cons, exists_eq_or_imp, or_assoc]

/-! ### The tensor with all allowed blocks -/

theorem entry_replicate [AddCommMonoid K] (F : Flat Q K) (n : Nat) (h : F.data = List.replicate n 0) (x : List (Q × Nat)) : entry (F.toSparse id) x = 0 := by
  refine sum_map_zero' _ _ fun b hb => ?_
  unfold Flat.toSparse at hb
  obtain ⟨p, -, rfl⟩ := List.mem_map.1 hb
  unfold blockEntry
  split_ifs
  · simp only [Arr.ofList, Flat.block, h, pySlice, List.drop_replicate, List.take_replicate]
    rw [List.getD_eq_getElem?_getD, List.getElem?_replicate]
    split_ifs <;> rfl
  · rfl

theorem zeros_spec [AddCommMonoid K] (le : Q → Q → Bool) {infos legs : List (BondInfo Q)} {pattern : List Bool} {dq : Option Q} (hs : List.Forall₂ SubInfo infos legs)
    (hw : ∀ b ∈ infos, Dict.WF b) (hne : ∀ b ∈ infos, b ≠ []) (hl : 2 ≤ infos.length) (hp : pattern.length = infos.length) :
    ∃ F : Flat Q K, zeros le infos pattern dq = some F ∧ F.WellFormed ∧ Conforms legs (F.toSparse id) ∧ F.qs.Nodup ∧
      (∃ n, F.data = List.replicate n 0) ∧
      ∀ q, q ∈ F.qs ↔ (∃ s, IsCombination infos q s) ∧ signedSum pattern q = dq.getD 0 := by
  obtain ⟨l, hsk⟩ := Option.isSome_iff_exists.1 (C10_skeleton_total le infos (some pattern) dq hne)
  have hb := C10_skeleton_blocks le infos (some pattern) dq l hl (by simpa using hp) hw hsk
  have hn := C10_skeleton_nodup le infos (some pattern) dq l hw hsk
  simp only [Option.getD_some] at hb
  refine ⟨_, by unfold zeros; rw [hsk]; rfl, ⟨by simp [Flat.mk'], Flat.offsets_eq _, ?_⟩, ?_, hn, ⟨_, rfl⟩, fun q => ?_⟩
  · simp only [Flat.mk', List.length_replicate, List.map_map]
    rfl
  · rw [Flat.conforms_rows]
    intro r hr
    have hr' : r ∈ l.map fun b => (b.2, b.1) := by
      simp only [Flat.rows, Flat.mk'] at hr
      rwa [List.zip_map'] at hr
    obtain ⟨b, hbm, rfl⟩ := List.mem_map.1 hr'
    exact isCombination_sub hs ((hb b.1 b.2).1 hbm).1
  · simp only [Flat.mk', List.mem_map]
    constructor
    · rintro ⟨b, hbm, rfl⟩
      have := (hb b.1 b.2).1 hbm
      exact ⟨⟨_, this.1⟩, this.2⟩
    · rintro ⟨⟨s, c⟩, e⟩
      exact ⟨(s, q), (hb s q).2 ⟨c, e⟩, rfl⟩

/-! ### From a tensor to a vector -/

theorem Flat.unique_get [AddCommMonoid K] {T : SpT Q K} (h : UniqueLabels T) {b : List Q × Arr K} (hb : b ∈ T) (x : List (Q × Nat)) (e : b.1 = x.map Prod.fst) :
    entry T x = blockEntry b x := by
  unfold entry
  unfold UniqueLabels at h
  induction T with
  | nil => simp at hb
  | cons a t ih =>
    simp only [List.map_cons, List.nodup_cons] at h
    rw [List.map_cons, List.sum_cons]
    rcases List.mem_cons.1 hb with rfl | hb
    · rw [sum_map_zero', add_zero]
      intro c hc
      unfold blockEntry
      rw [if_neg]
      rintro ⟨e', -⟩
      exact h.1 (List.mem_map.2 ⟨c, hc, e'.trans e.symm⟩)
    · rw [ih h.2 hb]
      have : blockEntry a x = 0 := by
        unfold blockEntry
        rw [if_neg]
        rintro ⟨e', -⟩
        exact h.1 (List.mem_map.2 ⟨b, hb, e.trans e'.symm⟩)
      rw [this, zero_add]

/-- The data that `cast_assign` leaves for a block. -/
def castBlock (T : Flat Q K) (e : List Q × List Nat × List K) : List K :=
  match Dict.get? (Flat.blocksMap T.qs) e.1 with
  | none => e.2.2
  | some ia => T.block ia

theorem cast_fold (idxs : List Nat) (T : Flat Q K) (l : List (List Q × List Nat × List K)) (pre : List K) (n : Nat)
    (h0 : ∀ j, j ≤ l.length → idxs.getD (n + j) 0 = pre.length + (((l.map fun e => e.2.2).take j).map List.length).sum)
    (hb : ∀ e ∈ l, ∀ ia, Dict.get? (Flat.blocksMap T.qs) e.1 = some ia → (T.block ia).length = e.2.2.length) :
    ((l.map fun e => e.1).zipIdx n).foldlM (fun (d : List K) (p : List Q × Nat) => match Dict.get? (Flat.blocksMap T.qs) p.1 with
    | none => some d
    | some ia =>
      let n := idxs.getD (p.2 + 1) 0 - idxs.getD p.2 0
      if (T.block ia).length = n then some (sliceAssign d (idxs.getD p.2 0) (T.block ia))
      else if (T.block ia).length = 1 then some (sliceAssign d (idxs.getD p.2 0) ((List.replicate n (T.block ia)).flatten))
      else none) (pre ++ (l.map fun e => e.2.2).flatten) = some (pre ++ (l.map (castBlock T)).flatten) := by
  induction l generalizing pre n with
  | nil => simp
  | cons e t ih =>
    have g0 := h0 0 (by simp)
    have g1 := h0 1 (by simp)
    simp only [List.map_cons, List.take_zero, List.map_nil, List.sum_nil, Nat.add_zero, List.take_succ_cons, List.sum_cons] at g0 g1
    have step : ∀ j, j ≤ t.length → idxs.getD (n + 1 + j) 0 = (pre ++ castBlock T e).length + (((t.map fun e => e.2.2).take j).map List.length).sum := by
      intro j hj
      have := h0 (j + 1) (by simpa using hj)
      simp only [List.map_cons, List.take_succ_cons, List.sum_cons] at this
      have hc : (castBlock T e).length = e.2.2.length := by
        unfold castBlock
        cases hg : Dict.get? (Flat.blocksMap T.qs) e.1 with
        | none => rfl
        | some ia => exact hb e List.mem_cons_self ia hg
      rw [List.length_append, hc, show n + 1 + j = n + (j + 1) by omega, this]
      omega
    have ih' := ih (pre ++ castBlock T e) (n + 1) step fun c hc => hb c (List.mem_cons_of_mem _ hc)
    simp only [List.map_cons, List.flatten_cons, List.zipIdx_cons, List.foldlM_cons]
    rw [← List.append_assoc pre (castBlock T e), ← ih']
    cases hg : Dict.get? (Flat.blocksMap T.qs) e.1 with
    | none =>
      have hc : castBlock T e = e.2.2 := by unfold castBlock; rw [hg]
      rw [hc, List.append_assoc]
      rfl
    | some ia =>
      have hc : castBlock T e = T.block ia := by unfold castBlock; rw [hg]
      have hl := hb e List.mem_cons_self ia hg
      dsimp only
      rw [g0, g1, if_pos (by omega)]
      have : sliceAssign (pre ++ (e.2.2 ++ (t.map fun e => e.2.2).flatten)) pre.length (T.block ia) = pre ++ castBlock T e ++ (t.map fun e => e.2.2).flatten := by
        unfold sliceAssign
        rw [List.take_left, hl, List.drop_append, List.drop_of_length_le (by omega), List.nil_append, Nat.add_sub_cancel_left, List.drop_left, hc]
      rw [this]
      rfl

theorem cast_spec [AddCommMonoid K] {F T : Flat Q K} {legs : List (BondInfo Q)} (wF : F.WellFormed) (nF : F.qs.Nodup) (cF : Conforms legs (F.toSparse id)) (wT : T.WellFormed)
    (cT : Conforms legs (T.toSparse id)) (uT : UniqueLabels (T.toSparse id)) (hz : ∀ x, entry (F.toSparse id) x = 0) :
    ∃ d, FlatFunctor.castAssign F T = some { F with data := d } ∧ d.length = F.data.length ∧ ({ F with data := d } : Flat Q K).WellFormed ∧
      ∀ x, entry (({ F with data := d } : Flat Q K).toSparse id) x = if x.map Prod.fst ∈ F.qs then entry (T.toSparse id) x else 0 := by
  obtain ⟨l, hl, rfl⟩ := Flat.exists_pack wF
  obtain ⟨t, ht, rfl⟩ := Flat.exists_pack wT
  have cF' := cF
  have cT' := cT
  rw [Flat.conforms_rows, Flat.rows_eq rfl] at cF' cT'
  have key : ∀ e ∈ l, ∀ ia, Dict.get? (Flat.blocksMap (Flat.pack t).qs) e.1 = some ia →
      ∃ hi : ia < t.length, t[ia].1 = e.1 ∧ t[ia].2.1 = e.2.1 ∧ (Flat.pack t).block ia = t[ia].2.2 := by
    intro e he ia h
    have h1 := (Flat.blocksMap_spec (Flat.pack t).qs e.1).2 ia h
    simp only [Flat.pack, List.getElem?_map, Option.map_eq_some_iff] at h1
    obtain ⟨c, hc, e1⟩ := h1
    obtain ⟨hi, rfl⟩ := List.getElem?_eq_some_iff.1 hc
    refine ⟨hi, e1, ?_, Flat.pack_block ht ia hi⟩
    have c1 := cF' _ (List.mem_map.2 ⟨e, he, rfl⟩)
    have c2 := cT' _ (List.mem_map.2 ⟨t[ia], List.getElem_mem hi, rfl⟩)
    dsimp only at c1 c2
    rw [e1] at c2
    exact c2.shape_unique c1
  have hlen : ∀ e ∈ l, ∀ ia, Dict.get? (Flat.blocksMap (Flat.pack t).qs) e.1 = some ia → ((Flat.pack t).block ia).length = e.2.2.length := by
    intro e he ia h
    obtain ⟨hi, -, e2, e3⟩ := key e he ia h
    rw [e3, ht _ (List.getElem_mem hi), e2, hl e he]
  have hf := cast_fold (Flat.pack l).idxs (Flat.pack t) l [] 0 (fun j hj => by
    rw [Nat.zero_add, Flat.pack_idxs hl j hj]
    simp) hlen
  have hcl : ∀ e ∈ l, (castBlock (Flat.pack t) e).length = e.2.2.length := by
    intro e he
    unfold castBlock
    cases hg : Dict.get? (Flat.blocksMap (Flat.pack t).qs) e.1 with
    | none => rfl
    | some ia => exact hlen e he ia hg
  have hl' : Flat.Chunked (l.map fun e => (e.1, e.2.1, castBlock (Flat.pack t) e)) := by
    intro e he
    obtain ⟨e', he', rfl⟩ := List.mem_map.1 he
    exact (hcl e' he').trans (hl e' he')
  have hp : ({ Flat.pack l with data := (l.map (castBlock (Flat.pack t))).flatten } : Flat Q K) = Flat.pack (l.map fun e => (e.1, e.2.1, castBlock (Flat.pack t) e)) := by
    simp only [Flat.pack, List.map_map]
    rfl
  refine ⟨(l.map (castBlock (Flat.pack t))).flatten, ?_, ?_, ?_, fun x => ?_⟩
  · exact congrArg (Option.map fun d => ({ Flat.pack l with data := d } : Flat Q K)) hf
  · simp only [Flat.pack, List.length_flatten, List.map_map]
    congr 1
    exact List.map_congr_left fun e he => hcl e he
  · rw [hp]
    exact Flat.pack_wellFormed hl'
  · rw [hp]
    have uF : UniqueLabels ((Flat.pack (l.map fun e => (e.1, e.2.1, castBlock (Flat.pack t) e))).toSparse id) := by
      unfold UniqueLabels
      rw [Flat.labels_toSparse (Flat.pack_wellFormed hl')]
      rw [← hp]
      exact nF
    by_cases hx : x.map Prod.fst ∈ (Flat.pack l).qs
    · rw [if_pos hx]
      obtain ⟨e, he, ex⟩ := List.mem_map.1 hx
      have hm : (e.1.map id, Arr.ofList e.2.1 (castBlock (Flat.pack t) e)) ∈ (Flat.pack (l.map fun e => (e.1, e.2.1, castBlock (Flat.pack t) e))).toSparse id := by
        rw [Flat.toSparse_pack id hl', List.map_map]
        exact List.mem_map.2 ⟨e, he, rfl⟩
      rw [Flat.unique_get uF hm x (by simpa using ex)]
      unfold castBlock
      cases hg : Dict.get? (Flat.blocksMap (Flat.pack t).qs) e.1 with
      | none =>
        have hn := (Flat.blocksMap_spec (Flat.pack t).qs e.1).1.1 hg
        have h0 : entry ((Flat.pack t).toSparse id) x = 0 := by
          refine sum_map_zero' _ _ fun b hb => ?_
          unfold blockEntry
          rw [if_neg]
          rintro ⟨e', -⟩
          apply hn
          rw [← Flat.labels_toSparse wT, ex]
          exact List.mem_map.2 ⟨b, hb, e'⟩
        have hm' : (e.1.map id, Arr.ofList e.2.1 e.2.2) ∈ (Flat.pack l).toSparse id := by
          rw [Flat.toSparse_pack id hl]
          exact List.mem_map.2 ⟨e, he, rfl⟩
        have uL : UniqueLabels ((Flat.pack l).toSparse id) := by
          unfold UniqueLabels
          rw [Flat.labels_toSparse wF]
          exact nF
        dsimp only
        rw [h0, ← Flat.unique_get uL hm' x (by simpa using ex), hz]
      | some ia =>
        obtain ⟨hi, e1, e2, e3⟩ := key e he ia hg
        have hm' : (t[ia].1.map id, Arr.ofList t[ia].2.1 t[ia].2.2) ∈ (Flat.pack t).toSparse id := by
          rw [Flat.toSparse_pack id ht]
          exact List.mem_map.2 ⟨t[ia], List.getElem_mem hi, rfl⟩
        rw [Flat.unique_get uT hm' x (by simpa [e1] using ex)]
        dsimp only
        rw [e3, e1, e2]
    · rw [if_neg hx]
      refine sum_map_zero' _ _ fun b hb => ?_
      unfold blockEntry
      rw [if_neg]
      rintro ⟨e', -⟩
      apply hx
      have : b.1 ∈ (Flat.pack (l.map fun e => (e.1, e.2.1, castBlock (Flat.pack t) e))).qs := by
        rw [← Flat.labels_toSparse (Flat.pack_wellFormed hl')]
        exact List.mem_map.2 ⟨b, hb, rfl⟩
      rw [← e']
      rw [← hp] at this
      exact this

theorem blockEntry_axpy [CommRing K] (q : List Q) (s : List Nat) (c : K) (y z : List K) (h : y.length = z.length) (x : List (Q × Nat)) :
    blockEntry (q, Arr.ofList s (List.zipWith (fun a b => a + c * b) y z)) x = blockEntry (q, Arr.ofList s y) x + c * blockEntry (q, Arr.ofList s z) x := by
  have hz : ∀ i, (List.zipWith (fun a b => a + c * b) y z).getD i 0 = y.getD i 0 + c * z.getD i 0 := by
    intro i
    rw [List.getD_eq_getElem?_getD, List.getD_eq_getElem?_getD, List.getD_eq_getElem?_getD, List.getElem?_zipWith]
    by_cases hi : i < y.length
    · rw [List.getElem?_eq_getElem hi, List.getElem?_eq_getElem (h ▸ hi)]
      simp
    · rw [List.getElem?_eq_none (by omega), List.getElem?_eq_none (by omega)]
      simp
  unfold blockEntry Arr.ofList
  by_cases hc : q = x.map Prod.fst ∧ inBox s (x.map Prod.snd) = true
  · rw [if_pos hc, if_pos hc, if_pos hc]
    exact hz _
  · rw [if_neg hc, if_neg hc, if_neg hc]
    simp

/-- Adding a multiple of a vector. -/
theorem entry_axpy [CommRing K] (F : Flat Q K) (c : K) (y z : List K) (h : y.length = z.length) (x : List (Q × Nat)) :
    entry (({ F with data := List.zipWith (fun a b => a + c * b) y z } : Flat Q K).toSparse id) x =
      entry (({ F with data := y } : Flat Q K).toSparse id) x + c * entry (({ F with data := z } : Flat Q K).toSparse id) x := by
  unfold entry Flat.toSparse
  rw [List.map_map, List.map_map, List.map_map, ← sum_map_mul_left', ← sum_map_add']
  refine sum_map_congr' _ _ _ fun p _ => ?_
  simp only [Function.comp, Flat.block, pySlice]
  rw [List.drop_zipWith, List.take_zipWith]
  exact blockEntry_axpy _ _ _ _ _ (by simp [h]) _

end
end
end Verif
