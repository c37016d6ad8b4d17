import Verif.Proof.Index

/-! Lemmas about entries of block-sparse tensors. -/

set_option linter.unusedSectionVars false

namespace Verif
variable {Q K : Type} [DecidableEq Q]

section entry

@[simp] theorem entry_nil [AddCommMonoid K] (x : List (Q × Nat)) : entry ([] : SpT Q K) x = 0 := rfl

theorem entry_cons [AddCommMonoid K] (b : List Q × Arr K) (T : SpT Q K) (x : List (Q × Nat)) :
    entry (b :: T) x = blockEntry b x + entry T x := by simp [entry]

theorem entry_append [AddCommMonoid K] (S T : SpT Q K) (x : List (Q × Nat)) :
    entry (S ++ T) x = entry S x + entry T x := by simp [entry]

/-- With distinct labels the entry is the one stored in the block with the labels of `x`. -/
theorem entry_of_mem [AddCommMonoid K] {T : SpT Q K} (hT : UniqueLabels T) {b : List Q × Arr K} (hb : b ∈ T)
    {x : List (Q × Nat)} (hx : x.map Prod.fst = b.1) : entry T x = blockEntry b x := by
  induction T with
  | nil => simp at hb
  | cons a t ih =>
    simp only [UniqueLabels, List.map_cons, List.nodup_cons] at hT
    rw [entry_cons]
    rcases List.mem_cons.1 hb with rfl | hb
    · have : entry t x = 0 := by
        apply sum_map_zero'
        intro c hc
        unfold blockEntry
        rw [if_neg]
        rintro ⟨h1, _⟩
        exact hT.1 (List.mem_map.2 ⟨c, hc, by rw [h1, hx]⟩)
      rw [this, add_zero]
    · rw [ih hT.2 hb]
      have : blockEntry a x = 0 := by
        unfold blockEntry
        rw [if_neg]
        rintro ⟨h1, _⟩
        exact hT.1 (List.mem_map.2 ⟨b, hb, by rw [h1, hx]⟩)
      rw [this, zero_add]

theorem entry_of_not_mem [AddCommMonoid K] {T : SpT Q K} {x : List (Q × Nat)}
    (hx : x.map Prod.fst ∉ T.map Prod.fst) : entry T x = 0 := by
  apply sum_map_zero'
  intro c hc
  unfold blockEntry
  rw [if_neg]
  rintro ⟨h1, _⟩
  exact hx (List.mem_map.2 ⟨c, hc, h1⟩)

theorem entry_set [AddCommMonoid K] (m : SpT Q K) (q : List Q) (v : Arr K) (x : List (Q × Nat))
    (h : Dict.get? m q = none) : entry (Dict.set m q v) x = entry m x + blockEntry (q, v) x := by
  rw [Dict.set_of_not_mem m v ((Dict.get?_eq_none_iff m q).1 h), entry_append]
  simp [entry]

theorem entry_replace [AddCommMonoid K] (m : SpT Q K) (q : List Q) (o v w : Arr K) (x : List (Q × Nat))
    (h : Dict.get? m q = some o)
    (hv : blockEntry (q, v) x = blockEntry (q, o) x + blockEntry (q, w) x) :
    entry (Dict.set m q v) x = entry m x + blockEntry (q, w) x := by
  induction m with
  | nil => simp at h
  | cons p t ih =>
    obtain ⟨k, a⟩ := p
    rw [Dict.get?_cons] at h
    simp only [Dict.set]
    split_ifs at h ⊢ with e
    · subst e
      simp only [Option.some.injEq] at h
      subst h
      rw [entry_cons, entry_cons, hv]; abel
    · rw [entry_cons, entry_cons, ih h]; abel

theorem blockEntry_add [AddCommMonoid K] (q : List Q) (o w : Arr K) (h : o.shape = w.shape)
    (x : List (Q × Nat)) :
    blockEntry (q, o.add w) x = blockEntry (q, o) x + blockEntry (q, w) x := by
  unfold blockEntry Arr.add
  simp only [h]
  split_ifs <;> simp

theorem entry_accumulate [AddCommMonoid K] (m : SpT Q K) (q : List Q) (w : Arr K) (x : List (Q × Nat))
    (h : ∀ o, Dict.get? m q = some o → o.shape = w.shape) :
    entry (SpT.accumulate m q w) x = entry m x + blockEntry (q, w) x := by
  unfold SpT.accumulate
  split
  · next hn => exact entry_set m q w x hn
  · next o ho => exact entry_replace m q o _ w x ho (blockEntry_add q o w (h o ho) x)

theorem UniqueLabels.accumulate [Add K] {m : SpT Q K} (h : UniqueLabels m) (q : List Q) (w : Arr K) :
    UniqueLabels (SpT.accumulate m q w) := by
  unfold SpT.accumulate
  split <;> exact Dict.WF.set h _ _

theorem mem_set {m : SpT Q K} {q : List Q} {v : Arr K} {b : List Q × Arr K}
    (h : b ∈ Dict.set m q v) : b ∈ m ∨ b = (q, v) := by
  induction m with
  | nil => simp only [Dict.set, List.mem_singleton] at h; exact Or.inr h
  | cons p t ih =>
    simp only [Dict.set] at h
    split_ifs at h with e
    · rcases List.mem_cons.1 h with h | h
      · subst e; exact Or.inr h
      · exact Or.inl (List.mem_cons_of_mem _ h)
    · rcases List.mem_cons.1 h with h | h
      · exact Or.inl (by rw [h]; exact List.mem_cons_self)
      · rcases ih h with h | h
        · exact Or.inl (List.mem_cons_of_mem _ h)
        · exact Or.inr h

theorem Conforms.set {legs : List (BondInfo Q)} {m : SpT Q K} (h : Conforms legs m) {q : List Q}
    {v : Arr K} (hv : IsCombination legs q v.shape) : Conforms legs (Dict.set m q v) := by
  intro b hb
  rcases mem_set hb with hb | rfl
  · exact h b hb
  · exact hv

theorem Conforms.get {legs : List (BondInfo Q)} {m : SpT Q K} (h : Conforms legs m) {q : List Q} {v : Arr K}
    (hv : Dict.get? m q = some v) : IsCombination legs q v.shape := h _ (Dict.mem_of_get? hv)

theorem Conforms.accumulate [Add K] {legs : List (BondInfo Q)} {m : SpT Q K} (h : Conforms legs m)
    {q : List Q} {v : Arr K} (hv : IsCombination legs q v.shape) :
    Conforms legs (SpT.accumulate m q v) := by
  unfold SpT.accumulate
  split
  · exact h.set hv
  · next o ho =>
    have := h.get ho
    exact h.set (v := o.add v) this

theorem Conforms.cons {legs : List (BondInfo Q)} {b : List Q × Arr K} {T : SpT Q K} :
    Conforms legs (b :: T) ↔ IsCombination legs b.1 b.2.shape ∧ Conforms legs T := by
  simp [Conforms]

theorem Conforms.append {legs : List (BondInfo Q)} {S T : SpT Q K} :
    Conforms legs (S ++ T) ↔ Conforms legs S ∧ Conforms legs T := by
  simp only [Conforms, List.mem_append]
  constructor
  · intro h; exact ⟨fun b hb => h b (Or.inl hb), fun b hb => h b (Or.inr hb)⟩
  · rintro ⟨h1, h2⟩ b (hb | hb)
    · exact h1 b hb
    · exact h2 b hb

/-- Loop of `accumulate` over any list of contributions. -/
theorem foldl_accumulate [AddCommMonoid K] {legs : List (BondInfo Q)} (l : List (List Q × Arr K))
    (m : SpT Q K) (hm : Conforms legs m) (hl : Conforms legs l) (hu : UniqueLabels m) :
    let r := l.foldl (fun m b => SpT.accumulate m b.1 b.2) m
    Conforms legs r ∧ UniqueLabels r ∧ ∀ x, entry r x = entry m x + entry l x := by
  induction l generalizing m with
  | nil => simp [hm, hu]
  | cons b t ih =>
    obtain ⟨hb, ht⟩ := Conforms.cons.1 hl
    have := ih (SpT.accumulate m b.1 b.2) (hm.accumulate hb) ht (hu.accumulate _ _)
    refine ⟨this.1, this.2.1, fun x => ?_⟩
    simp only [List.foldl_cons]
    rw [this.2.2 x, entry_accumulate, entry_cons, add_assoc]
    intro o ho
    exact (hm.get ho).shape_unique hb

theorem foldl_set_append {α β : Type} [DecidableEq α] (m l : Dict α β) (h : Dict.WF (m ++ l)) :
    l.foldl (fun m a => Dict.set m a.1 a.2) m = m ++ l := by
  induction l generalizing m with
  | nil => simp
  | cons a t ih =>
    obtain ⟨k, v⟩ := a
    simp only [List.foldl_cons]
    have hk : k ∉ m.map Prod.fst := by
      unfold Dict.WF at h
      rw [List.map_append, List.nodup_append] at h
      intro hm
      exact h.2.2 k hm k (by simp) rfl
    rw [Dict.set_of_not_mem m v hk, ih _ (by simpa using h)]
    simp

end entry

section td
variable [Zero Q] [CommSemiring K]

theorem get?_collectB (B : SpT Q K) (idxb outb : List Nat) (c : List Q) :
    (Dict.get? (SpT.collectB B idxb outb) c).getD [] =
      (B.filter fun b => pick idxb b.1 = c).map fun b => (b, pick outb b.1) := by
  unfold SpT.collectB
  suffices h : ∀ (m : Dict (List Q) (List ((List Q × Arr K) × List Q))),
      (Dict.get? (B.foldl (fun m blk => Dict.set m (pick idxb blk.1)
        ((Dict.get? m (pick idxb blk.1)).getD [] ++ [(blk, pick outb blk.1)])) m) c).getD [] =
      (Dict.get? m c).getD [] ++ (B.filter fun b => pick idxb b.1 = c).map fun b => (b, pick outb b.1) by
    simpa using h []
  induction B with
  | nil => simp
  | cons b t ih =>
    intro m
    simp only [List.foldl_cons]
    rw [ih, Dict.get?_set]
    by_cases e : pick idxb b.1 = c
    · simp [e]
    · simp [e]

/-- The list of products accumulated by the loop. -/
def contributions (A B : SpT Q K) (idxa idxb outa outb : List Nat) : SpT Q K :=
  A.flatMap fun a => (B.filter fun b => pick idxb b.1 = pick idxa a.1).map fun b =>
    (pick outa a.1 ++ pick outb b.1, a.2.tensordot b.2 idxa idxb outa outb)

theorem tensordotCore_eq (A B : SpT Q K) (idxa idxb outa outb : List Nat) :
    SpT.tensordotCore A B idxa idxb outa outb =
      (contributions A B idxa idxb outa outb).foldl (fun m b => SpT.accumulate m b.1 b.2) [] := by
  unfold SpT.tensordotCore contributions
  generalize ([] : Dict (List Q) (Arr K)) = m
  induction A generalizing m with
  | nil => simp
  | cons a t ih =>
    simp only [List.foldl_cons, List.flatMap_cons, List.foldl_append]
    rw [ih]
    congr 1
    have h := get?_collectB B idxb outb (pick idxa a.1)
    cases hg : Dict.get? (SpT.collectB B idxb outb) (pick idxa a.1) with
    | none =>
      rw [hg] at h
      have h' : B.filter (fun b => pick idxb b.1 = pick idxa a.1) = [] := by
        simpa using h
      simp [h']
    | some l =>
      rw [hg] at h
      simp only [Option.getD_some] at h
      simp only [h, List.foldl_map]

/-- Entry of one product of blocks. -/
theorem pair_entry (legsA legsB legs : List (BondInfo Q)) (hw : ∀ b ∈ legs, Dict.WF b)
    (a b : List Q × Arr K) (idxa idxb : List Nat)
    (ha : IsCombination legsA a.1 a.2.shape) (hb : IsCombination legsB b.1 b.2.shape)
    (hnda : idxa.Nodup) (hndb : idxb.Nodup)
    (hlta : ∀ i ∈ idxa, i < legsA.length) (hltb : ∀ i ∈ idxb, i < legsB.length)
    (hla : pick idxa legsA = legs) (hlb : pick idxb legsB = legs)
    (xa xb : List (Q × Nat)) (hxa : xa.length = (SpT.outAxes legsA.length idxa).length)
    (hxb : xb.length = (SpT.outAxes legsB.length idxb).length) :
    let outa := SpT.outAxes legsA.length idxa
    let outb := SpT.outAxes legsB.length idxb
    ((legIndices legs).map fun c => blockEntry a (unpick (idxa ++ outa) (c ++ xa)) *
      blockEntry b (unpick (idxb ++ outb) (c ++ xb))).sum =
    if pick idxb b.1 = pick idxa a.1 then
      blockEntry (pick outa a.1 ++ pick outb b.1, a.2.tensordot b.2 idxa idxb outa outb) (xa ++ xb)
    else 0 := by
  intro outa outb
  have hpa := idx_out_perm hnda hlta
  have hpb := idx_out_perm hndb hltb
  have hna := perm_range_length hpa
  have hnb := perm_range_length hpb
  have ha1 := ha.lengths
  have hb1 := hb.lengths
  have hlen : ∀ c ∈ legIndices legs, c.length = idxa.length ∧ c.length = idxb.length := by
    intro c hc
    have := (mem_cart _ _).1 hc
    have h := this.length_eq
    simp only [List.length_map] at h
    constructor
    · rw [← h, ← hla, pick_length]
    · rw [← h, ← hlb, pick_length]
  rw [List.length_append] at hna hnb
  -- one factor
  have fac : ∀ (legsX : List (BondInfo Q)) (idx : List Nat) (d : List Q × Arr K) (y c : List (Q × Nat))
      (hp : (idx ++ SpT.outAxes legsX.length idx).Perm (List.range legsX.length))
      (hd : IsCombination legsX d.1 d.2.shape) (hc : c.length = idx.length)
      (hy : y.length = (SpT.outAxes legsX.length idx).length),
      blockEntry d (unpick (idx ++ SpT.outAxes legsX.length idx) (c ++ y)) =
      if (pick idx d.1 = c.map Prod.fst ∧ inBox (pick idx d.2.shape) (c.map Prod.snd) = true) ∧
         (pick (SpT.outAxes legsX.length idx) d.1 = y.map Prod.fst ∧
          inBox (pick (SpT.outAxes legsX.length idx) d.2.shape) (y.map Prod.snd) = true) then
        d.2.get (unpick (idx ++ SpT.outAxes legsX.length idx) (c.map Prod.snd ++ y.map Prod.snd))
      else 0 := by
    intro legsX idx d y c hp hd hc hy
    have hn := perm_range_length hp
    rw [List.length_append] at hn
    unfold blockEntry
    rw [map_unpick Prod.fst rfl, map_unpick Prod.snd rfl]
    have e1 := eq_unpick_iff hp d.1 ((c ++ y).map Prod.fst) hd.lengths.1 (by simp; omega)
    have e2 := inBox_unpick hp d.2.shape ((c ++ y).map Prod.snd) hd.lengths.2 (by simp; omega)
    rw [e2]
    simp only [e1]
    simp only [List.map_append, pick_append]
    rw [inBox_append (by simp [hc])]
    have e3 : (pick idx d.1 ++ pick (SpT.outAxes legsX.length idx) d.1 =
        List.map Prod.fst c ++ List.map Prod.fst y) ↔ (pick idx d.1 = c.map Prod.fst ∧
          pick (SpT.outAxes legsX.length idx) d.1 = y.map Prod.fst) := by
      constructor
      · intro h; exact List.append_inj h (by simp [hc])
      · rintro ⟨h1, h2⟩; rw [h1, h2]
    simp only [e3, Bool.and_eq_true]
    congr 1
    apply propext
    tauto
  have step : ∀ c ∈ legIndices legs, blockEntry a (unpick (idxa ++ outa) (c ++ xa)) *
      blockEntry b (unpick (idxb ++ outb) (c ++ xb)) =
      if pick idxb b.1 = pick idxa a.1 then
        (if pick idxa a.1 = c.map Prod.fst ∧ inBox (pick idxa a.2.shape) (c.map Prod.snd) = true then
          (if (pick outa a.1 = xa.map Prod.fst ∧ inBox (pick outa a.2.shape) (xa.map Prod.snd) = true) ∧
              (pick outb b.1 = xb.map Prod.fst ∧ inBox (pick outb b.2.shape) (xb.map Prod.snd) = true)
            then a.2.get (unpick (idxa ++ outa) (c.map Prod.snd ++ xa.map Prod.snd)) *
              b.2.get (unpick (idxb ++ outb) (c.map Prod.snd ++ xb.map Prod.snd)) else 0) else 0)
      else 0 := by
    intro c hc
    obtain ⟨hc1, hc2⟩ := hlen c hc
    rw [fac legsA idxa a xa c hpa ha hc1 hxa, fac legsB idxb b xb c hpb hb hc2 hxb]
    by_cases e : pick idxb b.1 = pick idxa a.1
    · have hs : pick idxb b.2.shape = pick idxa a.2.shape := by
        have h1 := ha.pick hlta
        have h2 := hb.pick hltb
        rw [hla] at h1
        rw [hlb, e] at h2
        exact h2.shape_unique h1
      rw [if_pos e, e, hs]
      by_cases h1 : pick idxa a.1 = c.map Prod.fst ∧ inBox (pick idxa a.2.shape) (c.map Prod.snd) = true
      · simp only [h1, true_and]
        by_cases h2 : pick outa a.1 = xa.map Prod.fst ∧ inBox (pick outa a.2.shape) (xa.map Prod.snd) = true
        · by_cases h3 : pick outb b.1 = xb.map Prod.fst ∧
            inBox (pick outb b.2.shape) (xb.map Prod.snd) = true
          · simp only [outa, outb] at h2 h3 ⊢
            simp [h2, h3]
          · simp only [outa, outb] at h2 h3 ⊢
            simp only [h2, h3]
            simp
        · simp only [outa, outb] at h2 ⊢
          simp only [h2]
          simp
      · simp [h1]
    · rw [if_neg e]
      by_cases h1 : pick idxa a.1 = c.map Prod.fst
      · have : ¬ pick idxb b.1 = c.map Prod.fst := fun h => e (by rw [h, h1])
        simp [this]
      · simp [h1]
  rw [sum_map_congr' _ _ _ step]
  by_cases e : pick idxb b.1 = pick idxa a.1
  · simp only [if_pos e]
    have hc := ha.pick hlta
    rw [hla] at hc
    rw [legIndices_sum hw hc (fun v =>
      if (pick outa a.1 = xa.map Prod.fst ∧ inBox (pick outa a.2.shape) (xa.map Prod.snd) = true) ∧
         (pick outb b.1 = xb.map Prod.fst ∧ inBox (pick outb b.2.shape) (xb.map Prod.snd) = true)
       then a.2.get (unpick (idxa ++ outa) (v ++ xa.map Prod.snd)) *
         b.2.get (unpick (idxb ++ outb) (v ++ xb.map Prod.snd)) else 0)]
    unfold blockEntry Arr.tensordot
    simp only [List.map_append]
    rw [inBox_append (by simp [hxa, outa])]
    have e3 : (pick outa a.1 ++ pick outb b.1 = List.map Prod.fst xa ++ List.map Prod.fst xb) ↔
        (pick outa a.1 = xa.map Prod.fst ∧ pick outb b.1 = xb.map Prod.fst) := by
      constructor
      · intro h; exact List.append_inj h (by simp [hxa, outa])
      · rintro ⟨h1, h2⟩; rw [h1, h2]
    have hlx : outa.length = (xa.map Prod.snd).length := by simp [hxa, outa]
    simp only [e3, Bool.and_eq_true, hlx, List.take_left', List.drop_left']
    by_cases h : (pick outa a.1 = xa.map Prod.fst ∧ inBox (pick outa a.2.shape) (xa.map Prod.snd) = true) ∧
         (pick outb b.1 = xb.map Prod.fst ∧ inBox (pick outb b.2.shape) (xb.map Prod.snd) = true)
    · rw [if_pos ⟨⟨h.1.1, h.2.1⟩, h.1.2, h.2.2⟩]
      simp only [if_pos h]
    · simp only [if_neg h]
      rw [if_neg (by tauto)]
      simp
  · simp only [if_neg e]
    exact sum_map_zero' _ _ fun _ _ => rfl

end td
end Verif
