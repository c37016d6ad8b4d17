import Verif.Proof.Ravel
import Verif.Proof.Sparse

/-! Lemmas for fusing and unfusing legs. -/

set_option linter.unusedSectionVars false

namespace Verif
open SpT

section lists
variable {α : Type} [Zero α]

/-- Legs after `m` that are not fused. -/
def restAxes (n : Nat) (idxs : List Nat) (m : Nat) : List Nat :=
  (List.range n).filter fun i => decide (m < i ∧ i ∉ idxs)

theorem mem_restAxes {n m i : Nat} {idxs : List Nat} :
    i ∈ restAxes n idxs m ↔ i < n ∧ m < i ∧ i ∉ idxs := by simp [restAxes]

theorem range_split {n m : Nat} (h : m < n) :
    List.range n = List.range m ++ m :: (List.range (n - m - 1)).map (m + 1 + ·) := by
  obtain ⟨d, rfl⟩ : ∃ d, n = m + 1 + d := ⟨n - m - 1, by omega⟩
  have : m + 1 + d - m - 1 = d := by omega
  rw [this, List.range_add, List.range_succ, List.append_assoc]; rfl

theorem restAxes_split {n m : Nat} {idxs : List Nat} (h : m < n) :
    restAxes n idxs m = ((List.range (n - m - 1)).map (m + 1 + ·)).filter fun i => decide (i ∉ idxs) := by
  unfold restAxes
  rw [range_split h, List.filter_append, List.filter_eq_nil_iff.2, List.nil_append, List.filter_cons_of_neg]
  · apply List.filter_congr
    intro a ha
    obtain ⟨i, _, rfl⟩ := List.mem_map.1 ha
    have : m < m + 1 + i := by omega
    simp [this]
  · simp
  · intro a ha
    simp only [List.mem_range] at ha
    simp; omega

structure FuseAxes (n : Nat) (idxs : List Nat) (m : Nat) : Prop where
  mem : m ∈ idxs
  le : ∀ i ∈ idxs, m ≤ i
  lt : ∀ i ∈ idxs, i < n
  nodup : idxs.Nodup

theorem newPerm_eq {n m : Nat} {idxs : List Nat} (h : FuseAxes n idxs m) :
    newPerm n idxs (idxs.filter (· != m)) m = List.range m ++ idxs ++ restAxes n idxs m := by
  have hm := h.lt m h.mem
  unfold newPerm
  rw [range_split hm, List.flatMap_append, List.flatMap_cons, restAxes_split hm, List.append_assoc]
  congr 1
  · rw [show List.range m = (List.range m).flatMap (fun i => [i]) by simp]
    simp only [List.flatMap_assoc]
    simp only [List.flatMap_cons, List.flatMap_nil, List.append_nil]
    rw [List.flatMap_congr]
    intro i hi
    simp only [List.mem_range] at hi
    have h1 : i ∉ idxs.filter (· != m) := by
      intro hc
      have := h.le i (List.mem_of_mem_filter hc)
      omega
    rw [if_neg h1, if_pos (by omega)]
  · congr 1
    · simp
    · generalize (List.range (n - m - 1)) = l
      induction l with
      | nil => simp
      | cons i t ih =>
        simp only [List.map_cons, List.flatMap_cons, ih]
        by_cases hc : m + 1 + i ∈ idxs
        · rw [if_pos (by simp [hc]; omega), List.filter_cons_of_neg (by simpa using hc)]; simp
        · rw [if_neg (by simp [hc]), if_pos (by omega), List.filter_cons_of_pos (by simpa using hc)]; simp

theorem newPerm_perm {n m : Nat} {idxs : List Nat} (h : FuseAxes n idxs m) :
    (List.range m ++ idxs ++ restAxes n idxs m).Perm (List.range n) := by
  have hm := h.lt m h.mem
  rw [List.perm_ext_iff_of_nodup]
  · intro a
    simp only [List.mem_append, List.mem_range, mem_restAxes]
    constructor
    · rintro ((h1 | h1) | h1)
      · omega
      · exact h.lt a h1
      · exact h1.1
    · intro ha
      by_cases h1 : a ∈ idxs
      · exact Or.inl (Or.inr h1)
      · by_cases h2 : a < m
        · exact Or.inl (Or.inl h2)
        · refine Or.inr ⟨ha, ?_, h1⟩
          have : a ≠ m := fun e => h1 (e ▸ h.mem)
          omega
  · rw [List.nodup_append, List.nodup_append]
    refine ⟨⟨List.nodup_range, h.nodup, ?_⟩, List.nodup_range.filter _, ?_⟩
    · intro a ha b hb e
      subst e
      have := h.le a hb
      simp only [List.mem_range] at ha
      omega
    · intro a ha b hb e
      subst e
      rw [mem_restAxes] at hb
      simp only [List.mem_append, List.mem_range] at ha
      rcases ha with ha | ha
      · omega
      · exact hb.2.2 ha
  · exact List.nodup_range

theorem newLegs_eq {m : Nat} {idxs : List Nat} (xs : List α) (h : FuseAxes xs.length idxs m) (v : α) :
    newLegs xs (idxs.filter (· != m)) m v =
      pick (List.range m) xs ++ v :: pick (restAxes xs.length idxs m) xs := by
  have hm := h.lt m h.mem
  unfold newLegs
  rw [restAxes_split hm]
  conv_lhs => rw [range_split hm]
  rw [List.filter_append, List.map_append]
  congr 1
  · rw [List.filter_eq_self.2]
    · apply List.map_congr_left
      intro i hi
      simp only [List.mem_range] at hi
      rw [if_pos (by omega)]
    · intro i hi
      simp only [List.mem_range] at hi
      simp only [Bool.not_eq_true', List.contains_eq_mem, decide_eq_false_iff_not, List.mem_filter, not_and]
      intro hc
      have := h.le i hc
      omega
  · rw [List.filter_cons_of_pos (by simp), List.map_cons]
    congr 1
    · simp
    · generalize (List.range (xs.length - m - 1)) = l
      unfold pick
      induction l with
      | nil => simp
      | cons i t ih =>
        rw [List.map_cons]
        have hne : m + 1 + i ≠ m := by omega
        by_cases hc : m + 1 + i ∈ idxs
        · rw [List.filter_cons_of_neg (by simp [hc, hne]), List.filter_cons_of_neg (by simpa using hc)]
          exact ih
        · rw [List.filter_cons_of_pos (by simp [hc]), List.filter_cons_of_pos (by simpa using hc),
            List.map_cons, List.map_cons, ih, if_pos hne]

theorem pick_range_take (m : Nat) (xs : List α) (h : m ≤ xs.length) : pick (List.range m) xs = xs.take m := by
  apply List.ext_getElem
  · simp [h]
  · intro i h1 h2
    have : i < m := by simpa using h1
    simp [pick, List.getD_eq_getElem?_getD, show i < xs.length by omega]

end lists

section gaps
variable {K : Type} [AddCommMonoid K]

theorem getD_set_self (l : List Nat) (m v : Nat) (h : m < l.length) : (l.set m v).getD m 0 = v := by
  simp [List.getD_eq_getElem?_getD, h]

theorem set_getD_self (l : List Nat) (m : Nat) (h : m < l.length) : l.set m (l.getD m 0) = l := by
  apply List.ext_getElem
  · simp
  · intro i h1 h2
    by_cases e : m = i
    · subst e; simp [List.getD_eq_getElem?_getD, h]
    · simp [e]

/-- Value of one piece at absolute position `p` along axis `m`. -/
def pieceAt (m : Nat) (g : Nat × Nat × Arr K) (p : Nat) (ix : List Nat) : K :=
  if g.1 ≤ p ∧ p < g.1 + g.2.1 then g.2.2.get (ix.set m (p - g.1)) else 0

theorem concatGet_fillGaps (m : Nat) (full : List Nat) (hm : m < full.length)
    (l : List (Nat × Nat × Arr K)) (ik : Nat) (ix : List Nat) (hix : m < ix.length)
    (hp : ik + ix.getD m 0 < full.getD m 0)
    (hk : ∀ g ∈ l, ik ≤ g.1) (hs : l.Pairwise fun a b => a.1 + a.2.1 ≤ b.1)
    (hsh : ∀ g ∈ l, g.2.2.shape.getD m 0 = g.2.1) :
    Arr.concatGet m (fillGaps m full l ik) ix =
      (l.map fun g => pieceAt m g (ik + ix.getD m 0) ix).sum := by
  induction l generalizing ik ix with
  | nil =>
    simp only [fillGaps, List.map_nil, List.sum_nil]
    split_ifs
    · simp [Arr.concatGet, Arr.zeros]
    · rfl
  | cons g gs ih =>
    have hs' := List.pairwise_cons.1 hs
    have hshg := hsh g List.mem_cons_self
    have hkg := hk g List.mem_cons_self
    -- the part starting with the piece itself
    have main : ∀ (jx : List Nat), m < jx.length → g.1 + jx.getD m 0 < full.getD m 0 →
        Arr.concatGet m (g.2.2 :: fillGaps m full gs (g.1 + g.2.1)) jx =
          ((g :: gs).map fun h => pieceAt m h (g.1 + jx.getD m 0) jx).sum := by
      intro jx hjx hpj
      simp only [Arr.concatGet, hshg, List.map_cons, List.sum_cons]
      split_ifs with hlt
      · have h0 : (gs.map fun h => pieceAt m h (g.1 + jx.getD m 0) jx).sum = 0 := by
          apply sum_map_zero'
          intro h hh
          have := hs'.1 h hh
          unfold pieceAt
          rw [if_neg (by omega)]
        rw [h0, add_zero]
        unfold pieceAt
        rw [if_pos ⟨by omega, by omega⟩, Nat.add_sub_cancel_left, set_getD_self _ _ hjx]
      · have hz : pieceAt m g (g.1 + jx.getD m 0) jx = 0 := by
          unfold pieceAt
          rw [if_neg (by omega)]
        rw [hz, zero_add]
        have e1 : (jx.set m (jx.getD m 0 - g.2.1)).getD m 0 = jx.getD m 0 - g.2.1 :=
          getD_set_self _ _ _ hjx
        rw [ih (g.1 + g.2.1) (jx.set m (jx.getD m 0 - g.2.1)) (by simpa using hjx)
          (by rw [e1]; omega) (fun h hh => by have := hs'.1 h hh; omega) hs'.2
          (fun h hh => hsh h (List.mem_cons_of_mem _ hh))]
        rw [e1]
        have e2 : g.1 + g.2.1 + (jx.getD m 0 - g.2.1) = g.1 + jx.getD m 0 := by omega
        rw [e2]
        apply sum_map_congr'
        intro h _
        unfold pieceAt
        rw [List.set_set]
    simp only [fillGaps]
    split_ifs with he
    · have := main ix hix (by omega)
      rw [he] at this
      exact this
    · have hlt : ik < g.1 := by omega
      have e0 : ik + (g.2.1 + g.1 - ik) = g.1 + g.2.1 := by omega
      rw [e0, Arr.concatGet]
      have ez : (Arr.zeros (full.set m (g.1 - ik)) : Arr K).shape.getD m 0 = g.1 - ik :=
        getD_set_self _ _ _ hm
      rw [ez]
      split_ifs with h1
      · simp only [Arr.zeros]
        symm
        apply sum_map_zero'
        intro h hh
        unfold pieceAt
        have : g.1 ≤ h.1 := by
          rcases List.mem_cons.1 hh with rfl | hh
          · exact Nat.le_refl _
          · have := hs'.1 h hh; omega
        rw [if_neg (by omega)]
      · have e1 : (ix.set m (ix.getD m 0 - (g.1 - ik))).getD m 0 = ix.getD m 0 - (g.1 - ik) :=
          getD_set_self _ _ _ hix
        have := main (ix.set m (ix.getD m 0 - (g.1 - ik))) (by simpa using hix) (by rw [e1]; omega)
        rw [this, e1]
        have e2 : g.1 + (ix.getD m 0 - (g.1 - ik)) = ik + ix.getD m 0 := by omega
        rw [e2]
        apply sum_map_congr'
        intro h _
        unfold pieceAt
        rw [List.set_set]

theorem fillGaps_dims (m : Nat) (full : List Nat) (hm : m < full.length)
    (l : List (Nat × Nat × Arr K)) (ik : Nat) (hik : ik ≤ full.getD m 0)
    (hk : ∀ g ∈ l, ik ≤ g.1) (hs : l.Pairwise fun a b => a.1 + a.2.1 ≤ b.1)
    (hin : ∀ g ∈ l, g.1 + g.2.1 ≤ full.getD m 0)
    (hsh : ∀ g ∈ l, g.2.2.shape.getD m 0 = g.2.1) :
    ((fillGaps m full l ik).map fun a => a.shape.getD m 0).sum = full.getD m 0 - ik := by
  induction l generalizing ik with
  | nil =>
    simp only [fillGaps]
    split_ifs with h
    · simp only [List.map_cons, List.map_nil, List.sum_cons, List.sum_nil, Arr.zeros,
        getD_set_self _ _ _ hm, add_zero]
    · simp only [ne_eq, not_not] at h; simp [h]
  | cons g gs ih =>
    have hs' := List.pairwise_cons.1 hs
    have hshg := hsh g List.mem_cons_self
    have hkg := hk g List.mem_cons_self
    have hig := hin g List.mem_cons_self
    have := ih (g.1 + g.2.1) hig (fun h hh => hs'.1 h hh) hs'.2
      (fun h hh => hin h (List.mem_cons_of_mem _ hh)) (fun h hh => hsh h (List.mem_cons_of_mem _ hh))
    simp only [fillGaps]
    split_ifs with he
    · rw [← he]
      simp only [List.map_cons, List.sum_cons, hshg, this]
      omega
    · have e0 : ik + (g.2.1 + g.1 - ik) = g.1 + g.2.1 := by omega
      rw [e0]
      simp only [List.map_cons, List.sum_cons, hshg, this, Arr.zeros, getD_set_self _ _ _ hm]
      omega

theorem fillGaps_shape (m : Nat) (full : List Nat)
    (l : List (Nat × Nat × Arr K)) (ik : Nat)
    (hsh : ∀ g ∈ l, ∀ v, g.2.2.shape.set m v = full.set m v) :
    ∀ a ∈ fillGaps m full l ik, ∀ v, a.shape.set m v = full.set m v := by
  induction l generalizing ik with
  | nil =>
    intro a ha v
    simp only [fillGaps] at ha
    split_ifs at ha
    · simp only [List.mem_singleton] at ha
      subst ha; simp [Arr.zeros]
    · simp at ha
  | cons g gs ih =>
    have hg := hsh g List.mem_cons_self
    have hr := fun k => ih k (fun h hh => hsh h (List.mem_cons_of_mem _ hh))
    intro a ha v
    simp only [fillGaps] at ha
    split_ifs at ha
    · rcases List.mem_cons.1 ha with rfl | ha
      · exact hg v
      · exact hr _ a ha v
    · rcases List.mem_cons.1 ha with rfl | ha
      · simp [Arr.zeros]
      · rcases List.mem_cons.1 ha with rfl | ha
        · exact hg v
        · exact hr _ a ha v

theorem concat_shape (m : Nat) (full : List Nat) (hm : m < full.length)
    (l : List (Nat × Nat × Arr K)) (hl : l ≠ [])
    (hs : l.Pairwise fun a b => a.1 + a.2.1 ≤ b.1)
    (hin : ∀ g ∈ l, g.1 + g.2.1 ≤ full.getD m 0)
    (hsh : ∀ g ∈ l, g.2.2.shape.getD m 0 = g.2.1)
    (hsh2 : ∀ g ∈ l, ∀ v, g.2.2.shape.set m v = full.set m v) :
    (Arr.concat m (fillGaps m full l 0)).shape = full := by
  unfold Arr.concat
  simp only
  rw [fillGaps_dims m full hm l 0 (Nat.zero_le _) (fun _ _ => Nat.zero_le _) hs hin hsh]
  have hne : fillGaps m full l 0 ≠ [] := by
    cases l with
    | nil => simp at hl
    | cons g gs =>
      simp only [fillGaps]
      split_ifs <;> simp
  obtain ⟨a, t, he⟩ := List.exists_cons_of_ne_nil hne
  have hmem : a ∈ fillGaps m full l 0 := by rw [he]; exact List.mem_cons_self
  have h := fillGaps_shape m full l 0 hsh2 a hmem
  rw [he]
  simp only [List.head?_cons, Option.map_some, Option.getD_some, Nat.sub_zero]
  rw [h, set_getD_self _ _ hm]

end gaps

section collect
variable {Q K : Type} [DecidableEq Q]

theorem collectPieces_spec (ps : List (FusePiece Q K)) :
    Dict.WF (collectPieces ps) ∧ ∀ key, Dict.get? (collectPieces ps) key =
      ((ps.filter fun p => p.key = key).head?).map fun p =>
        (p.full, (ps.filter fun p => p.key = key).map fun p => (p.k, p.nk, p.arr)) := by
  unfold collectPieces
  suffices h : ∀ (done rest : List (FusePiece Q K)) (d : Dict (List Q) (List Nat × List (Nat × Nat × Arr K))),
      (Dict.WF d ∧ ∀ key, Dict.get? d key =
      ((done.filter fun p => p.key = key).head?).map fun p =>
        (p.full, (done.filter fun p => p.key = key).map fun p => (p.k, p.nk, p.arr))) →
      let r := rest.foldl (fun m p => match Dict.get? m p.key with
        | none => Dict.set m p.key (p.full, [(p.k, p.nk, p.arr)])
        | some (full, l) => Dict.set m p.key (full, l ++ [(p.k, p.nk, p.arr)])) d
      (Dict.WF r ∧ ∀ key, Dict.get? r key =
      (((done ++ rest).filter fun p => p.key = key).head?).map fun p =>
        (p.full, ((done ++ rest).filter fun p => p.key = key).map fun p => (p.k, p.nk, p.arr))) by
    have := h [] ps [] ⟨Dict.WF.nil, by simp⟩
    simp only [List.nil_append] at this
    exact this
  intro done rest
  induction rest generalizing done with
  | nil => intro d hd; simpa using hd
  | cons p t ih =>
    intro d hd
    have := ih (done ++ [p]) (match Dict.get? d p.key with
        | none => Dict.set d p.key (p.full, [(p.k, p.nk, p.arr)])
        | some (full, l) => Dict.set d p.key (full, l ++ [(p.k, p.nk, p.arr)])) ?_
    · simpa using this
    · constructor
      · split <;> exact Dict.WF.set hd.1 _ _
      · intro key
        have hk := hd.2 p.key
        by_cases e : p.key = key
        · subst e
          rw [List.filter_append]
          simp only [decide_true, List.filter_cons_of_pos, List.filter_nil]
          cases hf : done.filter (fun x => decide (x.key = p.key)) with
          | nil => rw [hf] at hk; simp at hk; simp [hk]
          | cons a l => rw [hf] at hk; simp at hk; simp [hk]
        · rw [List.filter_append]
          simp only [e, decide_false, Bool.false_eq_true, not_false_eq_true, List.filter_cons_of_neg,
            List.filter_nil, List.append_nil]
          split <;> rw [Dict.get?_set_ne _ e, hd.2 key]

theorem mapM_some_eq {α β : Type} (f : α → Option (Option β)) (l : List α) (r : List (Option β))
    (h : l.mapM f = some r) : (∀ a ∈ l, (f a).isSome) ∧ r = l.map fun a => (f a).getD none := by
  induction l generalizing r with
  | nil => simp at h; simp [h]
  | cons a t ih =>
    rw [List.mapM_cons] at h
    cases hf : f a with
    | none => simp [hf] at h
    | some v =>
      cases ht : t.mapM f with
      | none => simp [hf, ht] at h
      | some w =>
        simp [hf, ht] at h
        obtain ⟨h1, h2⟩ := ih w ht
        subst h
        refine ⟨?_, by simp [hf, h2]⟩
        intro b hb
        rcases List.mem_cons.1 hb with rfl | hb
        · simp [hf]
        · exact h1 b hb

theorem mapM_isSome {α β : Type} (f : α → Option β) (l : List α) (h : ∀ a ∈ l, (f a).isSome) :
    (l.mapM f).isSome := by
  induction l with
  | nil => simp
  | cons a t ih =>
    rw [List.mapM_cons]
    have ha := h a List.mem_cons_self
    have ht := ih fun b hb => h b (List.mem_cons_of_mem _ hb)
    obtain ⟨v, hv⟩ := Option.isSome_iff_exists.1 ha
    obtain ⟨w, hw⟩ := Option.isSome_iff_exists.1 ht
    simp [hv, hw]

end collect
end Verif
