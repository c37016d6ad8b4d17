import Verif.Proof.Fusing
import Verif.Spec.Fuse

/-!
Properties C08 and C09: fusing tables.
-/

set_option linter.unusedSectionVars false

namespace Verif
open BondInfo

section
variable {Q : Type} [DecidableEq Q] [AddCommGroup Q]

theorem getD_nil_get? (o : Option (FuseTable Q)) (qs : List Q) :
    Dict.get? (o.getD []) qs = o.bind fun t => Dict.get? t qs := by
  cases o <;> simp

theorem window_eq (fi : BondFusingInfo Q) (q : Q) :
    fi.window q = BondFusingInfo.tableWin ((Dict.get? fi.finfo q).getD []) := by
  funext qs
  simp [BondFusingInfo.window, BondFusingInfo.tableWin, getD_nil_get?]

theorem isCombination_iff (infos : List (BondInfo Q)) (h : ∀ b ∈ infos, Dict.WF b)
    (x : List (Q × Nat)) :
    List.Forall₂ (fun l y => y ∈ l) infos x ↔
      IsCombination infos (x.map Prod.fst) (x.map Prod.snd) := by
  induction infos generalizing x with
  | nil =>
    constructor
    · intro hx; cases hx; exact .nil
    · intro hx
      cases x with
      | nil => exact .nil
      | cons a t => cases hx
  | cons b bs ih =>
    have ih := ih (fun b' hb' => h b' (List.mem_cons_of_mem _ hb'))
    constructor
    · intro hx
      cases hx with
      | cons h1 h2 =>
        exact .cons (Dict.get?_of_mem (h b List.mem_cons_self) h1) ((ih _).1 h2)
    · intro hx
      cases x with
      | nil => cases hx
      | cons a t =>
        cases hx with
        | cons h1 h2 => exact .cons (Dict.mem_of_get? h1) ((ih t).2 h2)

theorem mem_items (le : Q → Q → Bool) (infos : List (BondInfo Q)) (h : ∀ b ∈ infos, Dict.WF b)
    (qs : List Q) (shs : List Nat) :
    (qs, shs) ∈ (cart (infos.map fun q => sortBy (fun x y => le x.1 y.1) q)).map
      (fun x => (x.map Prod.fst, x.map Prod.snd)) ↔ IsCombination infos qs shs := by
  have hf : ∀ x : List (Q × Nat),
      List.Forall₂ (fun l y => y ∈ l) (infos.map fun q => sortBy (fun x y => le x.1 y.1) q) x ↔
      List.Forall₂ (fun l y => y ∈ l) infos x := by
    intro x
    rw [List.forall₂_map_left_iff]
    have : (fun (a : BondInfo Q) (c : Q × Nat) => c ∈ sortBy (fun x y => le x.1 y.1) a) =
        fun a c => c ∈ a := by
      funext a c; simp [mem_sortBy]
    rw [this]
  simp only [List.mem_map, mem_cart, hf]
  constructor
  · rintro ⟨x, hx, e⟩
    have := (isCombination_iff infos h x).1 hx
    simp only [Prod.mk.injEq] at e
    rw [← e.1, ← e.2]; exact this
  · intro hc
    have hlen : qs.length = shs.length := by
      induction hc with
      | nil => rfl
      | cons _ _ ih => simp [ih (fun b hb => h b (List.mem_cons_of_mem _ hb)) (by
          intro x
          rw [List.forall₂_map_left_iff]
          have : (fun (a : BondInfo Q) (c : Q × Nat) => c ∈ sortBy (fun x y => le x.1 y.1) a) =
              fun a c => c ∈ a := by
            funext a c; simp [mem_sortBy]
          rw [this])]
    have h1 : (qs.zip shs).map Prod.fst = qs := by
      rw [List.map_fst_zip]; omega
    have h2 : (qs.zip shs).map Prod.snd = shs := by
      rw [List.map_snd_zip]; omega
    refine ⟨qs.zip shs, (isCombination_iff infos h _).2 ?_, by rw [h1, h2]⟩
    rw [h1, h2]; exact hc

theorem items_nodup (le : Q → Q → Bool) (infos : List (BondInfo Q)) (h : ∀ b ∈ infos, Dict.WF b) :
    (((cart (infos.map fun q => sortBy (fun x y => le x.1 y.1) q)).map
      (fun x => (x.map Prod.fst, x.map Prod.snd))).map Prod.fst).Nodup := by
  rw [List.map_map]
  have : (Prod.fst ∘ fun x : List (Q × Nat) => (x.map Prod.fst, x.map Prod.snd)) = List.map Prod.fst :=
    rfl
  rw [this, cart_map]
  apply cart_nodup
  intro l hl
  rw [List.map_map] at hl
  obtain ⟨b, hb, rfl⟩ := List.mem_map.1 hl
  have hp : (sortBy (fun x y => le x.1 y.1) b).Perm b := sortBy_perm _ _
  exact (hp.map Prod.fst).nodup_iff.2 (h b hb)

theorem tensorProduct_inv (le : Q → Q → Bool) (infos : List (BondInfo Q)) (ref : Option (BondInfo Q))
    (pattern : Option (List Bool)) (fi : BondFusingInfo Q) (h : ∀ b ∈ infos, Dict.WF b)
    (hfi : BondFusingInfo.tensorProduct le infos ref pattern = some fi) :
    fi.pattern = pattern.getD (List.replicate infos.length true) ∧
    BondFusingInfo.Inv (fun q => ref.all fun r => Dict.has r q) fi.pattern
      ((cart (infos.map fun q => sortBy (fun x y => le x.1 y.1) q)).map
        (fun x => (x.map Prod.fst, x.map Prod.snd))) (fi.quanta, fi.finfo) := by
  unfold BondFusingInfo.tensorProduct at hfi
  split_ifs at hfi
  simp only [Option.some.injEq, List.length_map] at hfi
  subst hfi
  refine ⟨rfl, ?_⟩
  have := BondFusingInfo.Inv.foldl (ref := ref)
    (pattern := pattern.getD (List.replicate infos.length true))
    ((cart (infos.map fun q => sortBy (fun x y => le x.1 y.1) q)).map
        (fun x => (x.map Prod.fst, x.map Prod.snd))) [] ([], []) BondFusingInfo.Inv.nil
    (by simpa using items_nodup le infos h)
  simpa using this

/-- C08: in every fused sector the windows of the label combinations tile the fused dimension:
every position has exactly one owner and no window sticks out. -/
theorem C08_tiles (le : Q → Q → Bool) (infos : List (BondInfo Q)) (ref : Option (BondInfo Q))
    (pattern : Option (List Bool)) (fi : BondFusingInfo Q) (h : ∀ b ∈ infos, Dict.WF b)
    (hfi : BondFusingInfo.tensorProduct le infos ref pattern = some fi) (q : Q) :
    Tiles (fi.window q) (Counter.count fi.quanta q) := by
  rw [window_eq]
  exact (tensorProduct_inv le infos ref pattern fi h hfi).2.tiles q

/-- C08: the sector `q` has a window exactly for the combinations of labels whose signed sum is `q`
(and `q` is in the reference, if given), and the recorded shape is the list of multiplicities. -/
theorem C08_entries (le : Q → Q → Bool) (infos : List (BondInfo Q)) (ref : Option (BondInfo Q))
    (pattern : Option (List Bool)) (fi : BondFusingInfo Q) (h : ∀ b ∈ infos, Dict.WF b)
    (hfi : BondFusingInfo.tensorProduct le infos ref pattern = some fi)
    (q : Q) (qs : List Q) (shs : List Nat) :
    fi.shapeOf q qs = some shs ↔
      IsCombination infos qs shs ∧
      signedSum (pattern.getD (List.replicate infos.length true)) qs = q ∧
      (∀ r ∈ ref, q ∈ Dict.keys r) := by
  obtain ⟨hp, inv⟩ := tensorProduct_inv le infos ref pattern fi h hfi
  have hok : (ref.all fun r => Dict.has r q) = true ↔ ∀ r ∈ ref, q ∈ Dict.keys r := by
    cases ref with
    | none => simp
    | some r => simp [Dict.has_iff, Dict.keys]
  rw [← hok, ← hp, ← mem_items le infos h, ← BondFusingInfo.combine_eq]
  unfold BondFusingInfo.shapeOf
  rw [← getD_nil_get?]
  constructor
  · intro hs
    rw [Option.map_eq_some_iff] at hs
    obtain ⟨⟨k, sh⟩, h1, rfl⟩ := hs
    exact inv.sound q qs k sh h1
  · rintro ⟨h1, rfl, h3⟩
    obtain ⟨k, hk⟩ := inv.complete qs shs h1 h3
    rw [hk]; rfl

/-- C08: without a reference the total fused dimension is the product of the dimensions. -/
theorem C08_dim (le : Q → Q → Bool) (infos : List (BondInfo Q)) (pattern : Option (List Bool))
    (fi : BondFusingInfo Q)
    (hfi : BondFusingInfo.tensorProduct le infos none pattern = some fi) :
    nBonds fi.quanta = (infos.map nBonds).prod := by
  unfold BondFusingInfo.tensorProduct at hfi
  split_ifs at hfi
  simp only [Option.some.injEq] at hfi
  subst hfi
  simp only [nBonds]
  rw [BondFusingInfo.sum_addWindow]
  simp only [List.map_map, Dict.values, List.map_nil, List.sum_nil, Nat.zero_add]
  have : ((fun x : List Q × List Nat => x.2.prod) ∘ fun x : List (Q × Nat) =>
      (x.map Prod.fst, x.map Prod.snd)) = List.prod ∘ List.map Prod.snd := rfl
  rw [this, ← List.map_map, cart_map, sum_prod_cart, List.map_map, List.map_map]
  congr 1
  apply List.map_congr_left
  intro b _
  simp only [Function.comp]
  exact ((sortBy_perm _ b).map Prod.snd).sum_eq

/-- C08: the construction succeeds whenever no bond is empty. -/
theorem C08_total (le : Q → Q → Bool) (infos : List (BondInfo Q)) (ref : Option (BondInfo Q))
    (pattern : Option (List Bool)) (h : ∀ b ∈ infos, b ≠ []) :
    (BondFusingInfo.tensorProduct le infos ref pattern).isSome := by
  unfold BondFusingInfo.tensorProduct
  rw [if_neg]
  · rfl
  · simpa [List.any_eq_true] using fun hm => h [] hm rfl

/-- C09: windows built from the blocks that occur tile every fused sector. -/
theorem C09_tiles (leL : List Q → List Q → Bool) (items : List (List Q × List Nat))
    (ref : Option (BondInfo Q)) (pattern : List Bool) (fi : BondFusingInfo Q)
    (hfi : BondFusingInfo.kronSum leL items ref pattern = some fi) (q : Q) :
    Tiles (fi.window q) (Counter.count fi.quanta q) := by
  rw [window_eq]
  unfold BondFusingInfo.kronSum at hfi
  split at hfi
  · simp at hfi
  · next st hst =>
    simp only [Option.some.injEq] at hfi
    subst hfi
    obtain ⟨hwf, hs, hn⟩ := BondFusingInfo.collect_spec ref pattern items
    have := BondFusingInfo.sumTables_some leL _ _ st hwf (by simp) hst q
    cases hc : Dict.get? (BondFusingInfo.collect ref pattern items) q with
    | none =>
      obtain ⟨h1, h2⟩ := this.1 hc
      simp only [Dict.get?_nil, Counter.count_nil] at h1 h2
      simp only [h1, h2, Option.getD_none]
      exact Tiles.empty
    | some v =>
      obtain ⟨t, h1, h2⟩ := this.2 v hc
      simp only [h1, Option.getD_some]
      exact (BondFusingInfo.sumTable_some _ 0 [] _ t Tiles.empty h2).1

/-- C09: exactly the combinations that occur (with an allowed fused label) have a window; repeated
items share one entry. -/
theorem C09_entries (leL : List Q → List Q → Bool) (items : List (List Q × List Nat))
    (ref : Option (BondInfo Q)) (pattern : List Bool) (fi : BondFusingInfo Q)
    (hfi : BondFusingInfo.kronSum leL items ref pattern = some fi)
    (q : Q) (qs : List Q) (shs : List Nat) :
    fi.shapeOf q qs = some shs ↔
      (qs, shs) ∈ items ∧ signedSum pattern qs = q ∧ (∀ r ∈ ref, q ∈ Dict.keys r) := by
  have hok : (ref.all fun r => Dict.has r q) = true ↔ ∀ r ∈ ref, q ∈ Dict.keys r := by
    cases ref with
    | none => simp
    | some r => simp [Dict.has_iff, Dict.keys]
  rw [← hok, ← BondFusingInfo.combine_eq]
  unfold BondFusingInfo.kronSum at hfi
  split at hfi
  · simp at hfi
  · next st hst =>
    simp only [Option.some.injEq] at hfi
    subst hfi
    obtain ⟨hwf, hs, hn⟩ := BondFusingInfo.collect_spec ref pattern items
    have := BondFusingInfo.sumTables_some leL _ _ st hwf (by simp) hst q
    unfold BondFusingInfo.shapeOf
    cases hc : Dict.get? (BondFusingInfo.collect ref pattern items) q with
    | none =>
      obtain ⟨h1, h2⟩ := this.1 hc
      simp only [Dict.get?_nil] at h1
      simp only [h1]
      constructor
      · intro h; simp at h
      · rintro ⟨a, b, c⟩
        exact absurd ⟨b, c⟩ (hn q hc (qs, shs) a)
    | some v =>
      obtain ⟨t, h1, h2⟩ := this.2 v hc
      have ht := (BondFusingInfo.sumTable_some _ 0 [] _ t Tiles.empty h2).2 qs shs
      rw [mem_sortBy, hs q v hc] at ht
      simp only [Dict.get?_nil, reduceCtorEq, exists_false, false_or] at ht
      rw [← ht]
      simp only [h1, Option.bind_some, Option.map_eq_some_iff, Prod.exists, exists_eq_right]

/-- C09: the construction is rejected exactly when two items give the same (allowed) labels
different shapes. -/
theorem C09_reject_iff (leL : List Q → List Q → Bool) (items : List (List Q × List Nat))
    (ref : Option (BondInfo Q)) (pattern : List Bool) :
    BondFusingInfo.kronSum leL items ref pattern = none ↔
      ∃ qs s s', s ≠ s' ∧ (qs, s) ∈ items ∧ (qs, s') ∈ items ∧
        (∀ r ∈ ref, signedSum pattern qs ∈ Dict.keys r) := by
  constructor
  · intro h
    unfold BondFusingInfo.kronSum at h
    split at h
    · next hst =>
      obtain ⟨hwf, hs, hn⟩ := BondFusingInfo.collect_spec ref pattern items
      obtain ⟨q, v, n, hv, hnone⟩ := BondFusingInfo.sumTables_none leL _ _ hst
      have hv' := Dict.get?_of_mem hwf hv
      obtain ⟨qs, s, s', hne, h1, h2⟩ := BondFusingInfo.sumTable_none _ _ _ hnone
      rw [mem_sortBy, hs q v hv'] at h1
      simp only [Dict.get?_nil, reduceCtorEq, exists_false, or_false] at h2
      rw [mem_sortBy, hs q v hv'] at h2
      refine ⟨qs, s, s', hne, h1.1, h2.1, ?_⟩
      rw [← BondFusingInfo.combine_eq, h1.2.1]
      have := h1.2.2
      cases ref with
      | none => simp
      | some r => simpa [Dict.has_iff, Dict.keys] using this
    · simp at h
  · rintro ⟨qs, s, s', hne, h1, h2, h3⟩
    cases hk : BondFusingInfo.kronSum leL items ref pattern with
    | none => rfl
    | some fi =>
      have e1 := (C09_entries leL items ref pattern fi hk _ qs s).2 ⟨h1, rfl, h3⟩
      have e2 := (C09_entries leL items ref pattern fi hk _ qs s').2 ⟨h2, rfl, h3⟩
      rw [e1] at e2
      exact absurd (Option.some.inj e2) hne

end

/-! C09 for lowering the symmetry. -/

section
variable {H L : Type} [DecidableEq H] [DecidableEq L]

theorem symmetryFusingInfo_inv (symmMap : H → L) (rest done : List (H × Nat))
    (st : BondInfo L × Dict L (Dict H (Nat × Nat)))
    (hnd : ((done ++ rest).map Prod.fst).Nodup)
    (ht : ∀ q, Tiles (fun k => Dict.get? ((Dict.get? st.2 q).getD []) k) (Counter.count st.1 q))
    (he : ∀ q k v, (∃ s, Dict.get? ((Dict.get? st.2 q).getD []) k = some (s, v)) ↔
      (k, v) ∈ done ∧ symmMap k = q) :
    let st' := rest.foldl (fun st (x : H × Nat) =>
      (Counter.incr st.1 (symmMap x.1) x.2,
        Dict.set st.2 (symmMap x.1) (Dict.set ((Dict.get? st.2 (symmMap x.1)).getD []) x.1
          (Counter.count st.1 (symmMap x.1), x.2)))) st
    (∀ q, Tiles (fun k => Dict.get? ((Dict.get? st'.2 q).getD []) k) (Counter.count st'.1 q)) ∧
    (∀ q k v, (∃ s, Dict.get? ((Dict.get? st'.2 q).getD []) k = some (s, v)) ↔
      (k, v) ∈ done ++ rest ∧ symmMap k = q) := by
  induction rest generalizing done st with
  | nil => simpa using ⟨ht, he⟩
  | cons x rest ih =>
    obtain ⟨k0, v0⟩ := x
    simp only [List.foldl_cons]
    have hk0 : k0 ∉ done.map Prod.fst := by
      rw [List.map_append, List.nodup_append] at hnd
      intro hm
      exact hnd.2.2 _ hm k0 (by simp) rfl
    have hnone : Dict.get? ((Dict.get? st.2 (symmMap k0)).getD []) k0 = none := by
      cases hh : Dict.get? ((Dict.get? st.2 (symmMap k0)).getD []) k0 with
      | none => rfl
      | some e =>
        exact absurd (List.mem_map.2 ⟨(k0, e.2), ((he (symmMap k0) k0 e.2).1 ⟨e.1, hh⟩).1, rfl⟩) hk0
    have := ih (done ++ [(k0, v0)]) (Counter.incr st.1 (symmMap k0) v0,
        Dict.set st.2 (symmMap k0) (Dict.set ((Dict.get? st.2 (symmMap k0)).getD []) k0
          (Counter.count st.1 (symmMap k0), v0))) (by simpa using hnd) ?_ ?_
    · simpa using this
    · intro q
      simp only [Dict.get?_set, Counter.count_incr]
      by_cases e : symmMap k0 = q
      · subst e
        simp only [if_true, Option.getD_some]
        refine Tiles.extend (ht (symmMap k0)) k0 hnone ?_
        intro d
        rw [Dict.get?_set]
      · simp only [if_neg e, Nat.add_zero]; exact ht q
    · intro q k v
      simp only [Dict.get?_set]
      by_cases e : symmMap k0 = q
      · subst e
        simp only [if_true, Option.getD_some, Dict.get?_set]
        by_cases e2 : k0 = k
        · subst e2
          simp only [if_true, Option.some.injEq, Prod.mk.injEq, List.mem_append, List.mem_singleton,
            true_and, and_true]
          have : (k0, v) ∉ done := fun hm => hk0 (List.mem_map.2 ⟨_, hm, rfl⟩)
          simp only [this, false_or]
          exact ⟨fun ⟨_, _, h⟩ => h.symm, fun h => ⟨_, rfl, h.symm⟩⟩
        · rw [if_neg e2, he, List.mem_append, List.mem_singleton, Prod.mk.injEq]
          simp [Ne.symm e2]
      · rw [if_neg e, he, List.mem_append, List.mem_singleton, Prod.mk.injEq]
        constructor
        · rintro ⟨h1, h2⟩; exact ⟨Or.inl h1, h2⟩
        · rintro ⟨h1 | ⟨rfl, _⟩, h2⟩
          · exact ⟨h1, h2⟩
          · exact absurd h2 e

/-- C09 for lowering the symmetry: inside every low-symmetry sector the high-symmetry sectors mapped to it
tile, each with its own multiplicity. -/
theorem C09_symmetry (le : H → H → Bool) (info : BondInfo H) (hinfo : Dict.WF info) (symmMap : H → L)
    (q : L) :
    let r := symmetryFusingInfo le info symmMap
    Tiles (fun k => (Dict.get? r.2 q).bind fun t => Dict.get? t k) (Counter.count r.1 q) ∧
    ∀ k v, (∃ s, ((Dict.get? r.2 q).bind fun t => Dict.get? t k) = some (s, v)) ↔
      Dict.get? info k = some v ∧ symmMap k = q := by
  have hp : (sortBy (fun x y => le x.1 y.1) info).Perm info := sortBy_perm _ _
  have := symmetryFusingInfo_inv symmMap (sortBy (fun x y => le x.1 y.1) info) [] ([], [])
    (by simpa using (hp.map Prod.fst).nodup_iff.2 hinfo) (fun q => Tiles.empty) (by simp)
  have e : ∀ (o : Option (Dict H (Nat × Nat))) k,
      Dict.get? (o.getD []) k = o.bind fun t => Dict.get? t k := by
    intro o k; cases o <;> simp
  simp only [e, List.nil_append, mem_sortBy, ← Dict.get?_iff_mem hinfo] at this
  exact ⟨this.1 q, this.2 q⟩

end

/-- A fusing table with two combinations in the sector 1: hypotheses of C08 hold, two windows. -/
example :
    let b : BondInfo Int := [(0, 2), (1, 3)]
    let fi := (BondFusingInfo.tensorProduct (fun x y => decide (x ≤ y)) [b, b] none none)
    (∀ x ∈ [b, b], Dict.WF x) ∧
    fi.map (fun f => (Counter.count f.quanta 1, f.window 1 [0, 1], f.window 1 [1, 0])) =
      some (12, some (0, 6), some (6, 6)) := by decide

example : (BondFusingInfo.kronSum (Q := Int) (fun x y => decide (x ≤ y))
    [([1, 0], [3, 2]), ([0, 1], [2, 3]), ([1, 0], [3, 2])] none [true, true]).map
      (fun f => (Counter.count f.quanta 1, f.window 1 [0, 1], f.window 1 [1, 0])) =
      some (12, some (0, 6), some (6, 6)) := by decide

end Verif
