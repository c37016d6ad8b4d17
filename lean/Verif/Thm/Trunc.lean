import Verif.Proof.Trunc

/-! C22: truncation of singular values. -/

set_option linter.unusedSectionVars false

namespace Verif
section
variable {Q K V : Type} [DecidableEq Q] [AddCommGroup Q] [CommRing K] [CommRing V] [LinearOrder V] [IsStrictOrderedRing V]

theorem gs_labels {s : SpT Q V} (hs : ValueBlocks s) {T D : List (SV V)} (hp : (T ++ D).Perm (SpT.singularValues s)) :
    (groupRuns (sortPlaces T)).map (fun g => ((SpT.svBlock s g.1).1, g.2)) = keptGroups (keepOf s T) (valueBond s) := by
  rw [groups_eq hs.good.1 hp, List.map_filterMap]
  unfold keptGroups
  rw [valueBond_eq, List.filterMap_map]
  congr 1
  funext i
  simp only [Function.comp]
  by_cases h : keptAt (keepOf s T) (SpT.svBlock s i).1 (svSize s i) = [] <;> simp [h]

theorem keepLeft_eq (s : SpT Q V) (gs : List (Nat × List Nat)) (l : SpT Q K) :
    SpT.keepLeft s gs l = keepBy (keyOf true) (fun g b => (b.1, pickSide true g b.2)) (gs.map fun g => ((SpT.svBlock s g.1).1, g.2)) l := by
  induction gs generalizing l with
  | nil => rfl
  | cons g gs ih => rw [SpT.keepLeft, List.map_cons, keepBy, ih]; rfl

theorem keepRight_eq (s : SpT Q V) (gs : List (Nat × List Nat)) (l : SpT Q K) :
    SpT.keepRight s gs l = keepBy (keyOf false) (fun g b => (b.1, pickSide false g b.2)) (gs.map fun g => ((SpT.svBlock s g.1).1, g.2)) l := by
  induction gs generalizing l with
  | nil => rfl
  | cons g gs ih => rw [SpT.keepRight, List.map_cons, keepBy, ih]; rfl

theorem filter_unique {α β : Type} [DecidableEq β] (f : α → β) {l : List α} (h : (l.map f).Nodup) {b : α} (hb : b ∈ l) :
    l.filter (fun x => decide (f x = f b)) = [b] := by
  induction l with
  | nil => simp at hb
  | cons a l ih =>
    rw [List.map_cons, List.nodup_cons] at h
    by_cases e : f a = f b
    · have : a = b := by
        rcases List.mem_cons.1 hb with h' | h'
        · exact h'.symm
        · exact absurd (e ▸ List.mem_map_of_mem h') h.1
      subst this
      rw [List.filter_cons_of_pos (by simp), List.filter_eq_nil_iff.2]
      intro x hx
      simp
      intro e'
      exact h.1 (e' ▸ List.mem_map_of_mem hx)
    · rw [List.filter_cons_of_neg (by simpa using e)]
      rcases List.mem_cons.1 hb with h' | h'
      · subst h'; exact absurd rfl e
      · exact ih h.2 h'

theorem keepValues_eq {s : SpT Q V} (hs : ValueBlocks s) {T D : List (SV V)} (hp : (T ++ D).Perm (SpT.singularValues s)) :
    SpT.keepValues s (groupRuns (sortPlaces T)) = cutTo false (keepOf s T) (valueBond s) s := by
  unfold SpT.keepValues cutTo keptGroups
  rw [groups_eq hs.good.1 hp, List.map_filterMap, valueBond_eq, List.filterMap_map]
  rw [List.flatMap_def, List.map_filterMap]
  have : ∀ is : List Nat, (∀ i ∈ is, i < s.length) →
      (is.filterMap fun i => Option.map (fun g : Nat × List Nat => (([(SpT.svBlock s g.1).1], (SpT.svBlock s g.1).2.pickFirst g.2) : List Q × Arr V))
        (if keptAt (keepOf s T) (SpT.svBlock s i).1 (svSize s i) = [] then none else some (i, keptAt (keepOf s T) (SpT.svBlock s i).1 (svSize s i)))) =
      (is.filterMap fun i => Option.map (fun g : Q × List Nat => (s.filter fun b => decide (keyOf false b = g.1)).map fun b => ((b.1, pickSide false g.2 b.2) : List Q × Arr V))
        (((fun x : Q × Nat => if keptAt (keepOf s T) x.1 x.2 = [] then none else some (x.1, keptAt (keepOf s T) x.1 x.2)) ∘ fun i => ((SpT.svBlock s i).1, svSize s i)) i)).flatten := by
    intro is his
    induction is with
    | nil => rfl
    | cons i is ih =>
      have ih := ih (fun j hj => his j (by simp [hj]))
      have hi := his i (by simp)
      rw [List.filterMap_cons, List.filterMap_cons]
      simp only [Function.comp] at ih ⊢
      by_cases h : keptAt (keepOf s T) (SpT.svBlock s i).1 (svSize s i) = []
      · simp only [h, if_true, Option.map_none]
        exact ih
      · simp only [h, if_false, Option.map_some, List.flatten_cons]
        rw [ih]
        obtain ⟨hm, _⟩ := hs.svBlock_mem hi
        have hkeys : (s.map (keyOf false)).Nodup := by
          have hw := hs.good.1
          unfold Dict.WF valueBond at hw
          rw [List.map_map] at hw
          have e : s.map (keyOf false) = s.map (Prod.fst ∘ fun b => (b.1.headD 0, b.2.shape.headD 0)) := by
            apply List.map_congr_left
            intro b _
            obtain ⟨b1, b2⟩ := b
            cases b1 <;> simp [keyOf]
          rw [e]
          exact hw
        have hf := filter_unique (keyOf false) hkeys hm
        rw [show keyOf false (([(SpT.svBlock s i).1], (SpT.svBlock s i).2) : List Q × Arr V) = (SpT.svBlock s i).1 from rfl] at hf
        rw [hf]
        simp [pickSide]
  exact this _ (fun i hi => by simpa using hi)

/-- The result of picking the blocks, for any set of kept values. -/
theorem restricted_of {l r : SpT Q K} {s : SpT Q V} {legsL legsR : List (BondInfo Q)} {big : Arr K → Bool} (hs : ValueBlocks s)
    (hl : Conforms (legsL ++ [valueBond s]) l) (hr : Conforms (valueBond s :: legsR) r)
    (hlo : SortedBy ((valueBond s).map Prod.fst) (fun b => b.1.getLastD 0) l) (hro : SortedBy ((valueBond s).map Prod.fst) (fun b => b.1.getD 0 0) r)
    (hbig : RemovesZeros big) {T D : List (SV V)} (hp : (T ++ D).Perm (SpT.singularValues s)) :
    Restricted (keepOf s T) (valueBond s) legsL legsR l s r (SpT.deflate big (SpT.keepLeft s (groupRuns (sortPlaces T)) l))
      (SpT.keepValues s (groupRuns (sortPlaces T))) (SpT.deflate big (SpT.keepRight s (groupRuns (sortPlaces T)) r)) := by
  have el : SpT.keepLeft s (groupRuns (sortPlaces T)) l = cutTo true (keepOf s T) (valueBond s) l := by
    rw [keepLeft_eq, gs_labels hs hp]
    exact keepBy_sorted (keyOf true) _ hlo hs.good.1 _ (keptGroups_keys _ _)
  have er : SpT.keepRight s (groupRuns (sortPlaces T)) r = cutTo false (keepOf s T) (valueBond s) r := by
    rw [keepRight_eq, gs_labels hs hp]
    exact keepBy_sorted (keyOf false) _ hro hs.good.1 _ (keptGroups_keys _ _)
  have hsc : Conforms (join false [] (valueBond s)) s := by
    intro b hb
    obtain ⟨q, hq⟩ := List.length_eq_one_iff.1 (hs.label b hb)
    obtain ⟨n, hn⟩ := List.length_eq_one_iff.1 (hs.axis b hb)
    rw [hq, hn]
    refine .cons (Dict.get?_of_mem hs.good.1 ?_) .nil
    refine List.mem_map.2 ⟨b, hb, ?_⟩
    simp [hq, hn]
  rw [el, er, keepValues_eq hs hp]
  refine ⟨deflate_conforms (cutTo_conforms (s := true) hs.good hl), cutTo_conforms (s := false) (legs := []) hs.good hsc,
    deflate_conforms (cutTo_conforms (s := false) hs.good hr), ?_, ?_, ?_⟩
  · intro x hx z hz
    rw [deflate_entry hbig]
    exact cutTo_entry (s := true) hs.good hl x hx z hz
  · intro z hz
    exact cutTo_entry (s := false) (legs := []) hs.good hsc [] rfl z hz
  · intro y hy z hz
    rw [deflate_entry hbig]
    exact cutTo_entry (s := false) hs.good hr y hy z hz

/-! ### Statements about the basis vectors of the bond from statements about the sorted list -/

theorem basis_value {s : SpT Q V} {z : Q × Nat} (hz : z ∈ legBasis (valueBond s)) :
    ∃ x ∈ SpT.singularValues s, svPlace s x = z := by
  rw [legBasis_values] at hz
  exact List.mem_map.1 hz

theorem count_kept {s : SpT Q V} (hs : ValueBlocks s) {T D : List (SV V)} (hp : (T ++ D).Perm (SpT.singularValues s)) :
    ((legBasis (valueBond s)).filter (keepOf s T)).length = T.length := by
  rw [legBasis_values, List.filter_map, List.length_map]
  exact (kept_perm hs.good.1 hp).length_eq.symm

theorem basis_length (s : SpT Q V) : (legBasis (valueBond s)).length = (SpT.singularValues s).length := by
  rw [legBasis_values, List.length_map]

theorem dropped_weight (w : V → V) {s : SpT Q V} (hs : ValueBlocks s) {T D : List (SV V)} (hp : (T ++ D).Perm (SpT.singularValues s)) :
    (((legBasis (valueBond s)).filter fun z => !keepOf s T z).map fun z => w (entry s [z])).sum = (D.map fun x => w x.val).sum := by
  rw [legBasis_values, List.filter_map, List.map_map]
  refine Eq.trans ?_ ((dropped_perm hs.good.1 hp).map fun x => w x.val).sum_eq.symm
  apply sum_map_congr'
  intro x hx
  simp only [Function.comp]
  rw [hs.entry (List.mem_filter.1 hx).1]

theorem weight_mono (o : TruncOpts V) {u v : V} (hu : 0 ≤ u) (h : u ≤ v) : o.weight u ≤ o.weight v := by
  unfold TruncOpts.weight
  split
  · exact h
  · exact mul_self_le_mul_self hu h

/-- C22: `truncate_svd` of a decomposition `l`, `s`, `r` whose blocks come in the order of the blocks of `s` (as `left_svd` and `right_svd` return
them).  There is a set of kept basis vectors of the bond such that

* the three results are the old ones restricted to the kept basis vectors,
* the returned error is the weight of the dropped ones,
* no dropped value is larger than a kept one,
* at most `max_bond_dim` values are kept, exactly `min(max_bond_dim, all)` if it is the only criterion, and all if there is no criterion,
* no kept value is below the cutoff, and exactly those are dropped if it is the only criterion,
* if `max_dw` is the only criterion and at least one value can be dropped, then the error is at most `max_dw` and no further value could be
  dropped; but if no value can be dropped, then **all** values are dropped. -/
theorem C22_truncate (o : TruncOpts V) (sqrt : V → V) (big : Arr K → Bool) (l : SpT Q K) (s : SpT Q V) (r : SpT Q K)
    (legsL legsR : List (BondInfo Q)) (hs : ValueBlocks s) (hl : Conforms (legsL ++ [valueBond s]) l) (hr : Conforms (valueBond s :: legsR) r)
    (hlo : SortedBy ((valueBond s).map Prod.fst) (fun b => b.1.getLastD 0) l) (hro : SortedBy ((valueBond s).map Prod.fst) (fun b => b.1.getD 0 0) r)
    (hbig : RemovesZeros big) :
    ∃ keep : Q × Nat → Bool,
      Restricted keep (valueBond s) legsL legsR l s r (SpT.truncateSvd o sqrt big l s r).l (SpT.truncateSvd o sqrt big l s r).s
        (SpT.truncateSvd o sqrt big l s r).r ∧
      (SpT.truncateSvd o sqrt big l s r).error = (((legBasis (valueBond s)).filter fun z => !keep z).map fun z => o.weight (entry s [z])).sum ∧
      (∀ z ∈ legBasis (valueBond s), ∀ z' ∈ legBasis (valueBond s), keep z = true → keep z' = false → entry s [z'] ≤ entry s [z]) ∧
      (0 ≤ o.maxBondDim → ((legBasis (valueBond s)).filter keep).length ≤ o.maxBondDim.toNat) ∧
      (o.maxDw = 0 → o.cutoff = 0 → 0 ≤ o.maxBondDim →
        ((legBasis (valueBond s)).filter keep).length = min o.maxBondDim.toNat (legBasis (valueBond s)).length) ∧
      (o.maxDw = 0 → o.cutoff = 0 → o.maxBondDim = -1 → ∀ z ∈ legBasis (valueBond s), keep z = true) ∧
      (o.cutoff ≠ 0 → ∀ z ∈ legBasis (valueBond s), keep z = true → (if o.eigenValues then o.cutoff else sqrt o.cutoff) ≤ entry s [z]) ∧
      (o.maxDw = 0 → o.cutoff ≠ 0 → o.maxBondDim = -1 →
        ∀ z ∈ legBasis (valueBond s), (if o.eigenValues then o.cutoff else sqrt o.cutoff) ≤ entry s [z] → keep z = true) ∧
      (o.maxDw ≠ 0 → o.cutoff = 0 → o.maxBondDim = -1 → (∀ z ∈ legBasis (valueBond s), 0 ≤ entry s [z]) →
        ((∃ z ∈ legBasis (valueBond s), o.weight (entry s [z]) ≤ o.maxDw) →
          (SpT.truncateSvd o sqrt big l s r).error ≤ o.maxDw ∧
          ∀ z ∈ legBasis (valueBond s), keep z = true → o.maxDw < (SpT.truncateSvd o sqrt big l s r).error + o.weight (entry s [z])) ∧
        ((∀ z ∈ legBasis (valueBond s), o.maxDw < o.weight (entry s [z])) → ∀ z ∈ legBasis (valueBond s), keep z = false)) := by
  let S := sortValues (SpT.singularValues s)
  have hS : Descending S := sortValues_descending _
  have hSp : S.Perm (SpT.singularValues s) := sortValues_perm _
  obtain ⟨n, hn, he, k1, k2, k3, k4, k5, k6⟩ := stages_eq S hS (decide (o.maxDw ≠ 0)) (dwCount o.weight o.maxDw 0 S.reverse)
    (if o.cutoff ≠ 0 then some (if o.eigenValues then o.cutoff else sqrt o.cutoff) else none) o.maxBondDim
  have hp : (S.take n ++ S.drop n).Perm (SpT.singularValues s) := by rw [List.take_append_drop]; exact hSp
  have hsel : truncSelect o sqrt (SpT.singularValues s) = sortPlaces (S.take n) := by
    unfold truncSelect
    simp only
    rw [← he]
    congr 1
    by_cases h1 : o.maxDw = 0 <;> by_cases h2 : o.cutoff = 0 <;> simp [h1, h2, S]
  have hw := hs.good.1
  have hTm : ∀ x ∈ S.take n, x ∈ SpT.singularValues s := fun x hx => hSp.mem_iff.1 (List.mem_of_mem_take hx)
  have hDm : ∀ x ∈ S.drop n, x ∈ SpT.singularValues s := fun x hx => hSp.mem_iff.1 (List.mem_of_mem_drop hx)
  have hkT : ∀ x ∈ SpT.singularValues s, (keepOf s (S.take n) (svPlace s x) = true ↔ x ∈ S.take n) := fun x hx => keepOf_iff hw hTm hx
  have hkD : ∀ x ∈ SpT.singularValues s, keepOf s (S.take n) (svPlace s x) = false → x ∈ S.drop n := by
    intro x hx hk
    rcases List.mem_append.1 (hp.mem_iff.2 hx) with h | h
    · rw [(hkT x hx).2 h] at hk; cases hk
    · exact h
  have herr : (SpT.truncateSvd o sqrt big l s r).error =
      (((legBasis (valueBond s)).filter fun z => !keepOf s (S.take n) z).map fun z => o.weight (entry s [z])).sum := by
    unfold SpT.truncateSvd
    simp only
    rw [hsel, truncError_eq o.weight hs hp]
  have herr' := herr.trans (dropped_weight o.weight hs hp)
  refine ⟨keepOf s (S.take n), ?_, herr, ?_, ?_, ?_, ?_, ?_, ?_, ?_⟩
  · have := restricted_of hs hl hr hlo hro hbig hp
    unfold SpT.truncateSvd
    simp only
    rw [hsel]
    exact this
  · intro z hz z' hz' h1 h2
    obtain ⟨x, hx, rfl⟩ := basis_value hz
    obtain ⟨x', hx', rfl⟩ := basis_value hz'
    rw [hs.entry hx, hs.entry hx']
    have hd : Descending (S.take n ++ S.drop n) := by rw [List.take_append_drop]; exact hS
    exact (List.pairwise_append.1 hd).2.2 x ((hkT x hx).1 h1) x' (hkD x' hx' h2)
  · intro hk
    rw [count_kept hs hp, List.length_take]
    have := k1 hk
    omega
  · intro h1 h2 h3
    rw [count_kept hs hp, List.length_take, basis_length, ← hSp.length_eq]
    have := k3 (by simpa using h1) (by simp [h2]) h3
    omega
  · intro h1 h2 h3 z hz
    obtain ⟨x, hx, rfl⟩ := basis_value hz
    have := k4 (by simpa using h1) (by simp [h2]) h3
    rw [hkT x hx, this, List.take_length]
    exact hSp.mem_iff.2 hx
  · intro h1 z hz hk
    obtain ⟨x, hx, rfl⟩ := basis_value hz
    rw [hs.entry hx]
    exact k2 _ (by rw [if_pos h1]) x ((hkT x hx).1 hk)
  · intro h1 h2 h3 z hz hk
    obtain ⟨x, hx, rfl⟩ := basis_value hz
    rw [hs.entry hx] at hk
    by_contra hn
    have := k5 (by simpa using h1) h3 _ (by rw [if_pos h2]) x (hkD x hx (by simpa using hn))
    exact absurd hk (not_le.2 this)
  · intro h1 h2 h3 hpos
    have hn' := k6 (by simpa using h1) (by simp [h2]) h3
    obtain ⟨d1, d2, d3⟩ := dwCount_spec o.weight o.maxDw 0 S.reverse
    simp only [zero_add] at d2 d3
    rw [List.length_reverse] at d1 d3
    have hval : ∀ x ∈ S, 0 ≤ x.val := by
      intro x hx
      have hx' := hSp.mem_iff.1 hx
      have := hpos (svPlace s x) (by rw [legBasis_values]; exact List.mem_map_of_mem hx')
      rwa [hs.entry hx'] at this
    constructor
    · rintro ⟨z, hz, hzw⟩
      obtain ⟨x, hx, rfl⟩ := basis_value hz
      rw [hs.entry hx] at hzw
      have hxS : x ∈ S := hSp.mem_iff.2 hx
      have hp0 : 0 < dwCount o.weight o.maxDw 0 S.reverse := by
        rcases hSr : S.reverse with _ | ⟨y, ys⟩
        · rw [List.reverse_eq_nil_iff] at hSr
          rw [hSr] at hxS
          simp at hxS
        · have hSy : S = ys.reverse ++ [y] := by
            have := congrArg List.reverse hSr
            simpa using this
          have hyS : y ∈ S := by rw [hSy]; simp
          have hle : y.val ≤ x.val := by
            rw [hSy] at hxS hS
            rcases List.mem_append.1 hxS with h | h
            · exact (List.pairwise_append.1 hS).2.2 x h y (by simp)
            · simp at h; rw [h]
          have := le_trans (weight_mono o (hval y hyS) hle) hzw
          rw [dwCount, if_pos (by simpa using this)]
          omega
      rw [if_neg (by omega)] at hn'
      have hDl : (S.drop n).length = dwCount o.weight o.maxDw 0 S.reverse := by
        rw [List.length_drop]; omega
      have hrev : S.reverse = (S.drop n).reverse ++ (S.take n).reverse := by
        rw [← List.reverse_append, List.take_append_drop]
      have htake : S.reverse.take (dwCount o.weight o.maxDw 0 S.reverse) = (S.drop n).reverse := by
        conv_lhs => rw [hrev, ← hrev]
        rw [← hDl]
        conv_lhs => rw [hrev]
        rw [List.take_append_of_le_length (by simp), List.take_of_length_le (by simp)]
      have hsum : ((S.reverse.take (dwCount o.weight o.maxDw 0 S.reverse)).map fun x => o.weight x.val).sum = ((S.drop n).map fun x => o.weight x.val).sum := by
        rw [htake]
        exact ((List.reverse_perm _).map _).sum_eq
      refine ⟨?_, ?_⟩
      · rw [herr', ← hsum]
        exact d2 hp0
      · intro z' hz' hk
        obtain ⟨x', hx', rfl⟩ := basis_value hz'
        rw [hs.entry hx']
        have hxT := (hkT x' hx').1 hk
        have hTne : S.take n ≠ [] := by intro e; rw [e] at hxT; simp at hxT
        obtain ⟨T0, y, hT0⟩ : ∃ T0 y, S.take n = T0 ++ [y] := ⟨_, _, (List.dropLast_append_getLast hTne).symm⟩
        have hnpos : 0 < n := by
          rcases Nat.eq_zero_or_pos n with h | h
          · rw [h] at hTne; simp at hTne
          · exact h
        have hlt := d3 (by omega)
        have htake' : S.reverse.take (dwCount o.weight o.maxDw 0 S.reverse + 1) = (S.drop n).reverse ++ [y] := by
          rw [← hDl]
          conv_lhs => rw [hrev]
          rw [hT0, List.take_append]
          simp
        rw [htake'] at hlt
        rw [List.map_append, List.sum_append, ((List.reverse_perm (S.drop n)).map _).sum_eq] at hlt
        simp only [List.map_cons, List.map_nil, List.sum_cons, List.sum_nil, add_zero] at hlt
        have hyS : y ∈ S := List.mem_of_mem_take (i := n) (by rw [hT0]; simp)
        have hle : y.val ≤ x'.val := by
          have hd := hS.take n
          rw [hT0] at hd hxT
          rcases List.mem_append.1 hxT with h | h
          · exact (List.pairwise_append.1 hd).2.2 x' h y (by simp)
          · simp at h; rw [h]
        rw [herr']
        exact lt_of_lt_of_le hlt (by have := weight_mono o (hval y hyS) hle; simpa using this)
    · intro hall z hz
      have hp0 : dwCount o.weight o.maxDw 0 S.reverse = 0 := by
        rcases hSr : S.reverse with _ | ⟨y, ys⟩
        · rfl
        · have hyS : y ∈ S := by
            have : y ∈ S.reverse := by rw [hSr]; simp
            simpa using this
          have hy' := hSp.mem_iff.1 hyS
          have := hall (svPlace s y) (by rw [legBasis_values]; exact List.mem_map_of_mem hy')
          rw [hs.entry hy'] at this
          rw [dwCount, if_neg (by simpa using this)]
      rw [if_pos hp0] at hn'
      rw [hn']
      simp [keepOf]

/-! ### The truncated product -/

/-- C22: the product of the truncated factors is the sum over the kept basis vectors; `c` turns a singular value into a number. -/
theorem C22_product (c : V → K) {keep : Q × Nat → Bool} {m : BondInfo Q} (hm : GoodBond m) {legsL legsR : List (BondInfo Q)}
    {l r l' r' : SpT Q K} {s s' : SpT Q V} (h : Restricted keep m legsL legsR l s r l' s' r') (x y : List (Q × Nat))
    (hx : x.length = legsL.length) (hy : y.length = legsR.length) :
    ((legBasis (keptBond keep m)).map fun z => entry l' (x ++ [z]) * c (entry s' [z]) * entry r' (z :: y)).sum =
      (((legBasis m).filter keep).map fun z => entry l (x ++ [z]) * c (entry s [z]) * entry r (z :: y)).sum := by
  rw [← kept_sum hm]
  apply sum_map_congr'
  intro z hz
  rw [h.leftEntry x hx z hz, h.valueEntry z hz, h.rightEntry y hy z hz]

theorem star_sum_list [StarRing K] {α : Type} (l : List α) (f : α → K) : star (l.map f).sum = (l.map fun a => star (f a)).sum := by
  induction l with
  | nil => simp
  | cons a l ih => simp [ih]

theorem mul_sums {α β : Type} (l : List α) (l' : List β) (f : α → K) (g : β → K) :
    (l.map f).sum * (l'.map g).sum = (l.map fun a => (l'.map fun b => f a * g b).sum).sum := by
  rw [← sum_map_mul_right']
  apply sum_map_congr'
  intro a _
  rw [sum_map_mul_left']

/-- The squared norm of a sum of orthonormal products. -/
theorem parseval_weights [StarRing K] (w : Q × Nat → K) (hc : ∀ z, star (w z) = w z) {m : BondInfo Q} {legsL legsR : List (BondInfo Q)} {l r : SpT Q K}
    (hl : LeftIsometric legsL m l) (hr : RightIsometric m legsR r) (D : List (Q × Nat)) (hD : ∀ z ∈ D, z ∈ legBasis m) (hn : D.Nodup) :
    ((legIndices legsL).map fun x => ((legIndices legsR).map fun y =>
      star ((D.map fun z => entry l (x ++ [z]) * w z * entry r (z :: y)).sum) *
        (D.map fun z => entry l (x ++ [z]) * w z * entry r (z :: y)).sum).sum).sum =
      (D.map fun z => w z * w z).sum := by
  have e : ∀ x y, star ((D.map fun z => entry l (x ++ [z]) * w z * entry r (z :: y)).sum) *
      (D.map fun z => entry l (x ++ [z]) * w z * entry r (z :: y)).sum =
      (D.map fun z => (D.map fun z' => w z * w z' * ((star (entry l (x ++ [z])) * entry l (x ++ [z'])) *
        (star (entry r (z :: y)) * entry r (z' :: y)))).sum).sum := by
    intro x y
    rw [star_sum_list, mul_sums]
    apply sum_map_congr'
    intro z _
    apply sum_map_congr'
    intro z' _
    rw [star_mul', star_mul', hc]
    ring
  simp only [e]
  rw [sum_map_congr' _ _ _ (fun x _ => sum_comm' (legIndices legsR) D _), sum_comm' (legIndices legsL) D]
  have e2 : ∀ z ∈ D, ((legIndices legsL).map fun x => ((legIndices legsR).map fun y => (D.map fun z' => w z * w z' *
      ((star (entry l (x ++ [z])) * entry l (x ++ [z'])) * (star (entry r (z :: y)) * entry r (z' :: y)))).sum).sum).sum =
      (D.map fun z' => if z' = z then w z' * w z' else 0).sum := by
    intro z hz
    rw [sum_map_congr' _ _ _ (fun x _ => sum_comm' (legIndices legsR) D _), sum_comm' (legIndices legsL) D]
    apply sum_map_congr'
    intro z' hz'
    have e3 : ∀ x, ((legIndices legsR).map fun y => w z * w z' *
        ((star (entry l (x ++ [z])) * entry l (x ++ [z'])) * (star (entry r (z :: y)) * entry r (z' :: y)))).sum =
        w z * w z' * ((star (entry l (x ++ [z])) * entry l (x ++ [z'])) * if z = z' then 1 else 0) := by
      intro x
      rw [← hr z (hD z hz) z' (hD z' hz'), ← sum_map_mul_left', ← sum_map_mul_left']
    simp only [e3]
    rw [sum_map_mul_left', sum_map_mul_right', hl z (hD z hz) z' (hD z' hz')]
    by_cases h : z = z'
    · subst h
      simp
    · simp [h, Ne.symm h]
  rw [sum_map_congr' _ _ _ e2]
  apply sum_map_congr'
  intro z hz
  rw [sum_map_ite_eq' D hn z, if_pos hz]

theorem parseval [StarRing K] (c : V → K) (hc : ∀ v, star (c v) = c v) {m : BondInfo Q} {legsL legsR : List (BondInfo Q)} {l r : SpT Q K} {s : SpT Q V}
    (hl : LeftIsometric legsL m l) (hr : RightIsometric m legsR r) (D : List (Q × Nat)) (hD : ∀ z ∈ D, z ∈ legBasis m) (hn : D.Nodup) :
    ((legIndices legsL).map fun x => ((legIndices legsR).map fun y =>
      star ((D.map fun z => entry l (x ++ [z]) * c (entry s [z]) * entry r (z :: y)).sum) *
        (D.map fun z => entry l (x ++ [z]) * c (entry s [z]) * entry r (z :: y)).sum).sum).sum =
      (D.map fun z => c (entry s [z]) * c (entry s [z])).sum :=
  parseval_weights (fun z => c (entry s [z])) (fun z => hc _) hl hr D hD hn

/-- C22: with isometric factors, the truncated product differs from the full one by exactly the dropped weight: the squared Frobenius distance of
the two is the sum of the squares of the dropped values, which is the returned error (`C22_truncate`). -/
theorem C22_distance [StarRing K] (c : V →+* K) (hc : ∀ v, star (c v) = c v) {keep : Q × Nat → Bool} {m : BondInfo Q} (hm : GoodBond m)
    {legsL legsR : List (BondInfo Q)} {l r l' r' : SpT Q K} {s s' : SpT Q V} (h : Restricted keep m legsL legsR l s r l' s' r')
    (hl : LeftIsometric legsL m l) (hr : RightIsometric m legsR r)
    (full trunc : List (Q × Nat) → List (Q × Nat) → K)
    (hfull : ∀ x ∈ legIndices legsL, ∀ y ∈ legIndices legsR,
      full x y = ((legBasis m).map fun z => entry l (x ++ [z]) * c (entry s [z]) * entry r (z :: y)).sum)
    (htrunc : ∀ x ∈ legIndices legsL, ∀ y ∈ legIndices legsR,
      trunc x y = ((legBasis (keptBond keep m)).map fun z => entry l' (x ++ [z]) * c (entry s' [z]) * entry r' (z :: y)).sum) :
    ((legIndices legsL).map fun x => ((legIndices legsR).map fun y => star (full x y - trunc x y) * (full x y - trunc x y)).sum).sum =
      c (((legBasis m).filter fun z => !keep z).map fun z => entry s [z] * entry s [z]).sum := by
  have hlen : ∀ (legs : List (BondInfo Q)) x, x ∈ legIndices legs → x.length = legs.length := by
    intro legs x hx
    have := ((mem_cart _ _).1 hx).length_eq
    simpa using this.symm
  have hdiff : ∀ x ∈ legIndices legsL, ∀ y ∈ legIndices legsR, full x y - trunc x y =
      (((legBasis m).filter fun z => !keep z).map fun z => entry l (x ++ [z]) * c (entry s [z]) * entry r (z :: y)).sum := by
    intro x hx y hy
    rw [hfull x hx y hy, htrunc x hx y hy, C22_product c hm h x y (hlen _ x hx) (hlen _ y hy), sum_filter', sum_filter', sub_eq_iff_eq_add, ← sum_map_add']
    apply sum_map_congr'
    intro z _
    cases keep z <;> simp
  rw [sum_map_congr' _ _ _ (fun x hx => sum_map_congr' _ _ _ (fun y hy => by rw [hdiff x hx y hy]))]
  rw [parseval c hc hl hr _ (fun z hz => (List.mem_filter.1 hz).1) ((legBasis_nodup hm.1).filter _)]
  rw [map_list_sum, List.map_map]
  apply sum_map_congr'
  intro z _
  simp

/-! ### Operator tensors -/

/-- The selected set of `FermionTensor.truncate_svd`, and what it does to blocks listed in the order of the blocks of `s`. -/
theorem fermion_core (o : TruncOpts V) (big : Arr K → Bool) (s : SpT Q V) (hs : ValueBlocks s) (hbig : RemovesZeros big) :
    ∃ keep : Q × Nat → Bool,
      (Conforms [keptBond keep (valueBond s)] (SpT.keepValues s (groupRuns (truncSelectF o (SpT.singularValues s)))) ∧
        ∀ z ∈ legBasis (keptBond keep (valueBond s)),
          entry (SpT.keepValues s (groupRuns (truncSelectF o (SpT.singularValues s)))) [z] = entry s [cameFrom keep (valueBond s) z]) ∧
      (∀ (legs : List (BondInfo Q)) (l : SpT Q K), Conforms (legs ++ [valueBond s]) l → InOrderOf ((valueBond s).map Prod.fst) (fun b => b.1.getLastD 0) l →
        Conforms (legs ++ [keptBond keep (valueBond s)]) (SpT.deflate big (SpT.keepLeftF s (groupRuns (truncSelectF o (SpT.singularValues s))) l)) ∧
        ∀ x, x.length = legs.length → ∀ z ∈ legBasis (keptBond keep (valueBond s)),
          entry (SpT.deflate big (SpT.keepLeftF s (groupRuns (truncSelectF o (SpT.singularValues s))) l)) (x ++ [z]) =
            entry l (x ++ [cameFrom keep (valueBond s) z])) ∧
      (∀ (legs : List (BondInfo Q)) (r : SpT Q K), Conforms (valueBond s :: legs) r → InOrderOf ((valueBond s).map Prod.fst) (fun b => b.1.getD 0 0) r →
        Conforms (keptBond keep (valueBond s) :: legs) (SpT.deflate big (SpT.keepRightF s (groupRuns (truncSelectF o (SpT.singularValues s))) r)) ∧
        ∀ y, y.length = legs.length → ∀ z ∈ legBasis (keptBond keep (valueBond s)),
          entry (SpT.deflate big (SpT.keepRightF s (groupRuns (truncSelectF o (SpT.singularValues s))) r)) (z :: y) =
            entry r (cameFrom keep (valueBond s) z :: y)) ∧
      SpT.truncError (fun v => v * v) s (groupRuns (truncSelectF o (SpT.singularValues s))) =
        (((legBasis (valueBond s)).filter fun z => !keep z).map fun z => entry s [z] * entry s [z]).sum ∧
      (∀ z ∈ legBasis (valueBond s), ∀ z' ∈ legBasis (valueBond s), keep z = true → keep z' = false → entry s [z'] ≤ entry s [z]) ∧
      (0 ≤ o.maxBondDim → ((legBasis (valueBond s)).filter keep).length ≤ o.maxBondDim.toNat) ∧
      (o.maxDw = 0 → o.cutoff = 0 → 0 ≤ o.maxBondDim →
        ((legBasis (valueBond s)).filter keep).length = min o.maxBondDim.toNat (legBasis (valueBond s)).length) ∧
      (o.maxDw = 0 → o.cutoff = 0 → o.maxBondDim = -1 → ∀ z ∈ legBasis (valueBond s), keep z = true) ∧
      (o.cutoff ≠ 0 → ∀ z ∈ legBasis (valueBond s), keep z = true → o.cutoff ≤ entry s [z]) ∧
      (o.maxDw = 0 → o.cutoff ≠ 0 → o.maxBondDim = -1 → ∀ z ∈ legBasis (valueBond s), o.cutoff ≤ entry s [z] → keep z = true) ∧
      (o.maxDw ≠ 0 → (∀ z ∈ legBasis (valueBond s), 0 ≤ entry s [z]) → (∃ z ∈ legBasis (valueBond s), o.maxDw < entry s [z] * entry s [z]) →
        ∀ z ∈ legBasis (valueBond s), keep z = false) := by
  let S := sortValues (SpT.singularValues s)
  have hS : Descending S := sortValues_descending _
  have hSp : S.Perm (SpT.singularValues s) := sortValues_perm _
  obtain ⟨n, hn, he, k1, k2, k3, k4, k5, k6⟩ := stages_eq S hS (decide (o.maxDw ≠ 0)) (dwCount (fun v => v * v) o.maxDw 0 S)
    (if o.cutoff ≠ 0 then some o.cutoff else none) o.maxBondDim
  have hp : (S.take n ++ S.drop n).Perm (SpT.singularValues s) := by rw [List.take_append_drop]; exact hSp
  have hsel : truncSelectF o (SpT.singularValues s) = sortPlaces (S.take n) := by
    unfold truncSelectF
    simp only
    rw [← he]
    congr 1
    by_cases h1 : o.maxDw = 0 <;> by_cases h2 : o.cutoff = 0 <;> simp [h1, h2, S]
  have hw := hs.good.1
  have hTm : ∀ x ∈ S.take n, x ∈ SpT.singularValues s := fun x hx => hSp.mem_iff.1 (List.mem_of_mem_take hx)
  have hkT : ∀ x ∈ SpT.singularValues s, (keepOf s (S.take n) (svPlace s x) = true ↔ x ∈ S.take n) := fun x hx => keepOf_iff hw hTm hx
  have hkD : ∀ x ∈ SpT.singularValues s, keepOf s (S.take n) (svPlace s x) = false → x ∈ S.drop n := by
    intro x hx hk
    rcases List.mem_append.1 (hp.mem_iff.2 hx) with h | h
    · rw [(hkT x hx).2 h] at hk; cases hk
    · exact h
  have hsc : Conforms (join false [] (valueBond s)) s := by
    intro b hb
    obtain ⟨q, hq⟩ := List.length_eq_one_iff.1 (hs.label b hb)
    obtain ⟨n, hn⟩ := List.length_eq_one_iff.1 (hs.axis b hb)
    rw [hq, hn]
    refine .cons (Dict.get?_of_mem hs.good.1 ?_) .nil
    refine List.mem_map.2 ⟨b, hb, ?_⟩
    simp [hq, hn]
  rw [hsel]
  have hgl := gs_labels hs hp
  have hlabels : ∀ g ∈ keptGroups (keepOf s (S.take n)) (valueBond s), g.1 ∈ (valueBond s).map Prod.fst :=
    fun g hg => (keptGroups_keys _ _).subset (List.mem_map_of_mem hg)
  refine ⟨keepOf s (S.take n), ?_, ?_, ?_, truncError_eq _ hs hp, ?_, ?_, ?_, ?_, ?_, ?_, ?_⟩
  · rw [keepValues_eq hs hp]
    exact ⟨cutTo_conforms (s := false) (legs := []) hs.good hsc, fun z hz => cutTo_entry (s := false) (legs := []) hs.good hsc [] rfl z hz⟩
  · intro legs l hl hlo
    have el : SpT.keepLeftF s (groupRuns (sortPlaces (S.take n))) l = cutTo true (keepOf s (S.take n)) (valueBond s) l := by
      unfold SpT.keepLeftF cutTo
      rw [← hgl, List.flatMap_map]
      rw [List.flatMap_def, List.flatMap_def]
      congr 1
      apply List.map_congr_left
      intro g hg
      have hgm := hlabels ((SpT.svBlock s g.1).1, g.2) (by rw [← hgl]; exact List.mem_map.2 ⟨g, hg, rfl⟩)
      have := firstRun (f := fun b : List Q × Arr K => b.1.getLastD 0) hlo hw hgm
      simp only at this ⊢
      rw [this]
      rfl
    rw [el]
    exact ⟨deflate_conforms (cutTo_conforms (s := true) hs.good hl), fun x hx z hz => by
      rw [deflate_entry hbig]; exact cutTo_entry (s := true) hs.good hl x hx z hz⟩
  · intro legs r hr hro
    have er : SpT.keepRightF s (groupRuns (sortPlaces (S.take n))) r = cutTo false (keepOf s (S.take n)) (valueBond s) r := by
      unfold SpT.keepRightF cutTo
      rw [← hgl, List.flatMap_map]
      rw [List.flatMap_def, List.flatMap_def]
      congr 1
      apply List.map_congr_left
      intro g hg
      have hgm := hlabels ((SpT.svBlock s g.1).1, g.2) (by rw [← hgl]; exact List.mem_map.2 ⟨g, hg, rfl⟩)
      have := firstRun (f := fun b : List Q × Arr K => b.1.getD 0 0) hro hw hgm
      simp only at this ⊢
      rw [this]
      rfl
    rw [er]
    exact ⟨deflate_conforms (cutTo_conforms (s := false) hs.good hr), fun x hx z hz => by
      rw [deflate_entry hbig]; exact cutTo_entry (s := false) hs.good hr x hx z hz⟩
  · intro z hz z' hz' h1 h2
    obtain ⟨x, hx, rfl⟩ := basis_value hz
    obtain ⟨x', hx', rfl⟩ := basis_value hz'
    rw [hs.entry hx, hs.entry hx']
    have hd : Descending (S.take n ++ S.drop n) := by rw [List.take_append_drop]; exact hS
    exact (List.pairwise_append.1 hd).2.2 x ((hkT x hx).1 h1) x' (hkD x' hx' h2)
  · intro hk
    rw [count_kept hs hp, List.length_take]
    have := k1 hk
    omega
  · intro h1 h2 h3
    rw [count_kept hs hp, List.length_take, basis_length, ← hSp.length_eq]
    have := k3 (by simpa using h1) (by simp [h2]) h3
    omega
  · intro h1 h2 h3 z hz
    obtain ⟨x, hx, rfl⟩ := basis_value hz
    have := k4 (by simpa using h1) (by simp [h2]) h3
    rw [hkT x hx, this, List.take_length]
    exact hSp.mem_iff.2 hx
  · intro h1 z hz hk
    obtain ⟨x, hx, rfl⟩ := basis_value hz
    rw [hs.entry hx]
    exact k2 _ (by rw [if_pos h1]) x ((hkT x hx).1 hk)
  · intro h1 h2 h3 z hz hk
    obtain ⟨x, hx, rfl⟩ := basis_value hz
    rw [hs.entry hx] at hk
    by_contra hn
    have := k5 (by simpa using h1) h3 _ (by rw [if_pos h2]) x (hkD x hx (by simpa using hn))
    exact absurd hk (not_le.2 this)
  · rintro h1 hpos ⟨z, hz, hzw⟩ z' _
    obtain ⟨x, hx, rfl⟩ := basis_value hz
    rw [hs.entry hx] at hzw
    have hx0 : 0 ≤ x.val := by
      have := hpos (svPlace s x) (by rw [legBasis_values]; exact List.mem_map_of_mem hx)
      rwa [hs.entry hx] at this
    have hxS : x ∈ S := hSp.mem_iff.2 hx
    have hp0 : dwCount (fun v => v * v) o.maxDw 0 S = 0 := by
      rcases hSe : S with _ | ⟨y, ys⟩
      · rfl
      · have hle : x.val ≤ y.val := by
          rw [hSe] at hxS hS
          rcases List.mem_cons.1 hxS with h | h
          · rw [h]
          · exact (List.pairwise_cons.1 hS).1 x h
        have := lt_of_lt_of_le hzw (mul_self_le_mul_self hx0 hle)
        rw [dwCount, if_neg (by simpa using this)]
    have hT : S.take n = [] := by
      rw [← he]
      simp only [hp0, decide_eq_true h1, if_true]
      have e0 : pyTake (-((0 : Nat) : Int)) S = [] := by simp [pyTake]
      have hnil : ∀ k : Int, pyTake k ([] : List (SV V)) = [] := by intro k; simp [pyTake]
      rw [e0]
      by_cases h2 : o.cutoff = 0 <;> by_cases h3 : o.maxBondDim = -1 <;> simp [h2, h3, hnil]
    rw [hT]
    rfl

/-- C22, `FermionTensor.truncate_svd` of the result of `right_svd`: the same as `C22_truncate`, with two differences.  The cutoff is compared with the
value, not with its square.  And with a discarded weight given, everything is dropped as soon as a single value exceeds it. -/
theorem C22_fermion_right (o : TruncOpts V) (big : Arr K → Bool) (l : SpT Q K) (s : SpT Q V) (r : OpT Q K)
    (legsL legsR : List (BondInfo Q)) (hs : ValueBlocks s) (hl : Conforms (legsL ++ [valueBond s]) l)
    (hodd : Conforms (valueBond s :: legsR) r.odd) (heven : Conforms (valueBond s :: legsR) r.even)
    (hlo : InOrderOf ((valueBond s).map Prod.fst) (fun b => b.1.getLastD 0) l)
    (hoo : InOrderOf ((valueBond s).map Prod.fst) (fun b => b.1.getD 0 0) r.odd)
    (heo : InOrderOf ((valueBond s).map Prod.fst) (fun b => b.1.getD 0 0) r.even) (hbig : RemovesZeros big) :
    ∃ keep l' s' r' error, OpT.truncateRight o big l s r = (l', s', r', error) ∧
      Restricted keep (valueBond s) legsL legsR l s r.odd l' s' r'.odd ∧ Restricted keep (valueBond s) legsL legsR l s r.even l' s' r'.even ∧
      error = (((legBasis (valueBond s)).filter fun z => !keep z).map fun z => entry s [z] * entry s [z]).sum ∧
      (∀ z ∈ legBasis (valueBond s), ∀ z' ∈ legBasis (valueBond s), keep z = true → keep z' = false → entry s [z'] ≤ entry s [z]) ∧
      (0 ≤ o.maxBondDim → ((legBasis (valueBond s)).filter keep).length ≤ o.maxBondDim.toNat) ∧
      (o.maxDw = 0 → o.cutoff = 0 → 0 ≤ o.maxBondDim →
        ((legBasis (valueBond s)).filter keep).length = min o.maxBondDim.toNat (legBasis (valueBond s)).length) ∧
      (o.maxDw = 0 → o.cutoff = 0 → o.maxBondDim = -1 → ∀ z ∈ legBasis (valueBond s), keep z = true) ∧
      (o.cutoff ≠ 0 → ∀ z ∈ legBasis (valueBond s), keep z = true → o.cutoff ≤ entry s [z]) ∧
      (o.maxDw = 0 → o.cutoff ≠ 0 → o.maxBondDim = -1 → ∀ z ∈ legBasis (valueBond s), o.cutoff ≤ entry s [z] → keep z = true) ∧
      (o.maxDw ≠ 0 → (∀ z ∈ legBasis (valueBond s), 0 ≤ entry s [z]) → (∃ z ∈ legBasis (valueBond s), o.maxDw < entry s [z] * entry s [z]) →
        ∀ z ∈ legBasis (valueBond s), keep z = false) := by
  obtain ⟨keep, ⟨v1, v2⟩, hL, hR, rest⟩ := fermion_core o big s hs hbig
  obtain ⟨l1, l2⟩ := hL legsL l hl hlo
  obtain ⟨a1, a2⟩ := hR legsR r.odd hodd hoo
  obtain ⟨b1, b2⟩ := hR legsR r.even heven heo
  exact ⟨keep, _, _, _, _, rfl, ⟨l1, v1, a1, l2, v2, a2⟩, ⟨l1, v1, b1, l2, v2, b2⟩, rest⟩

/-- C22, `FermionTensor.truncate_svd` of the result of `left_svd`. -/
theorem C22_fermion_left (o : TruncOpts V) (big : Arr K → Bool) (l : OpT Q K) (s : SpT Q V) (r : SpT Q K)
    (legsL legsR : List (BondInfo Q)) (hs : ValueBlocks s) (hodd : Conforms (legsL ++ [valueBond s]) l.odd)
    (heven : Conforms (legsL ++ [valueBond s]) l.even) (hr : Conforms (valueBond s :: legsR) r)
    (hoo : InOrderOf ((valueBond s).map Prod.fst) (fun b => b.1.getLastD 0) l.odd)
    (heo : InOrderOf ((valueBond s).map Prod.fst) (fun b => b.1.getLastD 0) l.even)
    (hro : InOrderOf ((valueBond s).map Prod.fst) (fun b => b.1.getD 0 0) r) (hbig : RemovesZeros big) :
    ∃ keep l' s' r' error, OpT.truncateLeft o big l s r = (l', s', r', error) ∧
      Restricted keep (valueBond s) legsL legsR l.odd s r l'.odd s' r' ∧ Restricted keep (valueBond s) legsL legsR l.even s r l'.even s' r' ∧
      error = (((legBasis (valueBond s)).filter fun z => !keep z).map fun z => entry s [z] * entry s [z]).sum ∧
      (∀ z ∈ legBasis (valueBond s), ∀ z' ∈ legBasis (valueBond s), keep z = true → keep z' = false → entry s [z'] ≤ entry s [z]) ∧
      (0 ≤ o.maxBondDim → ((legBasis (valueBond s)).filter keep).length ≤ o.maxBondDim.toNat) ∧
      (o.maxDw = 0 → o.cutoff = 0 → 0 ≤ o.maxBondDim →
        ((legBasis (valueBond s)).filter keep).length = min o.maxBondDim.toNat (legBasis (valueBond s)).length) ∧
      (o.maxDw = 0 → o.cutoff = 0 → o.maxBondDim = -1 → ∀ z ∈ legBasis (valueBond s), keep z = true) ∧
      (o.cutoff ≠ 0 → ∀ z ∈ legBasis (valueBond s), keep z = true → o.cutoff ≤ entry s [z]) ∧
      (o.maxDw = 0 → o.cutoff ≠ 0 → o.maxBondDim = -1 → ∀ z ∈ legBasis (valueBond s), o.cutoff ≤ entry s [z] → keep z = true) ∧
      (o.maxDw ≠ 0 → (∀ z ∈ legBasis (valueBond s), 0 ≤ entry s [z]) → (∃ z ∈ legBasis (valueBond s), o.maxDw < entry s [z] * entry s [z]) →
        ∀ z ∈ legBasis (valueBond s), keep z = false) := by
  obtain ⟨keep, ⟨v1, v2⟩, hL, hR, rest⟩ := fermion_core o big s hs hbig
  obtain ⟨r1, r2⟩ := hR legsR r hr hro
  obtain ⟨a1, a2⟩ := hL legsL l.odd hodd hoo
  obtain ⟨b1, b2⟩ := hL legsL l.even heven heo
  exact ⟨keep, _, _, _, _, rfl, ⟨a1, v1, r1, a2, v2, r2⟩, ⟨b1, v1, r1, b2, v2, r2⟩, rest⟩

/-! ### Concrete cases -/

end

/-- Two labels, three singular values. -/
def exS : SpT Int Int := [([0], ⟨[2], fun ix => if ix = [0] then 5 else 1⟩), ([1], ⟨[1], fun _ => 3⟩)]
def exL : SpT Int Int := [([0, 0], ⟨[1, 2], fun ix => if ix = [0, 0] then 1 else 2⟩), ([1, 0], ⟨[1, 2], fun _ => 7⟩), ([0, 1], ⟨[1, 1], fun _ => 4⟩)]
def exR : SpT Int Int := [([0, 5], ⟨[2, 1], fun ix => if ix = [0, 0] then 1 else 2⟩), ([1, 5], ⟨[1, 1], fun _ => 6⟩)]
def exBig (a : Arr Int) : Bool := (cart (a.shape.map List.range)).any fun ix => a.get ix ≠ 0

theorem exBig_zeros : RemovesZeros exBig := by
  intro a ix h hb
  by_contra hne
  have : exBig a = true := by
    unfold exBig
    rw [List.any_eq_true]
    refine ⟨ix, ?_, by simpa using hne⟩
    rw [mem_cart, List.forall₂_map_left_iff]
    clear hb hne
    revert h
    generalize a.shape = sh
    intro h
    induction sh generalizing ix with
    | nil => cases ix with
      | nil => exact .nil
      | cons => simp [inBox] at h
    | cons n sh ih => cases ix with
      | nil => simp [inBox] at h
      | cons i ix =>
        simp [inBox] at h
        exact .cons (by simpa using h.1) (ih ix h.2)
  rw [this] at hb
  cases hb

/-- The hypotheses of `C22_truncate` hold. -/
example : ValueBlocks exS ∧ Conforms ([[(0, 1), (1, 1)]] ++ [valueBond exS]) exL ∧ Conforms (valueBond exS :: [[(5, 1)]]) exR ∧
    SortedBy ((valueBond exS).map Prod.fst) (fun b => b.1.getLastD 0) exL ∧ SortedBy ((valueBond exS).map Prod.fst) (fun b => b.1.getD 0 0) exR ∧
    RemovesZeros exBig :=
  ⟨⟨by decide, by decide, by simp [GoodBond, Dict.WF, valueBond, exS]⟩, by decide, by decide,
    ⟨by simp [InOrderOf, exL, valueBond, exS], by simp [exL, valueBond, exS]⟩,
    ⟨by simp [InOrderOf, exR, valueBond, exS], by simp [exR, valueBond, exS]⟩, exBig_zeros⟩

/-- Two values are kept, 5 and 3; the error is 1. -/
example : (SpT.truncateSvd ⟨2, 0, 0, false⟩ (fun v => v) exBig exL exS exR).s.map (fun b => (b.1, b.2.shape, b.2.get [0])) = [([0], [1], 5), ([1], [1], 3)] ∧
    (SpT.truncateSvd ⟨2, 0, 0, false⟩ (fun v => v) exBig exL exS exR).error = 1 := by decide +kernel

/-- A discarded weight of 1 is below no weight and drops the value 1; a budget that allows nothing (here 0 < budget < 1 in units of 1/2, written
with doubled values) drops everything. -/
example : (SpT.truncateSvd ⟨-1, 0, 1, false⟩ (fun v => v) exBig exL exS exR).error = 1 ∧
    (SpT.truncateSvd ⟨-1, 0, 1, false⟩ (fun v => v) exBig exL (exS.map fun b => (b.1, ⟨b.2.shape, fun ix => 2 * b.2.get ix⟩)) exR).s = [] := by
  refine ⟨by decide +kernel, ?_⟩
  rw [← List.length_eq_zero_iff]
  decide +kernel

/-- The operator version with the budget 4 (the value 1 could be dropped) drops everything, because 25 exceeds 4. -/
example : (OpT.truncateRight ⟨-1, 0, 4, false⟩ exBig exL exS ⟨[], exR⟩).2.1.length = 0 ∧
    (OpT.truncateRight ⟨-1, 0, 4, false⟩ exBig exL exS ⟨[], exR⟩).2.2.2 = 35 := by decide +kernel

end Verif
