import Verif.Thm.Canon
import Verif.Thm.Trunc
import Verif.Spec.Svd

/-! Lemmas about the block-wise singular value decomposition. -/

set_option linter.unusedSectionVars false

namespace Verif
section
variable {Q K V : Type} [DecidableEq Q]

/-! ### Block-diagonal matrices -/

/-- Entries of a matrix with one block for each label. -/
theorem entry_blockDiag [AddCommMonoid K] {β : Type} {d : Dict Q β} (hd : Dict.WF d) (A : Q × β → Arr K) (k n : Q × β → Nat)
    (hA : ∀ g ∈ d, (A g).shape = [k g, n g]) (q q' : Q) (t y : Nat) :
    entry (d.map fun g => ([g.1, g.1], A g)) [(q, t), (q', y)] = match Dict.get? d q with
      | some v => if q = q' ∧ t < k (q, v) ∧ y < n (q, v) then (A (q, v)).get [t, y] else 0
      | none => 0 := by
  have hb : ∀ g ∈ d, blockEntry ([g.1, g.1], A g) [(q, t), (q', y)] =
      if g.1 = q ∧ q = q' ∧ t < k g ∧ y < n g then (A g).get [t, y] else 0 := by
    intro g hg
    unfold blockEntry
    simp only [hA g hg, List.map_cons, List.map_nil, List.cons.injEq, and_true, inBox, Bool.and_true, Bool.and_eq_true, decide_eq_true_eq]
    by_cases e1 : g.1 = q
    · subst e1
      by_cases e2 : g.1 = q' <;> simp [e2]
    · simp [e1]
  unfold entry
  rw [List.map_map]
  refine (sum_dictC hd q (fun g => blockEntry ([g.1, g.1], A g) [(q, t), (q', y)]) ?_).trans ?_
  · intro g hg hne
    rw [hb g hg]
    simp [hne]
  · cases hg : Dict.get? d q with
    | none => rfl
    | some v =>
      simp only
      rw [hb _ (Dict.mem_of_get? hg)]
      simp

theorem entry_blockVec [AddCommMonoid V] {β : Type} {d : Dict Q β} (hd : Dict.WF d) (A : Q × β → Arr V) (k : Q × β → Nat)
    (hA : ∀ g ∈ d, (A g).shape = [k g]) (q : Q) (t : Nat) :
    entry (d.map fun g => ([g.1], A g)) [(q, t)] = match Dict.get? d q with
      | some v => if t < k (q, v) then (A (q, v)).get [t] else 0
      | none => 0 := by
  have hb : ∀ g ∈ d, blockEntry ([g.1], A g) [(q, t)] = if g.1 = q ∧ t < k g then (A g).get [t] else 0 := by
    intro g hg
    unfold blockEntry
    simp only [hA g hg, List.map_cons, List.map_nil, List.cons.injEq, and_true, inBox, Bool.and_true, decide_eq_true_eq]
  unfold entry
  rw [List.map_map]
  refine (sum_dictC hd q (fun g => blockEntry ([g.1], A g) [(q, t)]) ?_).trans ?_
  · intro g hg hne
    rw [hb g hg]
    simp [hne]
  · cases hg : Dict.get? d q with
    | none => rfl
    | some v =>
      simp only
      rw [hb _ (Dict.mem_of_get? hg)]
      simp

/-- The blocks of a tensor made group by group are sorted by the labels of the groups. -/
theorem sortedBy_groups {β γ : Type} {d : Dict Q β} (hd : Dict.WF d) (F : Q × β → List γ) (f : γ → Q) (hF : ∀ g ∈ d, ∀ b ∈ F g, f b = g.1)
    (hne : ∀ g ∈ d, F g ≠ []) : SortedBy (d.map Prod.fst) f (d.flatMap F) := by
  refine ⟨?_, ?_⟩
  · unfold InOrderOf
    rw [List.flatMap_map]
    apply List.flatMap_congr
    intro g hg
    induction d with
    | nil => simp at hg
    | cons a d ih =>
      have hd' : a.1 ∉ d.map Prod.fst ∧ Dict.WF d := by
        unfold Dict.WF at hd
        rw [List.map_cons, List.nodup_cons] at hd
        exact hd
      rw [List.flatMap_cons, List.filter_append]
      rcases List.mem_cons.1 hg with rfl | hg'
      · rw [List.filter_eq_self.2, List.filter_eq_nil_iff.2, List.append_nil]
        · intro b hb
          obtain ⟨g', h1, h2⟩ := List.mem_flatMap.1 hb
          rw [hF g' (List.mem_cons_of_mem _ h1) b h2]
          simp only [decide_eq_true_eq]
          intro e
          exact hd'.1 (e ▸ List.mem_map_of_mem h1)
        · intro b hb
          rw [hF _ List.mem_cons_self b hb]
          simp
      · rw [List.filter_eq_nil_iff.2, List.nil_append]
        · exact ih hd'.2 (fun g hg => hF g (List.mem_cons_of_mem _ hg)) (fun g hg => hne g (List.mem_cons_of_mem _ hg)) hg'
        · intro b hb
          rw [hF a List.mem_cons_self b hb]
          simp only [decide_eq_true_eq]
          intro e
          exact hd'.1 (e ▸ List.mem_map_of_mem hg')
  · intro q hq
    obtain ⟨g, hg, rfl⟩ := List.mem_map.1 hq
    obtain ⟨b, hb⟩ := List.exists_mem_of_ne_nil _ (hne g hg)
    exact ⟨b, List.mem_flatMap.2 ⟨g, hg, hb⟩, hF g hg b hb⟩

theorem sortedBy_map {β γ : Type} {d : Dict Q β} (hd : Dict.WF d) (F : Q × β → γ) (f : γ → Q) (hF : ∀ g ∈ d, f (F g) = g.1) :
    SortedBy (d.map Prod.fst) f (d.map F) := by
  have := sortedBy_groups hd (fun g => [F g]) f (by simpa using hF) (by simp)
  rwa [← List.map_eq_flatMap] at this

end

/-! ### The decomposition -/

section
variable {Q K V : Type} [DecidableEq Q] [Zero Q] [CommSemiring K]

/-- The two factors on the right of a dense decomposition, multiplied. -/
def valuesTimes (c : V → K) (f : Arr K × Arr V × Arr K) : Arr K := ⟨f.2.2.shape, fun ix => c (f.2.1.get [ix.getD 0 0]) * f.2.2.get ix⟩

/-- The two factors on the left of a dense decomposition, multiplied. -/
def timesValues (c : V → K) (f : Arr K × Arr V × Arr K) : Arr K := ⟨f.1.shape, fun ix => f.1.get ix * c (f.2.1.get [ix.getD 1 0])⟩

theorem assembled_leftSvd (c : V → K) (svd : Arr K → Arr K × Arr V × Arr K) (hsvd : IsSvd c svd) {legs : List (BondInfo Q)} {r : BondInfo Q}
    {T : SpT Q K} (hc : Conforms (legs ++ [r]) T) (hg : ∀ b ∈ legs, GoodBond b) (hr : GoodBond r) :
    Assembled true legs r T (SpT.leftSvd svd T).1
      ((groupBy (keyOf true) T).map fun g => ([g.1, g.1], valuesTimes c (svd (stackLeft (g.2.map Prod.snd)))))
      (fun g => (svd (stackLeft (g.2.map Prod.snd))).2.1.shape.getD 0 0)
      (fun g => leftPieces (svd (stackLeft (g.2.map Prod.snd))).1 ((svd (stackLeft (g.2.map Prod.snd))).2.1.shape.getD 0 0) (g.2.map Prod.snd))
      (fun g => valuesTimes c (svd (stackLeft (g.2.map Prod.snd))))
      (fun g i t => (svd (stackLeft (g.2.map Prod.snd))).1.get [i, t]) := by
  have hc' : Conforms (join true legs r) T := hc
  refine ⟨hc', rfl, rfl, ?_⟩
  intro g hm n hn
  obtain ⟨hs, hne⟩ := group_shapes hc' hg hm hn
  have hnp : 0 < n := hr.2 _ (Dict.mem_of_get? hn)
  have hsh := stackLeft_shape hs hne
  have hp := height_pos hne hs.pos
  have h1 := hsvd.left _ _ _ hsh hp hnp
  have h2 := hsvd.right _ _ _ hsh hp hnp
  have hk : (svd (stackLeft (g.2.map Prod.snd))).2.1.shape.getD 0 0 = min (height true (g.2.map Prod.snd)) n := by
    rw [hsvd.values _ _ _ hsh hp hnp]; rfl
  refine ⟨?_, ?_, ?_, ?_, ?_⟩
  · rw [hk]; omega
  · rw [hk]; omega
  · rw [hk]
    exact leftPieces_pieces hs hne h1
  · rw [hk]
    show (svd _).2.2.shape = _
    rw [h2]; rfl
  · refine ⟨_, stackLeft_stacked hs, ?_⟩
    intro y hy i hi
    rw [hk]
    refine Eq.trans ?_ (hsvd.product _ _ _ hsh hp hnp i hi y hy)
    apply sum_map_congr'
    intro t _
    rw [mul_assoc]
    rfl

theorem assembled_rightSvd (c : V → K) (svd : Arr K → Arr K × Arr V × Arr K) (hsvd : IsSvd c svd) {legs : List (BondInfo Q)} {r : BondInfo Q}
    {T : SpT Q K} (hc : Conforms (r :: legs) T) (hg : ∀ b ∈ legs, GoodBond b) (hr : GoodBond r) :
    Assembled false legs r T (SpT.rightSvd svd T).2.2
      ((groupBy (keyOf false) T).map fun g => ([g.1, g.1], timesValues c (svd (stackRight (g.2.map Prod.snd)))))
      (fun g => (svd (stackRight (g.2.map Prod.snd))).2.1.shape.getD 0 0)
      (fun g => rightPieces (svd (stackRight (g.2.map Prod.snd))).2.2 (g.2.map Prod.snd))
      (fun g => timesValues c (svd (stackRight (g.2.map Prod.snd))))
      (fun g i t => (svd (stackRight (g.2.map Prod.snd))).2.2.get [t, i]) := by
  have hc' : Conforms (join false legs r) T := hc
  refine ⟨hc', rfl, rfl, ?_⟩
  intro g hm n hn
  obtain ⟨hs, hne⟩ := group_shapes hc' hg hm hn
  have hnp : 0 < n := hr.2 _ (Dict.mem_of_get? hn)
  have hsh := stackRight_shape hs hne
  have hp := height_pos hne hs.pos
  have h1 := hsvd.left _ _ _ hsh hnp hp
  have h2 := hsvd.right _ _ _ hsh hnp hp
  have hk : (svd (stackRight (g.2.map Prod.snd))).2.1.shape.getD 0 0 = min n (height false (g.2.map Prod.snd)) := by
    rw [hsvd.values _ _ _ hsh hnp hp]; rfl
  refine ⟨?_, ?_, ?_, ?_, ?_⟩
  · rw [hk]; omega
  · rw [hk]; omega
  · rw [hk]
    exact rightPieces_pieces hs hne h2
  · rw [hk]
    show (svd _).1.shape = _
    rw [h1]; rfl
  · refine ⟨_, stackRight_stacked hs, ?_⟩
    intro y hy i hi
    rw [hk]
    refine Eq.trans ?_ (hsvd.product _ _ _ hsh hnp hp y hy i hi)
    apply sum_map_congr'
    intro t _
    rw [mul_comm]
    rfl

end

section
variable {Q K V : Type} [DecidableEq Q] [Zero Q] [CommSemiring K] [AddCommMonoid V]

theorem valueBond_groups {d : Dict Q (SpT Q K)} (A : Q × SpT Q K → Arr V) :
    valueBond (d.map fun g => ([g.1], A g)) = d.map fun g => (g.1, (A g).shape.getD 0 0) := by
  unfold valueBond
  rw [List.map_map]
  apply List.map_congr_left
  intro g _
  simp only [Function.comp, List.headD_cons]
  cases (A g).shape <;> rfl

theorem valueBlocks_groups {d : Dict Q (SpT Q K)} (A : Q × SpT Q K → Arr V) (k : Q × SpT Q K → Nat) (hA : ∀ g ∈ d, (A g).shape = [k g])
    (hgood : GoodBond (d.map fun g => (g.1, (A g).shape.getD 0 0))) : ValueBlocks (d.map fun g => ([g.1], A g)) := by
  refine ⟨?_, ?_, ?_⟩
  · intro b hb
    obtain ⟨g, _, rfl⟩ := List.mem_map.1 hb
    rfl
  · intro b hb
    obtain ⟨g, hg, rfl⟩ := List.mem_map.1 hb
    simp [hA g hg]
  · rw [valueBond_groups]
    exact hgood

/-- The groups of a tensor and the shapes of the dense factors. -/
theorem leftSvd_shapes (c : V → K) (svd : Arr K → Arr K × Arr V × Arr K) (hsvd : IsSvd c svd) {legs : List (BondInfo Q)} {r : BondInfo Q}
    {T : SpT Q K} (hc : Conforms (legs ++ [r]) T) (hg : ∀ b ∈ legs, GoodBond b) (hr : GoodBond r) {g : Q × SpT Q K}
    (hm : g ∈ groupBy (keyOf true) T) :
    ∃ k n, Dict.get? r g.1 = some n ∧ (svd (stackLeft (g.2.map Prod.snd))).2.1.shape = [k] ∧ (svd (stackLeft (g.2.map Prod.snd))).2.2.shape = [k, n] ∧
      (stackLeft (g.2.map Prod.snd)).shape = [height true (g.2.map Prod.snd), n] ∧ 0 < height true (g.2.map Prod.snd) ∧ 0 < n ∧
      k = min (height true (g.2.map Prod.snd)) n := by
  have hA := assembled_leftSvd c svd hsvd hc hg hr
  obtain ⟨n, hn, hin, hok⟩ := hA.group hm
  obtain ⟨hs, hne⟩ := group_shapes hA.conf hg hm hn
  have hnp : 0 < n := hr.2 _ (Dict.mem_of_get? hn)
  have hsh := stackLeft_shape hs hne
  have hp := height_pos hne hs.pos
  exact ⟨_, n, hn, hsvd.values _ _ _ hsh hp hnp, hsvd.right _ _ _ hsh hp hnp, hsh, hp, hnp, rfl⟩

theorem rightSvd_shapes (c : V → K) (svd : Arr K → Arr K × Arr V × Arr K) (hsvd : IsSvd c svd) {legs : List (BondInfo Q)} {r : BondInfo Q}
    {T : SpT Q K} (hc : Conforms (r :: legs) T) (hg : ∀ b ∈ legs, GoodBond b) (hr : GoodBond r) {g : Q × SpT Q K}
    (hm : g ∈ groupBy (keyOf false) T) :
    ∃ k n, Dict.get? r g.1 = some n ∧ (svd (stackRight (g.2.map Prod.snd))).2.1.shape = [k] ∧ (svd (stackRight (g.2.map Prod.snd))).1.shape = [n, k] ∧
      (stackRight (g.2.map Prod.snd)).shape = [n, height false (g.2.map Prod.snd)] ∧ 0 < height false (g.2.map Prod.snd) ∧ 0 < n ∧
      k = min n (height false (g.2.map Prod.snd)) := by
  have hA := assembled_rightSvd c svd hsvd hc hg hr
  obtain ⟨n, hn, hin, hok⟩ := hA.group hm
  obtain ⟨hs, hne⟩ := group_shapes hA.conf hg hm hn
  have hnp : 0 < n := hr.2 _ (Dict.mem_of_get? hn)
  have hsh := stackRight_shape hs hne
  have hp := height_pos hne hs.pos
  exact ⟨_, n, hn, hsvd.values _ _ _ hsh hnp hp, hsvd.left _ _ _ hsh hnp hp, hsh, hp, hnp, rfl⟩

theorem zip_key {s : Bool} {g : Q × SpT Q K} {T : SpT Q K} (hm : g ∈ groupBy (keyOf s) T) {ps : List (Arr K)} {b : List Q × Arr K}
    (hb : b ∈ (g.2.map Prod.fst).zip ps) : keyOf s b = g.1 := by
  have h1 : b.1 ∈ g.2.map Prod.fst := (List.of_mem_zip (show (b.1, b.2) ∈ _ from hb)).1
  obtain ⟨b', hb', e⟩ := List.mem_map.1 h1
  rw [(mem_groupBy hm).1, List.mem_filter] at hb'
  have : keyOf s b = keyOf s b' := by unfold keyOf; rw [e]
  rw [this]
  simpa using hb'.2

theorem zip_ne_nil {s : Bool} {g : Q × SpT Q K} {T : SpT Q K} (hm : g ∈ groupBy (keyOf s) T) {ps : List (Arr K)}
    (h : ps.length = g.2.length) : (g.2.map Prod.fst).zip ps ≠ [] := by
  intro e
  have h2 := (mem_groupBy hm).2
  have := congrArg List.length e
  rw [List.length_zip, List.length_map, h] at this
  simp at this
  exact h2 this

theorem blockSvd_left (c : V → K) (svd : Arr K → Arr K × Arr V × Arr K) (hsvd : IsSvd c svd) {legs : List (BondInfo Q)}
    {r : BondInfo Q} {T : SpT Q K} (hc : Conforms (legs ++ [r]) T) (hg : ∀ b ∈ legs, GoodBond b) (hr : GoodBond r) :
    BlockSvd c legs [r] T (SpT.leftSvd svd T).1 (SpT.leftSvd svd T).2.1 (SpT.leftSvd svd T).2.2 := by
  have hA := assembled_leftSvd c svd hsvd hc hg hr
  have hsh := fun {g} hm => leftSvd_shapes c svd hsvd hc hg hr (g := g) hm
  have hw := wf_groupBy (keyOf true) T
  have hvb : valueBond (SpT.leftSvd svd T).2.1 = newBond true T (fun g => (svd (stackLeft (g.2.map Prod.snd))).2.1.shape.getD 0 0) :=
    valueBond_groups _
  have hk : ∀ g ∈ groupBy (keyOf true) T, (svd (stackLeft (g.2.map Prod.snd))).2.1.shape = [(svd (stackLeft (g.2.map Prod.snd))).2.1.shape.getD 0 0] := by
    intro g hm
    obtain ⟨k, n, -, h1, -⟩ := hsh hm
    rw [h1]; rfl
  have hvh : ∀ g ∈ groupBy (keyOf true) T, (svd (stackLeft (g.2.map Prod.snd))).2.2.shape = [(svd (stackLeft (g.2.map Prod.snd))).2.1.shape.getD 0 0, Counter.count r g.1] := by
    intro g hm
    obtain ⟨k, n, h0, h1, h2, -⟩ := hsh hm
    rw [h1, h2]; simp [Counter.count, h0]
  have hkeys : (newBond true T (fun g => (svd (stackLeft (g.2.map Prod.snd))).2.1.shape.getD 0 0)).map Prod.fst = (groupBy (keyOf true) T).map Prod.fst := by
    unfold newBond
    rw [List.map_map]; rfl
  refine ⟨valueBlocks_groups _ (fun g => (svd (stackLeft (g.2.map Prod.snd))).2.1.shape.getD 0 0) hk hA.good, ?_, ?_, ?_, ?_, ?_⟩
  · rw [hvb]; exact hA.conf_q
  · rw [hvb]
    intro b hb
    obtain ⟨g, hm, rfl⟩ := List.mem_map.1 hb
    obtain ⟨k, n, h0, h1, h2, -⟩ := hsh hm
    rw [h2]
    have hnb : Dict.get? (newBond true T (fun g => (svd (stackLeft (g.2.map Prod.snd))).2.1.shape.getD 0 0)) g.1 = some k := by
      rw [newBond_get, Dict.get?_of_mem hw hm]
      simp [h1]
    exact .cons hnb (.cons h0 .nil)
  · rw [hvb, hkeys]
    apply sortedBy_groups hw
    · intro g hm b hb
      exact zip_key hm hb
    · intro g hm
      obtain ⟨n, hn, hin, hok⟩ := hA.group hm
      have := hok.pieces.length
      exact zip_ne_nil hm (by simpa using this)
  · rw [hvb, hkeys]
    exact sortedBy_map hw _ _ (fun g _ => rfl)
  · intro x y hx hy
    obtain ⟨y0, rfl⟩ : ∃ y0, y = [y0] := List.length_eq_one_iff.1 hy
    have := hA.product x hx y0
    rw [hvb]
    refine Eq.trans ?_ this
    apply sum_map_congr'
    intro z hz
    rw [mul_assoc]
    show _ = entry _ (x ++ [z]) * entry _ [z, y0]
    congr 1
    obtain ⟨q, t⟩ := z
    obtain ⟨q', y1⟩ := y0
    have e1 := entry_blockVec hw (fun g => (svd (stackLeft (g.2.map Prod.snd))).2.1) (fun g => (svd (stackLeft (g.2.map Prod.snd))).2.1.shape.getD 0 0) hk q t
    have e2 := entry_blockDiag hw (fun g => (svd (stackLeft (g.2.map Prod.snd))).2.2) (fun g => (svd (stackLeft (g.2.map Prod.snd))).2.1.shape.getD 0 0) (fun g => Counter.count r g.1) hvh q q' t y1
    have e3 := entry_blockDiag hw (fun g => valuesTimes c (svd (stackLeft (g.2.map Prod.snd)))) (fun g => (svd (stackLeft (g.2.map Prod.snd))).2.1.shape.getD 0 0) (fun g => Counter.count r g.1) hvh q q' t y1
    refine Eq.trans ?_ e3.symm
    refine Eq.trans (congrArg₂ (fun u v => c u * v) e1 e2) ?_
    cases Dict.get? (groupBy (keyOf true) T) q with
    | none => simp
    | some bs =>
      simp only
      by_cases h1 : q = q' ∧ t < (svd (stackLeft (bs.map Prod.snd))).2.1.shape.getD 0 0 ∧ y1 < Counter.count r q
      · rw [if_pos h1.2.1, if_pos h1, if_pos h1]; rfl
      · rw [if_neg h1, if_neg h1, mul_zero]

theorem blockSvd_right (c : V → K) (svd : Arr K → Arr K × Arr V × Arr K) (hsvd : IsSvd c svd) {legs : List (BondInfo Q)}
    {r : BondInfo Q} {T : SpT Q K} (hc : Conforms (r :: legs) T) (hg : ∀ b ∈ legs, GoodBond b) (hr : GoodBond r) :
    BlockSvd c [r] legs T (SpT.rightSvd svd T).1 (SpT.rightSvd svd T).2.1 (SpT.rightSvd svd T).2.2 := by
  have hA := assembled_rightSvd c svd hsvd hc hg hr
  have hsh := fun {g} hm => rightSvd_shapes c svd hsvd hc hg hr (g := g) hm
  have hw := wf_groupBy (keyOf false) T
  have hvb : valueBond (SpT.rightSvd svd T).2.1 = newBond false T (fun g => (svd (stackRight (g.2.map Prod.snd))).2.1.shape.getD 0 0) :=
    valueBond_groups _
  have hk : ∀ g ∈ groupBy (keyOf false) T, (svd (stackRight (g.2.map Prod.snd))).2.1.shape = [(svd (stackRight (g.2.map Prod.snd))).2.1.shape.getD 0 0] := by
    intro g hm
    obtain ⟨k, n, -, h1, -⟩ := hsh hm
    rw [h1]; rfl
  have hvh : ∀ g ∈ groupBy (keyOf false) T, (svd (stackRight (g.2.map Prod.snd))).1.shape = [Counter.count r g.1, (svd (stackRight (g.2.map Prod.snd))).2.1.shape.getD 0 0] := by
    intro g hm
    obtain ⟨k, n, h0, h1, h2, -⟩ := hsh hm
    rw [h1, h2]; simp [Counter.count, h0]
  have hkeys : (newBond false T (fun g => (svd (stackRight (g.2.map Prod.snd))).2.1.shape.getD 0 0)).map Prod.fst = (groupBy (keyOf false) T).map Prod.fst := by
    unfold newBond
    rw [List.map_map]; rfl
  refine ⟨valueBlocks_groups _ (fun g => (svd (stackRight (g.2.map Prod.snd))).2.1.shape.getD 0 0) hk hA.good, ?_, ?_, ?_, ?_, ?_⟩
  · rw [hvb]
    intro b hb
    obtain ⟨g, hm, rfl⟩ := List.mem_map.1 hb
    obtain ⟨k, n, h0, h1, h2, -⟩ := hsh hm
    rw [h2]
    have hnb : Dict.get? (newBond false T (fun g => (svd (stackRight (g.2.map Prod.snd))).2.1.shape.getD 0 0)) g.1 = some k := by
      rw [newBond_get, Dict.get?_of_mem hw hm]
      simp [h1]
    exact .cons h0 (.cons hnb .nil)
  · rw [hvb]; exact hA.conf_q
  · rw [hvb, hkeys]
    exact sortedBy_map hw _ _ (fun g _ => rfl)
  · rw [hvb, hkeys]
    apply sortedBy_groups hw
    · intro g hm b hb
      exact zip_key hm hb
    · intro g hm
      obtain ⟨n, hn, hin, hok⟩ := hA.group hm
      have := hok.pieces.length
      exact zip_ne_nil hm (by simpa using this)
  · intro x y hx hy
    obtain ⟨y0, rfl⟩ : ∃ y0, x = [y0] := List.length_eq_one_iff.1 hx
    have := hA.product y hy y0
    rw [hvb]
    refine Eq.trans ?_ this
    apply sum_map_congr'
    intro z hz
    rw [mul_comm]
    show _ = entry _ (z :: y) * entry _ [y0, z]
    congr 1
    obtain ⟨q, t⟩ := z
    obtain ⟨q', y1⟩ := y0
    have e1 := entry_blockVec hw (fun g => (svd (stackRight (g.2.map Prod.snd))).2.1) (fun g => (svd (stackRight (g.2.map Prod.snd))).2.1.shape.getD 0 0) hk q t
    have e2 := entry_blockDiag hw (fun g => (svd (stackRight (g.2.map Prod.snd))).1) (fun g => Counter.count r g.1) (fun g => (svd (stackRight (g.2.map Prod.snd))).2.1.shape.getD 0 0) hvh q' q y1 t
    have e3 := entry_blockDiag hw (fun g => timesValues c (svd (stackRight (g.2.map Prod.snd)))) (fun g => Counter.count r g.1) (fun g => (svd (stackRight (g.2.map Prod.snd))).2.1.shape.getD 0 0) hvh q' q y1 t
    refine Eq.trans ?_ e3.symm
    refine Eq.trans (congrArg₂ (fun u v => v * c u) e1 e2) ?_
    by_cases hq : q' = q
    · subst hq
      cases Dict.get? (groupBy (keyOf false) T) q' with
      | none => simp
      | some bs =>
        simp only [true_and]
        by_cases h1 : y1 < Counter.count r q' ∧ t < (svd (stackRight (bs.map Prod.snd))).2.1.shape.getD 0 0
        · rw [if_pos h1.2, if_pos h1, if_pos h1]; rfl
        · rw [if_neg h1, if_neg h1, zero_mul]
    · cases Dict.get? (groupBy (keyOf false) T) q' <;> simp [hq]

end

/-! ### Isometries -/

section
variable {Q K V : Type} [DecidableEq Q] [AddCommGroup Q] [CommRing K] [StarRing K] [AddCommMonoid V]

theorem legBasis_label_sum {r : BondInfo Q} (hr : Dict.WF r) (q : Q) (f : Q × Nat → K) (hf : ∀ z, z.1 ≠ q → f z = 0) :
    ((legBasis r).map f).sum = ((List.range (Counter.count r q)).map fun i => f (q, i)).sum := by
  unfold legBasis
  rw [sum_flatMap']
  refine (sum_dictC hr q (fun x => (((List.range x.2).map fun i => (x.1, i)).map f).sum) ?_).trans ?_
  · intro g _ hne
    apply List.sum_eq_zero
    intro v hv
    simp only [List.map_map, List.mem_map, Function.comp] at hv
    obtain ⟨i, _, rfl⟩ := hv
    exact hf _ hne
  · unfold Counter.count
    cases Dict.get? r q with
    | none => rfl
    | some n => simp only [List.map_map]; rfl

theorem mem_newBond {β : Type} {d : Dict Q β} (hd : Dict.WF d) {k : Q × β → Nat} {z : Q × Nat}
    (hz : z ∈ legBasis (d.map fun g => (g.1, k g))) : ∃ v, Dict.get? d z.1 = some v ∧ z.2 < k (z.1, v) := by
  unfold legBasis at hz
  simp only [List.mem_flatMap, List.mem_map, List.mem_range] at hz
  obtain ⟨_, ⟨g, hg, rfl⟩, i, hi, rfl⟩ := hz
  exact ⟨g.2, Dict.get?_of_mem hd hg, hi⟩

theorem blockDiag_rows {β : Type} {d : Dict Q β} (hd : Dict.WF d) (A : Q × β → Arr K) (k : Q × β → Nat) {r : BondInfo Q} (hr : Dict.WF r)
    (hA : ∀ g ∈ d, (A g).shape = [k g, Counter.count r g.1])
    (hiso : ∀ g ∈ d, ∀ s < k g, ∀ t < k g, ((List.range (Counter.count r g.1)).map fun j => star ((A g).get [s, j]) * (A g).get [t, j]).sum = if s = t then 1 else 0)
    {z z' : Q × Nat} (hz : z ∈ legBasis (d.map fun g => (g.1, k g))) (hz' : z' ∈ legBasis (d.map fun g => (g.1, k g))) :
    ((legBasis r).map fun y => star (entry (d.map fun g => ([g.1, g.1], A g)) [z, y]) * entry (d.map fun g => ([g.1, g.1], A g)) [z', y]).sum =
      if z = z' then 1 else 0 := by
  obtain ⟨q, t⟩ := z
  obtain ⟨q', t'⟩ := z'
  obtain ⟨v, hv, ht⟩ := mem_newBond hd hz
  obtain ⟨v', hv', ht'⟩ := mem_newBond hd hz'
  simp only at hv ht hv' ht'
  have he : ∀ y : Q × Nat, entry (d.map fun g => ([g.1, g.1], A g)) [(q, t), y] =
      if q = y.1 ∧ y.2 < Counter.count r q then (A (q, v)).get [t, y.2] else 0 := by
    rintro ⟨p, y⟩
    rw [entry_blockDiag hd A k (fun g => Counter.count r g.1) hA, hv]
    simp [ht]
  have he' : ∀ y : Q × Nat, entry (d.map fun g => ([g.1, g.1], A g)) [(q', t'), y] =
      if q' = y.1 ∧ y.2 < Counter.count r q' then (A (q', v')).get [t', y.2] else 0 := by
    rintro ⟨p, y⟩
    rw [entry_blockDiag hd A k (fun g => Counter.count r g.1) hA, hv']
    simp [ht']
  rw [sum_map_congr' _ _ _ (fun y _ => by rw [he y, he' y])]
  rw [legBasis_label_sum hr q _ (by
    intro y hy
    simp [Ne.symm hy])]
  by_cases e : q = q'
  · subst e
    rw [hv] at hv'
    cases hv'
    have := hiso _ (Dict.mem_of_get? hv) t ht t' ht'
    simp only at this
    simp only [Prod.mk.injEq, true_and]
    rw [← this]
    apply sum_map_congr'
    intro j hj
    rw [List.mem_range] at hj
    simp [hj]
  · rw [if_neg (by simp [e])]
    apply List.sum_eq_zero
    intro u hu
    obtain ⟨j, _, rfl⟩ := List.mem_map.1 hu
    simp [Ne.symm e]

theorem blockDiag_columns {β : Type} {d : Dict Q β} (hd : Dict.WF d) (A : Q × β → Arr K) (k : Q × β → Nat) {r : BondInfo Q} (hr : Dict.WF r)
    (hA : ∀ g ∈ d, (A g).shape = [Counter.count r g.1, k g])
    (hiso : ∀ g ∈ d, ∀ s < k g, ∀ t < k g, ((List.range (Counter.count r g.1)).map fun j => star ((A g).get [j, s]) * (A g).get [j, t]).sum = if s = t then 1 else 0)
    {z z' : Q × Nat} (hz : z ∈ legBasis (d.map fun g => (g.1, k g))) (hz' : z' ∈ legBasis (d.map fun g => (g.1, k g))) :
    ((legBasis r).map fun y => star (entry (d.map fun g => ([g.1, g.1], A g)) [y, z]) * entry (d.map fun g => ([g.1, g.1], A g)) [y, z']).sum =
      if z = z' then 1 else 0 := by
  obtain ⟨q, t⟩ := z
  obtain ⟨q', t'⟩ := z'
  obtain ⟨v, hv, ht⟩ := mem_newBond hd hz
  obtain ⟨v', hv', ht'⟩ := mem_newBond hd hz'
  simp only at hv ht hv' ht'
  have he : ∀ (y : Q × Nat) (q : Q) (t : Nat) v, Dict.get? d q = some v → t < k (q, v) → entry (d.map fun g => ([g.1, g.1], A g)) [y, (q, t)] =
      if q = y.1 ∧ y.2 < Counter.count r q then (A (q, v)).get [y.2, t] else 0 := by
    rintro ⟨p, y⟩ q t v hv ht
    rw [entry_blockDiag hd A (fun g => Counter.count r g.1) k hA]
    by_cases e : q = p
    · subst e
      rw [hv]
      simp [ht]
    · rw [if_neg (by simp [e])]
      cases Dict.get? d p <;> simp [Ne.symm e]
  rw [sum_map_congr' _ _ _ (fun y _ => by rw [he y q t v hv ht, he y q' t' v' hv' ht'])]
  rw [legBasis_label_sum hr q _ (by
    intro y hy
    simp [Ne.symm hy])]
  by_cases e : q = q'
  · subst e
    rw [hv] at hv'
    cases hv'
    have := hiso _ (Dict.mem_of_get? hv) t ht t' ht'
    simp only at this
    simp only [Prod.mk.injEq, true_and]
    rw [← this]
    apply sum_map_congr'
    intro j hj
    rw [List.mem_range] at hj
    simp [hj]
  · rw [if_neg (by simp [e])]
    apply List.sum_eq_zero
    intro u hu
    obtain ⟨j, _, rfl⟩ := List.mem_map.1 hu
    simp [Ne.symm e]

theorem leftSvd_isometries (c : V → K) (svd : Arr K → Arr K × Arr V × Arr K) (hsvd : IsSvd c svd) (hun : SvdUnitary svd) {legs : List (BondInfo Q)}
    {r : BondInfo Q} {T : SpT Q K} (hc : Conforms (legs ++ [r]) T) (hg : ∀ b ∈ legs, GoodBond b) (hr : GoodBond r) (hu : UniqueLabels T)
    (hq : HasCharge (legs.length + 1) T) :
    LeftIsometric legs (valueBond (SpT.leftSvd svd T).2.1) (SpT.leftSvd svd T).1 ∧
      RightIsometric (valueBond (SpT.leftSvd svd T).2.1) [r] (SpT.leftSvd svd T).2.2 := by
  have hA := assembled_leftSvd c svd hsvd hc hg hr
  have hsh := fun {g} hm => leftSvd_shapes c svd hsvd hc hg hr (g := g) hm
  have hw := wf_groupBy (keyOf true) T
  have hvb : valueBond (SpT.leftSvd svd T).2.1 = newBond true T (fun g => (svd (stackLeft (g.2.map Prod.snd))).2.1.shape.getD 0 0) :=
    valueBond_groups _
  rw [hvb]
  refine ⟨?_, ?_⟩
  · refine hA.isometry (fun b hb => (hg b hb).1) hu (hasCharge_det hA.conf hq) ?_
    intro g hm t ht t' ht'
    obtain ⟨k, n, h0, h1, h2, h3, h4, h5, h6⟩ := hsh hm
    rw [h1] at ht ht'
    simp only [List.getD_cons_zero, h6] at ht ht'
    exact hun.columns _ _ _ h3 h4 h5 t ht t' ht'
  · intro z hz z' hz'
    rw [legIndices_one_sum]
    refine blockDiag_rows hw (fun g => (svd (stackLeft (g.2.map Prod.snd))).2.2) _ hr.1 ?_ ?_ hz hz'
    · intro g hm
      obtain ⟨k, n, h0, h1, h2, -⟩ := hsh hm
      rw [h1, h2]; simp [Counter.count, h0]
    · intro g hm t ht t' ht'
      obtain ⟨k, n, h0, h1, h2, h3, h4, h5, h6⟩ := hsh hm
      rw [h1] at ht ht'
      simp only [List.getD_cons_zero, h6] at ht ht'
      have : Counter.count r g.1 = n := by simp [Counter.count, h0]
      rw [this]
      exact hun.rows _ _ _ h3 h4 h5 t ht t' ht'

theorem rightSvd_isometries (c : V → K) (svd : Arr K → Arr K × Arr V × Arr K) (hsvd : IsSvd c svd) (hun : SvdUnitary svd) {legs : List (BondInfo Q)}
    {r : BondInfo Q} {T : SpT Q K} (hc : Conforms (r :: legs) T) (hg : ∀ b ∈ legs, GoodBond b) (hr : GoodBond r) (hu : UniqueLabels T)
    (hq : HasCharge (legs.length + 1) T) :
    LeftIsometric [r] (valueBond (SpT.rightSvd svd T).2.1) (SpT.rightSvd svd T).1 ∧
      RightIsometric (valueBond (SpT.rightSvd svd T).2.1) legs (SpT.rightSvd svd T).2.2 := by
  have hA := assembled_rightSvd c svd hsvd hc hg hr
  have hsh := fun {g} hm => rightSvd_shapes c svd hsvd hc hg hr (g := g) hm
  have hw := wf_groupBy (keyOf false) T
  have hvb : valueBond (SpT.rightSvd svd T).2.1 = newBond false T (fun g => (svd (stackRight (g.2.map Prod.snd))).2.1.shape.getD 0 0) :=
    valueBond_groups _
  rw [hvb]
  refine ⟨?_, ?_⟩
  · intro z hz z' hz'
    rw [legIndices_one_sum]
    refine blockDiag_columns hw (fun g => (svd (stackRight (g.2.map Prod.snd))).1) _ hr.1 ?_ ?_ hz hz'
    · intro g hm
      obtain ⟨k, n, h0, h1, h2, -⟩ := hsh hm
      rw [h1, h2]; simp [Counter.count, h0]
    · intro g hm t ht t' ht'
      obtain ⟨k, n, h0, h1, h2, h3, h4, h5, h6⟩ := hsh hm
      rw [h1] at ht ht'
      simp only [List.getD_cons_zero, h6] at ht ht'
      have : Counter.count r g.1 = n := by simp [Counter.count, h0]
      rw [this]
      exact hun.columns _ _ _ h3 h5 h4 t ht t' ht'
  · refine hA.isometry (fun b hb => (hg b hb).1) hu (hasCharge_det hA.conf hq) ?_
    intro g hm t ht t' ht'
    obtain ⟨k, n, h0, h1, h2, h3, h4, h5, h6⟩ := hsh hm
    rw [h1] at ht ht'
    simp only [List.getD_cons_zero, h6] at ht ht'
    exact hun.rows _ _ _ h3 h5 h4 t ht t' ht'

end
end Verif
