import Verif.Proof.Mps
import Verif.Thm.Sparse

/-! Lemmas about the bonds read off site tensors (`SparseTensor.infos`) and the bonds of a sum of matrix product states. -/

set_option linter.unusedSectionVars false

namespace Verif
section
variable {Q K : Type} [DecidableEq Q] [Zero Q]

theorem IsCombination.getD {legs : List (BondInfo Q)} {qs : List Q} {sh : List Nat} (h : IsCombination legs qs sh) {k : Nat}
    (hk : k < legs.length) : Dict.get? (legs.getD k []) (qs.getD k 0) = some (sh.getD k 0) := by
  induction h generalizing k with
  | nil => simp at hk
  | cons h1 h2 ih =>
    cases k with
    | zero => simpa using h1
    | succ k => simpa using ih (by simpa using hk)

/-- One new block on one leg. -/
def addInfo (I : BondInfo Q) (q : Q) (s : Nat) : BondInfo Q := if Dict.has I q then I else Dict.set I q s

/-- The labels and dimensions found on leg `k`. -/
def occ (k : Nat) (T : SpT Q K) : BondInfo Q := T.foldl (fun I b => addInfo I (b.1.getD k 0) (b.2.shape.getD k 0)) []

theorem mapM_some' {α β : Type} (f : α → Option β) (g : α → β) (l : List α) (h : ∀ x ∈ l, f x = some (g x)) :
    l.mapM f = some (l.map g) := by
  induction l with
  | nil => rfl
  | cons a t ih =>
    rw [List.mapM_cons, h a (by simp), ih fun x hx => h x (by simp [hx])]
    rfl

theorem infosStep_eq {legs : List (BondInfo Q)} {b : List Q × Arr K} (hb : IsCombination legs b.1 b.2.shape) (J : Nat → BondInfo Q)
    (hJ : ∀ k, k < legs.length → ∀ q s, Dict.get? (J k) q = some s → Dict.get? (legs.getD k []) q = some s) :
    SpT.infosStep ((List.range legs.length).map J) b =
      some ((List.range legs.length).map fun k => addInfo (J k) (b.1.getD k 0) (b.2.shape.getD k 0)) := by
  obtain ⟨h1, h2⟩ := hb.lengths
  have hz : ((List.range legs.length).map J).zip (b.1.zip b.2.shape) =
      (List.range legs.length).map fun k => (J k, b.1.getD k 0, b.2.shape.getD k 0) := by
    apply List.ext_getElem
    · simp [h1, h2]
    · intro k hk hk'
      simp at hk'
      simp [List.getD_eq_getElem?_getD, List.getElem?_eq_getElem (h1 ▸ hk' : k < b.1.length),
        List.getElem?_eq_getElem (h2 ▸ hk' : k < b.2.shape.length)]
  unfold SpT.infosStep
  rw [hz, mapM_some' _ (fun x => addInfo x.1 x.2.1 x.2.2), List.map_map]
  · rfl
  · intro x hx
    obtain ⟨k, hk, rfl⟩ := List.mem_map.1 hx
    have hk' := List.mem_range.1 hk
    simp only
    rcases hg : Dict.get? (J k) (b.1.getD k 0) with _ | v
    · rw [addInfo, Dict.has, hg]; rfl
    · rw [addInfo, Dict.has, hg]
      have := hJ k hk' _ _ hg
      rw [hb.getD hk'] at this
      simp only [Option.isSome_some, if_true]
      rw [if_pos (Option.some.inj this)]

theorem addInfo_get (I : BondInfo Q) (q : Q) (s : Nat) (q' : Q) :
    Dict.get? (addInfo I q s) q' = if Dict.has I q = false ∧ q = q' then some s else Dict.get? I q' := by
  unfold addInfo
  cases h : Dict.has I q
  · simp [Dict.get?_set]
  · simp

theorem addInfo_sub {I l : BondInfo Q} (hI : ∀ q s, Dict.get? I q = some s → Dict.get? l q = some s) {q : Q} {s : Nat}
    (h : Dict.get? l q = some s) : ∀ q' s', Dict.get? (addInfo I q s) q' = some s' → Dict.get? l q' = some s' := by
  intro q' s' h'
  rw [addInfo_get] at h'
  split at h'
  · rename_i hc
    rw [← hc.2, h]; exact h'
  · exact hI _ _ h'

theorem infos_fold {legs : List (BondInfo Q)} (T : SpT Q K) (hT : Conforms legs T) (J : Nat → BondInfo Q)
    (hJ : ∀ k, k < legs.length → ∀ q s, Dict.get? (J k) q = some s → Dict.get? (legs.getD k []) q = some s) :
    T.foldlM SpT.infosStep ((List.range legs.length).map J) =
      some ((List.range legs.length).map fun k => T.foldl (fun I b => addInfo I (b.1.getD k 0) (b.2.shape.getD k 0)) (J k)) := by
  induction T generalizing J with
  | nil => rfl
  | cons b T ih =>
    rw [Conforms.cons] at hT
    rw [List.foldlM_cons, infosStep_eq hT.1 J hJ]
    exact ih hT.2 _ fun k hk => addInfo_sub (hJ k hk) (hT.1.getD hk)

theorem ndim_of_conforms {legs : List (BondInfo Q)} {T : SpT Q K} (hT : Conforms legs T) (hne : T ≠ []) : T.ndim = legs.length := by
  cases T with
  | nil => exact absurd rfl hne
  | cons b T => exact (hT b (List.mem_cons_self ..)).lengths.2

/-- `infos` of a tensor that fits its legs: no failed assertion. -/
theorem infos_eq {legs : List (BondInfo Q)} {T : SpT Q K} (hT : Conforms legs T) (hne : T ≠ []) :
    SpT.infos T = some ((List.range legs.length).map fun k => occ k T) := by
  unfold SpT.infos
  rw [ndim_of_conforms hT hne]
  have : List.replicate legs.length ([] : BondInfo Q) = (List.range legs.length).map fun _ => [] := by
    simp
  rw [this]
  exact infos_fold T hT _ (fun k _ q s h => by simp at h)

theorem occ_fold {legs : List (BondInfo Q)} {k : Nat} (hk : k < legs.length) (T : SpT Q K) (hT : Conforms legs T) (I : BondInfo Q)
    (hw : Dict.WF I) (hI : ∀ q s, Dict.get? I q = some s → Dict.get? (legs.getD k []) q = some s) :
    let r := T.foldl (fun I b => addInfo I (b.1.getD k 0) (b.2.shape.getD k 0)) I
    Dict.WF r ∧ ∀ q s, Dict.get? r q = some s ↔ Dict.get? (legs.getD k []) q = some s ∧ ((Dict.get? I q).isSome ∨ OccursOn T k q) := by
  induction T generalizing I with
  | nil =>
    refine ⟨hw, fun q s => ⟨fun h => ⟨hI q s h, Or.inl (by rw [show Dict.get? I q = some s from h]; rfl)⟩, ?_⟩⟩
    rintro ⟨h1, h2 | ⟨b, hb, -⟩⟩
    · obtain ⟨s', hs'⟩ := Option.isSome_iff_exists.1 h2
      have := hI _ _ hs'
      rw [h1] at this
      rw [Option.some.inj this]; exact hs'
    · simp at hb
  | cons b T ih =>
    rw [Conforms.cons] at hT
    have hb := hT.1.getD hk
    obtain ⟨i1, i2⟩ := ih hT.2 (addInfo I (b.1.getD k 0) (b.2.shape.getD k 0))
      (by unfold addInfo; split; exact hw; exact Dict.WF.set hw _ _) (addInfo_sub hI hb)
    refine ⟨i1, fun q s => ?_⟩
    rw [List.foldl_cons, i2]
    refine and_congr_right fun _ => ?_
    rw [addInfo_get]
    have ho : OccursOn (b :: T) k q ↔ b.1.getD k 0 = q ∨ OccursOn T k q := by simp [OccursOn]
    rw [ho]
    clear i2 i1 hb ho
    generalize b.1.getD k 0 = q0
    by_cases hq : q0 = q
    · subst hq
      rcases hg : Dict.get? I q0 with _ | v
      · simp [Dict.has, hg]
      · simp [Dict.has, hg]
    · simp [hq]

theorem occ_spec {legs : List (BondInfo Q)} {k : Nat} (hk : k < legs.length) {T : SpT Q K} (hT : Conforms legs T) :
    Dict.WF (occ k T) ∧ ∀ q s, Dict.get? (occ k T) q = some s ↔ Dict.get? (legs.getD k []) q = some s ∧ OccursOn T k q := by
  obtain ⟨h1, h2⟩ := occ_fold hk T hT [] Dict.WF.nil (fun q s h => by simp at h)
  exact ⟨h1, fun q s => by rw [occ, h2]; simp⟩

open Classical in
theorem occ_count {legs : List (BondInfo Q)} {k : Nat} (hk : k < legs.length) {T : SpT Q K} (hT : Conforms legs T) (q : Q) :
    Counter.count (occ k T) q = if OccursOn T k q then Counter.count (legs.getD k []) q else 0 := by
  have h := (occ_spec hk hT).2 q
  split
  · rename_i ho
    rcases hg : Dict.get? (occ k T) q with _ | s
    · rcases hg' : Dict.get? (legs.getD k []) q with _ | s
      · rw [Counter.count, hg, Counter.count, hg']
      · exact absurd ((h s).2 ⟨hg', ho⟩) (by rw [hg]; simp)
    · rw [count_of_get hg, count_of_get ((h s).1 hg).1]
  · rename_i ho
    rcases hg : Dict.get? (occ k T) q with _ | s
    · rw [Counter.count, hg]; rfl
    · exact absurd ((h s).1 hg).2 ho

theorem mem_bond_set {d : BondInfo Q} {k : Q} {v : Nat} {x : Q × Nat} (h : x ∈ Dict.set d k v) : x ∈ d ∨ x = (k, v) := by
  induction d with
  | nil => exact Or.inr (by simpa [Dict.set] using h)
  | cons a d ih =>
    rw [Dict.set] at h
    split at h
    · rename_i hk
      rcases List.mem_cons.1 h with rfl | h
      · exact Or.inr (by rw [hk])
      · exact Or.inl (List.mem_cons_of_mem _ h)
    · rcases List.mem_cons.1 h with rfl | h
      · exact Or.inl (List.mem_cons_self ..)
      · rcases ih h with h | h
        · exact Or.inl (List.mem_cons_of_mem _ h)
        · exact Or.inr h

theorem pos_foldl_set (c : Q → Nat → Bool) (g : Q → Nat → Nat) (hc : ∀ k v, c k v = true → 0 < g k v) (l r : BondInfo Q)
    (hr : ∀ x ∈ r, 0 < x.2) : ∀ x ∈ l.foldl (fun r p => if c p.1 p.2 then Dict.set r p.1 (g p.1 p.2) else r) r, 0 < x.2 := by
  induction l generalizing r with
  | nil => exact hr
  | cons a l ih =>
    refine ih _ ?_
    show ∀ x ∈ (if c a.1 a.2 then Dict.set r a.1 (g a.1 a.2) else r), 0 < x.2
    split
    · rename_i h
      intro x hx
      rcases mem_bond_set hx with hx | rfl
      · exact hr x hx
      · exact hc _ _ h
    · exact hr

theorem good_union (a b : BondInfo Q) : GoodBond (BondInfo.union a b) := by
  refine ⟨(C06_wf a b).2.1, ?_⟩
  unfold BondInfo.union
  refine pos_foldl_set (fun k v => !Dict.has a k && decide (0 < v)) (fun _ v => v) (fun k v h => of_decide_eq_true (Bool.and_eq_true _ _ ▸ h).2) b _ ?_
  have := pos_foldl_set (fun k v => decide (0 < if v < Counter.count b k then Counter.count b k else v))
    (fun k v => if v < Counter.count b k then Counter.count b k else v) (fun k v h => by simpa using h) a [] (by simp)
  simpa using this

theorem good_add (a b : BondInfo Q) : GoodBond (BondInfo.addCounts a b) := by
  refine ⟨(C06_wf a b).2.2.1, ?_⟩
  unfold BondInfo.addCounts
  refine pos_foldl_set (fun k v => !Dict.has a k && decide (0 < v)) (fun _ v => v) (fun k v h => of_decide_eq_true (Bool.and_eq_true _ _ ▸ h).2) b _ ?_
  have := pos_foldl_set (fun k v => decide (0 < v + Counter.count b k))
    (fun k v => v + Counter.count b k) (fun k v h => by simpa using h) a [] (by simp)
  simpa using this

theorem Conforms.ends {l r l' r' : BondInfo Q} {ph : List (BondInfo Q)} {T : SpT Q K} (hT : Conforms (l :: ph ++ [r]) T)
    (hl : ∀ q s, OccursOn T 0 q → Dict.get? l q = some s → Dict.get? l' q = some s)
    (hr : ∀ q s, OccursOn T (ph.length + 1) q → Dict.get? r q = some s → Dict.get? r' q = some s) : Conforms (l' :: ph ++ [r']) T := by
  intro b hb
  have hq := hT b hb
  obtain ⟨ql, q, qr, sl, s, sr, h1, h2, h3, h4, h5⟩ := hq.ends
  rw [h1, h2]
  refine IsCombination.ofEnds (hl _ _ ⟨b, hb, by rw [h1]; rfl⟩ h3) h4 (hr _ _ ⟨b, hb, ?_⟩ h5)
  rw [h1]
  have := getD_last ql q qr (0 : Q)
  rwa [h4.lengths.1] at this

/-- The bonds found on the sites, as a function. -/
def siteInfos (T : SpT Q K) : List (BondInfo Q) := (List.range T.ndim).map fun k => occ k T

theorem siteInfos_first {l r : BondInfo Q} {ph : List (BondInfo Q)} {T : SpT Q K} (hT : Conforms (l :: ph ++ [r]) T) (hne : T ≠ []) :
    (siteInfos T).getD 0 [] = occ 0 T ∧ (siteInfos T).headD [] = occ 0 T := by
  unfold siteInfos
  rw [ndim_of_conforms hT hne, length_ends]
  constructor <;> simp [List.range_succ_eq_map]

theorem siteInfos_last {l r : BondInfo Q} {ph : List (BondInfo Q)} {T : SpT Q K} (hT : Conforms (l :: ph ++ [r]) T) (hne : T ≠ []) :
    (siteInfos T).getLastD [] = occ (ph.length + 1) T := by
  unfold siteInfos
  rw [ndim_of_conforms hT hne, length_ends, List.range_succ]
  simp

theorem infos_site {legs : List (BondInfo Q)} {T : SpT Q K} (hT : Conforms legs T) (hne : T ≠ []) : SpT.infos T = some (siteInfos T) := by
  rw [infos_eq hT hne, siteInfos, ndim_of_conforms hT hne]

theorem getD_mid {α : Type} (l : α) (ph : List α) (r d : α) : (l :: ph ++ [r]).getD (ph.length + 1) d = r := getD_last l ph r d

theorem innerBond_count {l b r : BondInfo Q} {ph ph' : List (BondInfo Q)} {T T' : SpT Q K} (hT : Conforms (l :: ph ++ [b]) T) (hne : T ≠ [])
    (hT' : Conforms (b :: ph' ++ [r]) T') (hne' : T' ≠ []) (q : Q) :
    Counter.count (BondInfo.union ((siteInfos T').getD 0 []) ((siteInfos T).getLastD [])) q = usedDim b T T' (ph.length + 1) q := by
  have h0 : 0 < (b :: ph' ++ [r]).length := by simp
  have h1 : ph.length + 1 < (l :: ph ++ [b]).length := by simp
  rw [(siteInfos_first hT' hne').1, siteInfos_last hT hne, C06_union _ _ (occ_spec h0 hT').1 (occ_spec h1 hT).1,
    occ_count h0 hT', occ_count h1 hT, getD_mid]
  unfold usedDim
  have e : (b :: ph' ++ [r]).getD 0 [] = b := rfl
  rw [e]
  by_cases ho : OccursOn T (ph.length + 1) q <;> by_cases ho' : OccursOn T' 0 q <;> simp [ho, ho']

theorem innerBond_get {l b r : BondInfo Q} {ph ph' : List (BondInfo Q)} {T T' : SpT Q K} (hT : Conforms (l :: ph ++ [b]) T) (hne : T ≠ [])
    (hT' : Conforms (b :: ph' ++ [r]) T') (hne' : T' ≠ []) (hb : ∀ x ∈ b, 0 < x.2) {q : Q} {s : Nat} (hq : Dict.get? b q = some s)
    (ho : OccursOn T (ph.length + 1) q ∨ OccursOn T' 0 q) :
    Dict.get? (BondInfo.union ((siteInfos T').getD 0 []) ((siteInfos T).getLastD [])) q = some s := by
  have h := innerBond_count hT hne hT' hne' q
  rw [usedDim, if_pos ho, count_of_get hq] at h
  rw [← h]
  exact get_of_count (by rw [h]; exact hb _ (Dict.mem_of_get? hq))

/-- The sites live on the bonds read off them. -/
theorem rehome {l r F E : BondInfo Q} {X : List (BondInfo Q)} {phys : List (List (BondInfo Q))} {ts : List (SpT Q K)}
    (h : OnBonds (l :: X ++ [r]) phys ts) (hX : ∀ b ∈ X, GoodBond b) (hne : ∀ T ∈ ts, T ≠ [])
    (hF : ∀ q s, OccursOn (ts.headD []) 0 q → Dict.get? l q = some s → Dict.get? F q = some s)
    (hE : ∀ q s, OccursOn (ts.getLastD []) ((phys.getLastD []).length + 1) q → Dict.get? r q = some s → Dict.get? E q = some s) :
    OnBonds (F :: Mps.innerBonds (ts.map siteInfos) ++ [E]) phys ts ∧ (Mps.innerBonds (ts.map siteInfos)).length = X.length ∧
      ∀ b ∈ Mps.innerBonds (ts.map siteInfos), GoodBond b := by
  induction X generalizing l F phys ts with
  | nil =>
    rcases phys with _ | ⟨ph, phys⟩
    · exact h.elim
    rcases ts with _ | ⟨T, ts⟩
    · exact h.elim
    have hts : phys = [] ∧ ts = [] := by
      have h2 := h.2
      rcases phys with _ | ⟨ph, phys⟩ <;> rcases ts with _ | ⟨T, ts⟩ <;> simp_all [OnBonds]
    obtain ⟨rfl, rfl⟩ := hts
    refine ⟨⟨Conforms.ends h.1 hF hE, trivial⟩, rfl, ?_⟩
    simp [Mps.innerBonds]
  | cons b X ih =>
    rcases phys with _ | ⟨ph, _ | ⟨ph', phys⟩⟩
    · exact h.elim
    · rcases ts with _ | ⟨T, _ | ⟨T', ts⟩⟩ <;> rcases X with _ | ⟨c, X⟩ <;> exact absurd h (by simp [OnBonds])
    rcases ts with _ | ⟨T, _ | ⟨T', ts⟩⟩
    · exact h.elim
    · rcases X with _ | ⟨c, X⟩ <;> exact absurd h (by simp [OnBonds])
    have hb := hX b (List.mem_cons_self ..)
    have hneT := hne T (List.mem_cons_self ..)
    have hneT' := hne T' (by simp)
    obtain ⟨r', X', hr'⟩ : ∃ r' X', X ++ [r] = r' :: X' := by
      rcases X with _ | ⟨c, X⟩
      · exact ⟨_, _, rfl⟩
      · exact ⟨_, _, rfl⟩
    have hT' : Conforms (b :: ph' ++ [r']) T' := by
      have h2 := h.2
      rw [List.append_eq, hr'] at h2
      exact h2.1
    let B := BondInfo.union ((siteInfos T').getD 0 []) ((siteInfos T).getLastD [])
    have hI : Mps.innerBonds ((T :: T' :: ts).map siteInfos) = B :: Mps.innerBonds ((T' :: ts).map siteInfos) := rfl
    obtain ⟨i1, i2, i3⟩ := ih (l := b) (F := B) (phys := ph' :: phys) (ts := T' :: ts) h.2 (fun c hc => hX c (List.mem_cons_of_mem _ hc))
      (fun c hc => hne c (List.mem_cons_of_mem _ hc))
      (fun q s ho hq => innerBond_get h.1 hneT hT' hneT' hb.2 hq (Or.inr ho)) (by simpa using hE)
    rw [hI]
    refine ⟨⟨Conforms.ends h.1 hF fun q s ho hq => innerBond_get h.1 hneT hT' hneT' hb.2 hq (Or.inl ho), i1⟩, (congrArg (· + 1) i2).trans (by simp), ?_⟩
    intro c hc
    rcases List.mem_cons.1 hc with rfl | hc
    · exact good_union _ _
    · exact i3 c hc

/-- Dimensions of the bonds read off the sites. -/
theorem innerBonds_count {l r : BondInfo Q} {X : List (BondInfo Q)} {phys : List (List (BondInfo Q))} {ts : List (SpT Q K)}
    (h : OnBonds (l :: X ++ [r]) phys ts) (hne : ∀ T ∈ ts, T ≠ []) (k : Nat) (hk : k < X.length) (q : Q) :
    Counter.count ((Mps.innerBonds (ts.map siteInfos)).getD k []) q =
      usedDim (X.getD k []) (ts.getD k []) (ts.getD (k + 1) []) ((phys.getD k []).length + 1) q := by
  induction X generalizing l phys ts k with
  | nil => simp at hk
  | cons b X ih =>
    rcases phys with _ | ⟨ph, _ | ⟨ph', phys⟩⟩
    · exact h.elim
    · rcases ts with _ | ⟨T, _ | ⟨T', ts⟩⟩ <;> rcases X with _ | ⟨c, X⟩ <;> exact absurd h (by simp [OnBonds])
    rcases ts with _ | ⟨T, _ | ⟨T', ts⟩⟩
    · exact h.elim
    · rcases X with _ | ⟨c, X⟩ <;> exact absurd h (by simp [OnBonds])
    have hneT := hne T (List.mem_cons_self ..)
    have hneT' := hne T' (by simp)
    obtain ⟨r', X', hr'⟩ : ∃ r' X', X ++ [r] = r' :: X' := by
      rcases X with _ | ⟨c, X⟩
      · exact ⟨_, _, rfl⟩
      · exact ⟨_, _, rfl⟩
    have hT' : Conforms (b :: ph' ++ [r']) T' := by
      have h2 := h.2
      rw [List.append_eq, hr'] at h2
      exact h2.1
    cases k with
    | zero => exact innerBond_count h.1 hneT hT' hneT' q
    | succ k => exact ih h.2 (fun c hc => hne c (List.mem_cons_of_mem _ hc)) k (by simpa using hk)

theorem OnBonds.widen {l r l' r' : BondInfo Q} {X : List (BondInfo Q)} {phys : List (List (BondInfo Q))} {ts : List (SpT Q K)}
    (h : OnBonds (l :: X ++ [r]) phys ts) (hl : ∀ q s, Dict.get? l q = some s → Dict.get? l' q = some s)
    (hr : ∀ q s, Dict.get? r q = some s → Dict.get? r' q = some s) : OnBonds (l' :: X ++ [r']) phys ts := by
  induction X generalizing l l' phys ts with
  | nil =>
    rcases phys with _ | ⟨ph, phys⟩
    · exact h.elim
    rcases ts with _ | ⟨T, ts⟩
    · exact h.elim
    refine ⟨Conforms.ends h.1 (fun q s _ => hl q s) (fun q s _ => hr q s), ?_⟩
    have h2 := h.2
    rcases phys with _ | ⟨ph, phys⟩ <;> rcases ts with _ | ⟨T, ts⟩ <;> simp_all [OnBonds]
  | cons b X ih =>
    rcases phys with _ | ⟨ph, phys⟩
    · exact h.elim
    rcases ts with _ | ⟨T, ts⟩
    · exact h.elim
    exact ⟨Conforms.ends h.1 (fun q s _ => hl q s) (fun q s _ hq => hq), ih h.2 (fun _ _ hq => hq)⟩

theorem OnBonds.lengths {l r : BondInfo Q} {X : List (BondInfo Q)} {phys : List (List (BondInfo Q))} {ts : List (SpT Q K)}
    (h : OnBonds (l :: X ++ [r]) phys ts) : ts.length = X.length + 1 ∧ phys.length = X.length + 1 := by
  induction X generalizing l phys ts with
  | nil =>
    rcases phys with _ | ⟨ph, phys⟩
    · exact h.elim
    rcases ts with _ | ⟨T, ts⟩
    · exact h.elim
    have h2 := h.2
    rcases phys with _ | ⟨ph, phys⟩ <;> rcases ts with _ | ⟨T, ts⟩ <;> simp_all [OnBonds]
  | cons b X ih =>
    rcases phys with _ | ⟨ph, phys⟩
    · exact h.elim
    rcases ts with _ | ⟨T, ts⟩
    · exact h.elim
    have := ih h.2
    simp [this]

end
end Verif
