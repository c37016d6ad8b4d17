import Verif.Model.BondDim
import Verif.Spec.BondDim
import Verif.Thm.Mps

/-!
C83: the bond dimension of a matrix product state.
-/

set_option linter.unusedSectionVars false

namespace Verif
open Mps
section
variable {Q K : Type} [DecidableEq Q] [Zero Q] [Semiring K]

theorem length_legBasis (b : BondInfo Q) : (legBasis b).length = b.nBonds := by
  unfold legBasis BondInfo.nBonds Dict.values
  rw [List.length_flatMap]
  simp

/-- `infos` of a site, the case without blocks included. -/
theorem infos_any {legs : List (BondInfo Q)} {T : SpT Q K} (hT : Conforms legs T) : SpT.infos T = some (siteInfos T) := by
  by_cases h : T = []
  · subst h; rfl
  · exact infos_site hT h

theorem oneLeg_first {l r : BondInfo Q} {ph : List (BondInfo Q)} {T : SpT Q K} (hT : Conforms (l :: ph ++ [r]) T) :
    (orOneLeg (siteInfos T)).getD 0 [] = occ 0 T ∧ (orOneLeg (siteInfos T)).headD [] = occ 0 T := by
  by_cases h : T = []
  · subst h; exact ⟨rfl, rfl⟩
  · have hl : (siteInfos T).length ≠ 0 := by
      rw [siteInfos, List.length_map, List.length_range, ndim_of_conforms hT h]; simp
    rw [orOneLeg, if_pos hl]
    exact siteInfos_first hT h

theorem oneLeg_last {l r : BondInfo Q} {ph : List (BondInfo Q)} {T : SpT Q K} (hT : Conforms (l :: ph ++ [r]) T) :
    (orOneLeg (siteInfos T)).getLastD [] = occ (ph.length + 1) T := by
  by_cases h : T = []
  · subst h; rfl
  · have hl : (siteInfos T).length ≠ 0 := by
      rw [siteInfos, List.length_map, List.length_range, ndim_of_conforms hT h]; simp
    rw [orOneLeg, if_pos hl]
    exact siteInfos_last hT h

open Classical in
/-- A bond whose dimensions are those of `b` on the labels in `P` and zero elsewhere. -/
theorem nBonds_filter {b c : BondInfo Q} (hb : Dict.WF b) (hc : Dict.WF c) (P : Q → Prop)
    (h : ∀ q, Counter.count c q = if P q then Counter.count b q else 0) :
    c.nBonds = ((legBasis b).filter fun z => decide (P z.1)).length := by
  rw [← length_legBasis]
  refine ((List.perm_ext_iff_of_nodup (legBasis_nodup hc) ((legBasis_nodup hb).filter _)).2 fun z => ?_).length_eq
  rw [List.mem_filter, mem_legBasis hc, mem_legBasis hb, h]
  by_cases hp : P z.1 <;> simp [hp]

open Classical in
theorem inner_sizes {r : BondInfo Q} : ∀ {X : List (BondInfo Q)} {l : BondInfo Q} {phys : List (List (BondInfo Q))} {ts : List (SpT Q K)},
    OnBonds (l :: X ++ [r]) phys ts → (∀ c ∈ X, Dict.WF c) →
    (innerBonds (ts.map fun T => orOneLeg (siteInfos T))).map BondInfo.nBonds =
      (List.range X.length).map fun j => (usedStates (l :: X ++ [r]) phys ts (j + 1)).length
  | [], l, phys, ts, h, _ => by
    rcases phys with _ | ⟨ph, phys⟩
    · exact h.elim
    rcases ts with _ | ⟨T, ts⟩
    · exact h.elim
    have h2 := h.2
    rcases phys with _ | ⟨ph', phys⟩ <;> rcases ts with _ | ⟨T', ts⟩
    · rfl
    all_goals exact h2.elim
  | b :: X, l, phys, ts, h, hw => by
    rcases phys with _ | ⟨ph, phys⟩
    · exact h.elim
    rcases ts with _ | ⟨T, ts⟩
    · exact h.elim
    have h2 : OnBonds (b :: X ++ [r]) phys ts := h.2
    have ih := inner_sizes h2 fun c hc => hw c (by simp [hc])
    obtain ⟨m, hm⟩ := h2.first
    obtain ⟨e1, e2⟩ := h2.lengths
    rcases phys with _ | ⟨ph', phys⟩
    · simp at e2
    rcases ts with _ | ⟨T', ts⟩
    · simp at e1
    have hT : Conforms (l :: ph ++ [b]) T := h.1
    have hT' : Conforms (b :: ph' ++ [m]) T' := hm
    rw [List.map_cons, List.map_cons, innerBonds, List.map_cons]
    rw [List.map_cons] at ih
    rw [ih, List.length_cons, List.range_succ_eq_map, List.map_cons, List.map_map]
    congr 1
    rw [(oneLeg_first hT').1, oneLeg_last hT]
    have k0 : 0 < (b :: ph' ++ [m]).length := by simp
    have k1 : ph.length + 1 < (l :: ph ++ [b]).length := by simp
    refine nBonds_filter (b := b) (hw b (by simp)) (good_union _ _).1 (fun q => UsedOn (ph :: ph' :: phys) (T :: T' :: ts) (0 + 1) q) fun q => ?_
    rw [C06_union _ _ (occ_spec k0 hT').1 (occ_spec k1 hT).1, occ_count k0 hT', occ_count k1 hT, getD_mid]
    have hu : UsedOn (ph :: ph' :: phys) (T :: T' :: ts) (0 + 1) q ↔ OccursOn T (ph.length + 1) q ∨ OccursOn T' 0 q := Iff.rfl
    rw [show (b :: ph' ++ [m]).getD 0 [] = b from rfl]
    by_cases ho : OccursOn T (ph.length + 1) q <;> by_cases ho' : OccursOn T' 0 q <;> simp [ho, ho', hu]

theorem first_size {l r : BondInfo Q} {X : List (BondInfo Q)} {phys : List (List (BondInfo Q))} {ts : List (SpT Q K)}
    (h : OnBonds (l :: X ++ [r]) phys ts) (hl : Dict.WF l) (T : SpT Q K) (hT : ts.head? = some T) :
    ((orOneLeg (siteInfos T)).headD []).nBonds = (usedStates (l :: X ++ [r]) phys ts 0).length := by
  obtain ⟨m, hm⟩ := h.first
  rcases ts with _ | ⟨T0, ts⟩
  · simp at hT
  obtain rfl : T0 = T := by simpa using hT
  change Conforms (l :: phys.headD [] ++ [m]) T0 at hm
  rw [(oneLeg_first hm).2]
  have k0 : 0 < (l :: phys.headD [] ++ [m]).length := by simp
  refine nBonds_filter (b := l) hl (occ_spec k0 hm).1 (fun q => UsedOn phys (T0 :: ts) 0 q) fun q => ?_
  have := occ_count k0 hm q
  exact this

theorem last_size {r : BondInfo Q} : ∀ {X : List (BondInfo Q)} {l : BondInfo Q} {phys : List (List (BondInfo Q))} {ts : List (SpT Q K)},
    OnBonds (l :: X ++ [r]) phys ts → Dict.WF r → ∀ T, ts.getLast? = some T →
    ((orOneLeg (siteInfos T)).getLastD []).nBonds = (usedStates (l :: X ++ [r]) phys ts (X.length + 1)).length
  | [], l, phys, ts, h, hr, T, hT => by
    rcases phys with _ | ⟨ph, phys⟩
    · exact h.elim
    rcases ts with _ | ⟨T0, ts⟩
    · exact h.elim
    have h2 := h.2
    rcases phys with _ | ⟨ph', phys⟩ <;> rcases ts with _ | ⟨T', ts⟩
    · obtain rfl : T0 = T := by simpa using hT
      have hc : Conforms (l :: ph ++ [r]) T0 := h.1
      rw [oneLeg_last hc]
      have k1 : ph.length + 1 < (l :: ph ++ [r]).length := by simp
      refine nBonds_filter (b := r) hr (occ_spec k1 hc).1 (fun q => UsedOn [ph] [T0] 1 q) fun q => ?_
      rw [occ_count k1 hc, getD_mid]
      have : UsedOn [ph] [T0] 1 q ↔ OccursOn T0 (ph.length + 1) q := by
        show (OccursOn T0 (ph.length + 1) q ∨ OccursOn ([] : SpT Q K) 0 q) ↔ _
        simp [OccursOn]
      by_cases ho : OccursOn T0 (ph.length + 1) q
      · rw [if_pos ho, if_pos (this.2 ho)]
      · rw [if_neg ho, if_neg (fun hu => ho (this.1 hu))]
    all_goals exact h2.elim
  | b :: X, l, phys, ts, h, hr, T, hT => by
    rcases phys with _ | ⟨ph, phys⟩
    · exact h.elim
    rcases ts with _ | ⟨T0, ts⟩
    · exact h.elim
    have h2 : OnBonds (b :: X ++ [r]) phys ts := h.2
    obtain ⟨e1, e2⟩ := h2.lengths
    have hT' : ts.getLast? = some T := by
      rcases ts with _ | ⟨T', ts⟩
      · simp at e1
      · simpa using hT
    exact last_size h2 hr T hT'

theorem foldl_max (l : List (BondInfo Q)) (d : Nat) :
    l.foldl (fun d b => max d b.nBonds) d = (l.map BondInfo.nBonds).foldl max d := by
  rw [List.foldl_map]

theorem foldl_max_attained (l : List Nat) (d : Nat) : d ≤ l.foldl max d ∧ (∀ x ∈ l, x ≤ l.foldl max d) ∧ (l.foldl max d = d ∨ l.foldl max d ∈ l) := by
  induction l generalizing d with
  | nil => exact ⟨le_rfl, by simp, Or.inl rfl⟩
  | cons a l ih =>
    obtain ⟨h1, h2, h3⟩ := ih (max d a)
    rw [List.foldl_cons]
    refine ⟨le_trans (le_max_left _ _) h1, ?_, ?_⟩
    · intro x hx
      rcases List.mem_cons.1 hx with rfl | hx
      · exact le_trans (le_max_right _ _) h1
      · exact h2 x hx
    · rcases h3 with h3 | h3
      · rcases max_choice d a with e | e
        · exact Or.inl (h3.trans e)
        · exact Or.inr (by rw [h3, e]; simp)
      · exact Or.inr (List.mem_cons_of_mem _ h3)

theorem mapM_infos_any {l r : BondInfo Q} {X : List (BondInfo Q)} {phys : List (List (BondInfo Q))} {ts : List (SpT Q K)}
    (h : OnBonds (l :: X ++ [r]) phys ts) : ts.mapM SpT.infos = some (ts.map siteInfos) := by
  refine mapM_some' _ _ _ fun T hT => ?_
  by_cases h0 : T = []
  · subst h0; rfl
  have : ∃ legs, Conforms legs T := by
    generalize hB : l :: X ++ [r] = B at h
    clear hB
    induction ts generalizing B phys with
    | nil => simp at hT
    | cons S ts ih =>
      rcases B with _ | ⟨l', _ | ⟨r', B⟩⟩
      · rcases phys with _ | ⟨ph, phys⟩ <;> exact h.elim
      · rcases phys with _ | ⟨ph, phys⟩ <;> exact h.elim
      rcases phys with _ | ⟨ph, phys⟩
      · exact h.elim
      rcases List.mem_cons.1 hT with rfl | hT
      · exact ⟨_, h.1⟩
      · exact ih hT _ h.2
  obtain ⟨legs, hl⟩ := this
  exact infos_any hl

open Classical in
theorem join_nBonds {a b : BondInfo Q} (ha : Dict.WF a) (hb : Dict.WF b) : (joinBonds a b).nBonds = (BondInfo.union a b).nBonds := by
  have one : ∀ {c : BondInfo Q}, Dict.WF c → (∀ q, Counter.count (BondInfo.union a b) q = Counter.count c q) → c.nBonds = (BondInfo.union a b).nBonds := by
    intro c hc hq
    rw [nBonds_filter hc (good_union a b).1 (fun _ => True) (fun q => by rw [hq, if_pos trivial])]
    simp [length_legBasis]
  unfold joinBonds
  split
  · rename_i h0
    rw [List.length_eq_zero_iff] at h0
    refine one hb fun q => ?_
    rw [C06_union a b ha hb, h0]
    exact Nat.zero_max _
  · split
    · rename_i h0
      rw [List.length_eq_zero_iff] at h0
      refine one ha fun q => ?_
      rw [C06_union a b ha hb, h0]
      exact Nat.max_zero _
    · rfl

theorem shown_inner {r : BondInfo Q} : ∀ {X : List (BondInfo Q)} {l : BondInfo Q} {phys : List (List (BondInfo Q))} {ts : List (SpT Q K)},
    OnBonds (l :: X ++ [r]) phys ts →
    (shownInner (ts.map fun T => orOneLeg (siteInfos T))).map BondInfo.nBonds = (innerBonds (ts.map fun T => orOneLeg (siteInfos T))).map BondInfo.nBonds
  | [], l, phys, ts, h => by
    obtain ⟨e1, _⟩ := h.lengths
    obtain ⟨T, rfl⟩ := List.length_eq_one_iff.1 e1
    rfl
  | b :: X, l, phys, ts, h => by
    rcases phys with _ | ⟨ph, phys⟩
    · exact h.elim
    rcases ts with _ | ⟨T, ts⟩
    · exact h.elim
    have h2 : OnBonds (b :: X ++ [r]) phys ts := h.2
    have ih := shown_inner h2
    obtain ⟨m, hm⟩ := h2.first
    obtain ⟨e1, e2⟩ := h2.lengths
    rcases ts with _ | ⟨T', ts⟩
    · simp at e1
    have hT : Conforms (l :: ph ++ [b]) T := h.1
    change Conforms (b :: phys.headD [] ++ [m]) T' at hm
    have k0 : 0 < (b :: phys.headD [] ++ [m]).length := by simp
    have k1 : ph.length + 1 < (l :: ph ++ [b]).length := by simp
    rw [List.map_cons, List.map_cons, innerBonds, shownInner, List.map_cons, List.map_cons]
    rw [List.map_cons] at ih
    rw [ih, (oneLeg_first hm).1, oneLeg_last hT, join_nBonds (occ_spec k0 hm).1 (occ_spec k1 hT).1]

/-- **C83, value.** For a state on well-formed bonds `bond_dim` is the largest number of states on a bond, edges included; a state counts when its label is used by a
neighbouring site. -/
theorem C83_value {l r : BondInfo Q} {X : List (BondInfo Q)} {phys : List (List (BondInfo Q))} {ts : List (SpT Q K)}
    (h : OnBonds (l :: X ++ [r]) phys ts) (hw : ∀ c ∈ l :: X ++ [r], Dict.WF c) :
    ∃ d, bondDim ts = some d ∧ (∀ j ≤ ts.length, (usedStates (l :: X ++ [r]) phys ts j).length ≤ d) ∧
      ∃ j ≤ ts.length, (usedStates (l :: X ++ [r]) phys ts j).length = d := by
  have hm := mapM_infos_any h
  obtain ⟨e1, e2⟩ := h.lengths
  obtain ⟨T0, hT0⟩ : ∃ T, ts.head? = some T := by
    rcases ts with _ | ⟨T, ts⟩
    · simp at e1
    · exact ⟨T, rfl⟩
  obtain ⟨T1, hT1⟩ : ∃ T, ts.getLast? = some T := by
    rcases hl : ts.getLast? with _ | T
    · rw [List.getLast?_eq_none_iff.1 hl] at e1; simp at e1
    · exact ⟨T, rfl⟩
  have s0 := first_size h (hw l (by simp)) T0 hT0
  have s1 := last_size h (hw r (by simp)) T1 hT1
  have s2 := inner_sizes h fun c hc => hw c (by simp [hc])
  have hd : bondDim ts = some (max (((List.range X.length).map fun j => (usedStates (l :: X ++ [r]) phys ts (j + 1)).length).foldl max
      (usedStates (l :: X ++ [r]) phys ts 0).length) (usedStates (l :: X ++ [r]) phys ts (X.length + 1)).length) := by
    unfold bondDim
    rw [hm]
    show (((ts.map siteInfos).map orOneLeg).head?.bind fun first => (((ts.map siteInfos).map orOneLeg).getLast?).bind fun last => _) = _
    rw [List.map_map, List.head?_map, List.getLast?_map, hT0, hT1]
    show some (max ((innerBonds (ts.map (orOneLeg ∘ siteInfos))).foldl (fun d b => max d b.nBonds) ((orOneLeg (siteInfos T0)).headD []).nBonds)
      ((orOneLeg (siteInfos T1)).getLastD []).nBonds) = _
    rw [foldl_max, s0, s1]
    have s2' : (innerBonds (ts.map (orOneLeg ∘ siteInfos))).map BondInfo.nBonds = _ := s2
    rw [s2']
  obtain ⟨f1, f2, f3⟩ := foldl_max_attained ((List.range X.length).map fun j => (usedStates (l :: X ++ [r]) phys ts (j + 1)).length)
    (usedStates (l :: X ++ [r]) phys ts 0).length
  refine ⟨_, hd, fun j hj => ?_, ?_⟩
  · rcases j with _ | j
    · exact le_trans f1 (le_max_left _ _)
    · by_cases hj' : j < X.length
      · exact le_trans (f2 _ (List.mem_map.2 ⟨j, List.mem_range.2 hj', rfl⟩)) (le_max_left _ _)
      · have : j = X.length := by omega
        rw [this]
        exact le_max_right _ _
  · rcases max_choice (((List.range X.length).map fun j => (usedStates (l :: X ++ [r]) phys ts (j + 1)).length).foldl max
      (usedStates (l :: X ++ [r]) phys ts 0).length) (usedStates (l :: X ++ [r]) phys ts (X.length + 1)).length with e | e
    · rw [e]
      rcases f3 with f3 | f3
      · exact ⟨0, by omega, f3.symm⟩
      · obtain ⟨j, hj, e'⟩ := List.mem_map.1 f3
        have := List.mem_range.1 hj
        exact ⟨j + 1, by omega, e'⟩
    · rw [e]
      exact ⟨X.length + 1, by omega, rfl⟩

/-- **C83, what is shown.** `show_bond_dims` lists the number of states on every bond, from the left edge to the right edge. -/
theorem C83_shown {l r : BondInfo Q} {X : List (BondInfo Q)} {phys : List (List (BondInfo Q))} {ts : List (SpT Q K)}
    (h : OnBonds (l :: X ++ [r]) phys ts) (hw : ∀ c ∈ l :: X ++ [r], Dict.WF c) :
    shownDims ts = some ((List.range (ts.length + 1)).map fun j => (usedStates (l :: X ++ [r]) phys ts j).length) := by
  obtain ⟨e1, e2⟩ := h.lengths
  obtain ⟨T0, hT0⟩ : ∃ T, ts.head? = some T := by
    rcases ts with _ | ⟨T, ts⟩
    · simp at e1
    · exact ⟨T, rfl⟩
  obtain ⟨T1, hT1⟩ : ∃ T, ts.getLast? = some T := by
    rcases hl : ts.getLast? with _ | T
    · rw [List.getLast?_eq_none_iff.1 hl] at e1; simp at e1
    · exact ⟨T, rfl⟩
  have s0 := first_size h (hw l (by simp)) T0 hT0
  have s1 := last_size h (hw r (by simp)) T1 hT1
  have s2 : (shownInner (ts.map (orOneLeg ∘ siteInfos))).map BondInfo.nBonds = _ :=
    (shown_inner h).trans (inner_sizes h fun c hc => hw c (by simp [hc]))
  unfold shownDims
  rw [mapM_infos_any h]
  show (((ts.map siteInfos).map orOneLeg).head?.bind fun first => (((ts.map siteInfos).map orOneLeg).getLast?).bind fun last => _) = _
  rw [List.map_map, List.head?_map, List.getLast?_map, hT0, hT1]
  show some (([(orOneLeg (siteInfos T0)).headD []] ++ shownInner (ts.map (orOneLeg ∘ siteInfos)) ++ [(orOneLeg (siteInfos T1)).getLastD []]).map BondInfo.nBonds) = _
  rw [List.map_append, List.map_append, s2, List.map_singleton, List.map_singleton, s0, s1, e1, List.range_succ, List.range_succ_eq_map]
  simp [List.map_map, Function.comp_def]

end

section
variable {Q K : Type} [DecidableEq Q] [Zero Q] [Semiring K]

/-- A basis vector on the left edge whose label the first site does not use gives amplitude zero. -/
theorem ampl_unused (ts : List (SpT Q K)) (X : List (BondInfo Q)) (z : Q × Nat) (ps : List (List (Q × Nat))) (y : Q × Nat)
    (h : ¬ OccursOn (ts.getD 0 []) 0 z.1) : ampl ts X z ps y = 0 := by
  have he : ∀ (T : SpT Q K) (p : List (Q × Nat)), ¬ OccursOn T 0 z.1 → entry T (z :: p) = 0 := by
    intro T p hT
    unfold entry
    apply List.sum_eq_zero
    intro v hv
    obtain ⟨b, hb, rfl⟩ := List.mem_map.1 hv
    unfold blockEntry
    rw [if_neg]
    intro e
    exact hT ⟨b, hb, by rw [e.1]; rfl⟩
  unfold ampl
  split
  · exact he _ _ h
  · exact sum_map_zero' _ _ fun w _ => by
      have := fun p => he _ p h
      simp only [List.getD_cons_zero] at this
      rw [List.cons_append, this, zero_mul]
  · rfl

/-- The sum over one inner bond pulled out. -/
theorem ampl_cut : ∀ (k : Nat) (ts : List (SpT Q K)) (X : List (BondInfo Q)) (x : Q × Nat) (ps : List (List (Q × Nat))) (y : Q × Nat),
    k < X.length → ts.length = X.length + 1 → ps.length = X.length + 1 →
    ampl ts X x ps y = ((legBasis (X.getD k [])).map fun z =>
      ampl (ts.take (k + 1)) (X.take k) x (ps.take (k + 1)) z * ampl (ts.drop (k + 1)) (X.drop (k + 1)) z (ps.drop (k + 1)) y).sum
  | k, ts, X, x, ps, y, hk, h1, h2 => by
    rcases X with _ | ⟨b, X⟩
    · simp at hk
    obtain ⟨T, ts, rfl⟩ := List.exists_cons_of_length_eq_add_one h1
    obtain ⟨p, ps, rfl⟩ := List.exists_cons_of_length_eq_add_one h2
    rw [ampl_cons]
    cases k with
    | zero => rfl
    | succ k =>
      have ih := fun w => ampl_cut k ts X w ps y (by simpa using hk) (by simpa using h1) (by simpa using h2)
      rw [sum_map_congr' _ _ _ (fun w _ => by rw [ih w])]
      have hc : ∀ z, ampl ((T :: ts).take (k + 1 + 1)) ((b :: X).take (k + 1)) x ((p :: ps).take (k + 1 + 1)) z =
          ((legBasis b).map fun w => entry T (x :: p ++ [w]) * ampl (ts.take (k + 1)) (X.take k) w (ps.take (k + 1)) z).sum := by
        intro z
        rw [List.take_succ_cons, List.take_succ_cons, List.take_succ_cons, ampl_cons]
      simp only [hc, List.getD_cons_succ, List.drop_succ_cons, ← List.sum_map_mul_left, ← List.sum_map_mul_right]
      rw [sum_comm']
      simp only [mul_assoc]

/-- **C83, rank.** Across every cut the amplitudes are a sum of at most `bond_dim` products. -/
theorem C83_rank {l r : BondInfo Q} {X : List (BondInfo Q)} {phys : List (List (BondInfo Q))} {ts : List (SpT Q K)}
    (h : OnBonds (l :: X ++ [r]) phys ts) (hw : ∀ c ∈ l :: X ++ [r], Dict.WF c) (x y : Q × Nat) :
    ∃ d, bondDim ts = some d ∧ ∀ k, 0 < k → k < ts.length → RankAtMost ts.length k d fun ps => ampl ts X x ps y := by
  classical
  obtain ⟨d, hd, hle, _⟩ := C83_value h hw
  refine ⟨d, hd, fun k k0 hk => ?_⟩
  obtain ⟨e1, e2⟩ := h.lengths
  obtain ⟨k, rfl⟩ : ∃ m, k = m + 1 := ⟨k - 1, by omega⟩
  refine ⟨(usedStates (l :: X ++ [r]) phys ts (k + 1)).map fun z =>
    (fun ps => ampl (ts.take (k + 1)) (X.take k) x ps z, fun ps => ampl (ts.drop (k + 1)) (X.drop (k + 1)) z ps y), ?_, fun ps hps => ?_⟩
  · rw [List.length_map]
    exact hle _ (by omega)
  · have hg : (l :: X ++ [r]).getD (k + 1) [] = X.getD k [] := by
      rw [List.cons_append, List.getD_cons_succ, List.getD_eq_getElem?_getD, List.getD_eq_getElem?_getD, List.getElem?_append_left (by omega)]
    dsimp only
    rw [ampl_cut k ts X x ps y (by omega) e1 (by omega), List.map_map, usedStates, hg]
    generalize legBasis (X.getD k []) = L
    induction L with
    | nil => rfl
    | cons z L ih =>
      rw [List.map_cons, List.sum_cons, ih, List.filter_cons]
      split
      · rfl
      · rename_i hz
        rw [ampl_unused (ts.drop (k + 1)) _ z _ y, mul_zero, zero_add]
        intro ho
        apply hz
        rw [decide_eq_true_eq]
        refine Or.inr ?_
        simpa [List.getD_eq_getElem?_getD, List.getElem?_drop] using ho

/-- **C83, no sites.** There is no first bond (an `IndexError`). -/
theorem C83_no_sites : bondDim ([] : List (SpT Q K)) = none := rfl

/-- The edges of the state below. -/
def bdL : BondInfo Int := [(0, 1)]
def bdR : BondInfo Int := [(1, 1)]
/-- The bond between the sites has room for three labels; the label 5 is used by no site. -/
def bdM : BondInfo Int := [(0, 1), (1, 2), (5, 7)]
def bdP : BondInfo Int := [(0, 1), (1, 1)]

/-- Two sites with one particle. -/
def bdState : List (SpT Int Int) :=
  [[([0, 0, 0], ⟨[1, 1, 1], fun _ => 1⟩), ([0, 1, 1], ⟨[1, 1, 2], fun _ => 1⟩)], [([0, 1, 1], ⟨[1, 1, 1], fun _ => 1⟩), ([1, 0, 1], ⟨[2, 1, 1], fun _ => 1⟩)]]

/-- The hypotheses of `C83_value` and `C83_rank` hold for it; three of the ten states on the bond are used. -/
example : OnBonds (bdL :: [bdM] ++ [bdR]) [[bdP], [bdP]] bdState ∧ (∀ c ∈ bdL :: [bdM] ++ [bdR], Dict.WF c) ∧ bondDim bdState = some 3 ∧
    shownDims bdState = some [1, 3, 1] := by
  refine ⟨⟨by decide, by decide, trivial⟩, ?_, by decide, by decide⟩
  intro c hc
  simp only [List.cons_append, List.nil_append, List.mem_cons, List.not_mem_nil, or_false] at hc
  rcases hc with rfl | rfl | rfl <;> (show (List.map _ _).Nodup) <;> decide

end
end Verif
