import Verif.Proof.SliceableChain
import Verif.Thm.Mps

/-! States with sliceable tensors. -/

set_option linter.unusedSectionVars false

namespace Verif
section
variable {Q K : Type} [DecidableEq Q] [AddCommGroup Q] [CommRing K] [StarRing K]

theorem IsCombination.labelsIn {legs : List (BondInfo Q)} {qs : List Q} {sh : List Nat} (h : IsCombination legs qs sh) : LabelsIn legs qs := by
  induction h with
  | nil => exact .nil
  | cons h1 _ ih => exact .cons (Dict.mem_keys_iff.2 ⟨_, h1⟩) ih

theorem singles_labelsIn {ph : List (BondInfo Q)} {c : List (Int × Q)} (h : ph.length = c.length) : LabelsIn (singles ph c) (c.map Prod.snd) := by
  induction ph generalizing c with
  | nil =>
    rcases c with _ | ⟨x, c⟩
    · exact .nil
    · simp at h
  | cons i ph ih =>
    rcases c with _ | ⟨x, c⟩
    · simp at h
    · exact .cons (by simp) (ih (by simpa using h))

theorem singles_length {ph : List (BondInfo Q)} {c : List (Int × Q)} (h : ph.length = c.length) : (singles ph c).length = ph.length := by
  simp [singles, h]

/-- One site, sliced. -/
theorem site_sliced {le : Q → Q → Bool} (o : LabelOrder le) {l r b b' : BondInfo Q} {M ph : List (BondInfo Q)} {T : SpT Q K} {S : SlT Q K}
    (h : Rep le (l :: M ++ [r]) T S) (hw : ∀ i ∈ M, Dict.WF i) (hT : Conforms (b :: ph ++ [b']) T) (hM : M.length = ph.length)
    {c : List (Int × Q)} (hc : Choice le M c) :
    ∃ B, S.getitem le (none :: (c.map Prod.fst).map some ++ [none]) = some B ∧
      Inv (b :: ph ++ [b']) (l :: (singles M c ++ [r])) (c.map Prod.snd) B ∧
      ∀ x y p, p.map Prod.fst = c.map Prod.snd → entry B.toSparse (x :: p ++ [y]) = entry T (x :: p ++ [y]) := by
  obtain ⟨B, b1, b2, b3⟩ := slice_mid o h hw hc
  have hmem : ∀ k ∈ B.toSparse, k ∈ T ∧ (k.1.drop 1).dropLast = c.map Prod.snd := by
    intro k hk
    have := b3.mem_iff.1 hk
    rw [List.mem_filter, decide_eq_true_eq] at this
    exact this
  have hform : ∀ k ∈ B.toSparse, ∃ x y, k.1 = x :: c.map Prod.snd ++ [y] ∧ x ∈ l.map Prod.fst ∧ y ∈ r.map Prod.fst := by
    intro k hk
    obtain ⟨h1, h2⟩ := hmem k hk
    obtain ⟨x, m, y, e, hx, hm, hy⟩ := (h.lab k h1).split
    rw [e] at h2
    simp only [List.cons_append, List.drop_succ_cons, List.drop_zero, List.dropLast_concat] at h2
    exact ⟨x, y, by rw [e, h2], hx, hy⟩
  refine ⟨B, b1, ⟨b2, fun k hk => hT k (hmem k hk).1, ?_, ?_, ?_, ?_⟩, ?_⟩
  · refine unique_of_perm_blocks b3 ?_
    exact h.uniq.sublist (List.filter_sublist.map _)
  · intro k hk
    obtain ⟨x, y, e, hx, hy⟩ := hform k hk
    rw [e]
    exact .cons hx (List.rel_append (singles_labelsIn hc.length_eq) (.cons hy .nil))
  · simp [singles_length hc.length_eq, hM]
  · intro k hk
    obtain ⟨x, y, e, -, -⟩ := hform k hk
    exact ⟨x, y, e⟩
  · intro x y p hp
    rw [entry_perm' b3]
    refine entry_filter_labels (fun qs => decide ((qs.drop 1).dropLast = c.map Prod.snd)) T _ ?_
    simp [hp]

/-- The arrays `Ss` hold the blocks of the sites `ts`; `Ms` are the physical legs. -/
def Stored (le : Q → Q → Bool) : List (List (BondInfo Q)) → List (SpT Q K) → List (SlT Q K) → Prop
  | [], [], [] => True
  | M :: Ms, T :: ts, S :: Ss => (∃ l r, Rep le (l :: M ++ [r]) T S) ∧ Stored le Ms ts Ss
  | _, _, _ => False

theorem sliceAt_ok {le : Q → Q → Bool} (o : LabelOrder le) {r : BondInfo Q} {X : List (BondInfo Q)} {b : BondInfo Q} {phys Ms : List (List (BondInfo Q))}
    {ts : List (SpT Q K)} {Ss : List (SlT Q K)} {cs : List (List (Int × Q))} (h : OnBonds (b :: X ++ [r]) phys ts) (hX : ∀ c ∈ X, Dict.WF c)
    (hS : Stored le Ms ts Ss) (hM : Ms.map List.length = phys.map List.length) (hw : ∀ M ∈ Ms, ∀ i ∈ M, Dict.WF i)
    (hc : List.Forall₂ (Choice le) Ms cs) (rest : List Int) :
    ∃ Bs, Mps.sliceAt le Ss (detOf cs ++ rest) = some (Bs, rest) ∧ Sliced r b X phys (cs.map fun c => c.map Prod.snd) ts Bs := by
  induction Ss generalizing b X phys Ms ts cs with
  | nil =>
    rcases ts with _ | ⟨T, ts⟩
    · rcases X with _ | ⟨x, X⟩ <;> rcases phys with _ | ⟨ph, phys⟩ <;> exact absurd h (by simp [OnBonds])
    · rcases Ms with _ | ⟨M, Ms⟩ <;> exact hS.elim
  | cons S Ss ih =>
    rcases ts with _ | ⟨T, ts⟩
    · rcases Ms with _ | ⟨M, Ms⟩ <;> exact hS.elim
    rcases Ms with _ | ⟨M, Ms⟩
    · exact hS.elim
    rcases phys with _ | ⟨ph, phys⟩
    · simp at hM
    rcases cs with _ | ⟨c, cs⟩
    · cases hc
    rw [List.forall₂_cons] at hc
    obtain ⟨⟨l', r', hrep⟩, hS⟩ := hS
    simp only [List.map_cons, List.cons.injEq] at hM
    have hsh : S.shape.length - 2 = c.length := by
      rw [hrep.shape]; simp [hc.1.length_eq]
    have hdet : detOf (c :: cs) ++ rest = c.map Prod.fst ++ (detOf cs ++ rest) := by simp [detOf]
    have hM1 : ∀ i ∈ M, Dict.WF i := hw M (by simp)
    unfold Mps.sliceAt
    rw [hdet, hsh]
    simp only [List.take_left' (List.length_map (as := c) Prod.fst), List.drop_left' (List.length_map (as := c) Prod.fst)]
    rcases X with _ | ⟨b', X⟩
    · have hts : phys = [] ∧ ts = [] := by
        have h2 := h.2
        rcases phys with _ | ⟨ph, phys⟩ <;> rcases ts with _ | ⟨T, ts⟩ <;> simp_all [OnBonds]
      obtain ⟨rfl, rfl⟩ := hts
      rcases Ms with _ | ⟨M', Ms⟩ <;> rcases Ss with _ | ⟨S', Ss⟩ <;> first | exact False.elim hS | skip
      rcases cs with _ | ⟨c', cs⟩
      · obtain ⟨B, b1, b2, b3⟩ := site_sliced o hrep hM1 h.1 hM.1 hc.1
        refine ⟨[B], ?_, ?_, ⟨_, _, b2⟩, b3⟩
        · rw [b1]; rfl
        · rw [← hM.1, List.length_map, hc.1.length_eq]
      · exact absurd hc.2 (by simp)
    · obtain ⟨B, b1, b2, b3⟩ := site_sliced o hrep hM1 h.1 hM.1 hc.1
      obtain ⟨Bs, g1, g2⟩ := ih h.2 (fun c hc => hX c (by simp [hc])) hS hM.2 (fun M hM => hw M (by simp [hM])) hc.2
      refine ⟨B :: Bs, ?_, ?_, hX b' (by simp), ⟨_, _, _, b2⟩, b3, g2⟩
      · rw [b1, g1]; rfl
      · rw [← hM.1, List.length_map, hc.1.length_eq]

theorem isCombination_pos {legs : List (BondInfo Q)} {qs : List Q} {sh : List Nat} (h : IsCombination legs qs sh) (hg : ∀ l ∈ legs, ∀ x ∈ l, 0 < x.2) :
    (∀ d ∈ sh, 0 < d) := by
  induction h with
  | nil => simp
  | cons h1 _ ih =>
    intro d hd
    rcases List.mem_cons.1 hd with rfl | hd
    · exact hg _ (by simp) _ (Dict.mem_of_get? h1)
    · exact ih (fun l hl => hg l (by simp [hl])) d hd

theorem inBox_zeros {sh : List Nat} (h : ∀ d ∈ sh, 0 < d) : inBox sh (List.replicate sh.length 0) = true := by
  induction sh with
  | nil => rfl
  | cons d sh ih =>
    rw [List.length_cons, List.replicate_succ, inBox, ih fun e he => h e (by simp [he])]
    simp [h d (by simp)]

/-- Reading the number off the last array. -/
theorem read_off {l r : Q} {legs : List (BondInfo Q)} {qs : List Q} {J : List (BondInfo Q)} {F : SlT Q K} (hF : Inv ([(l, 1)] :: legs ++ [[(r, 1)]]) J qs F)
    (hg : ∀ b ∈ legs, ∀ x ∈ b, 0 < x.2) (hl : legs.length = qs.length) :
    Mps.firstItem F.toSparse =
      some (entry F.toSparse ((l, 0) :: qs.map (fun q => (q, 0)) ++ [(r, 0)])) := by
  have hlab : ∀ b ∈ F.toSparse, b.1 = l :: qs ++ [r] := by
    intro b hb
    obtain ⟨x, y, e⟩ := hF.mid b hb
    have hx := (hF.conf b hb).labelsIn
    rw [e] at hx ⊢
    obtain ⟨x', m, y', e', h1, h2, h3⟩ := hx.split
    simp only [List.map_cons, List.map_nil, List.mem_singleton] at h1 h3
    rw [List.cons_append, List.cons_append, List.cons.injEq] at e'
    have e2 := List.append_inj' e'.2 rfl
    simp only [List.cons.injEq, and_true] at e2
    rw [e'.1, h1, e2.2, h3]
  have hu := hF.uniq
  have hconf := hF.conf
  generalize F.toSparse = T at hlab hu hconf
  rcases T with _ | ⟨b, T⟩
  · rfl
  · have hT : T = [] := by
      rcases T with _ | ⟨b', T⟩
      · rfl
      · unfold UniqueLabels at hu
        rw [List.map_cons, List.map_cons, List.nodup_cons, hlab b (by simp), hlab b' (by simp)] at hu
        simp at hu
    subst hT
    have hc := hconf b (by simp)
    have hpos := isCombination_pos hc (by
      intro c hc
      simp only [List.cons_append, List.mem_cons, List.mem_append, List.not_mem_nil, or_false] at hc
      rcases hc with rfl | hc | rfl
      · simp
      · exact hg c hc
      · simp)
    have hlen : b.2.shape.length = qs.length + 2 := by rw [hc.lengths.2]; simp [hl]
    have e2 : ((l, 0) :: qs.map (fun q => (q, 0)) ++ [(r, 0)] : List (Q × Nat)).map Prod.snd = List.replicate b.2.shape.length 0 := by
      rw [hlen]
      apply List.ext_getElem
      · simp
      · intro i h1 h2
        have : ∀ z ∈ ((l, 0) :: qs.map (fun q => (q, 0)) ++ [(r, 0)] : List (Q × Nat)).map Prod.snd, z = 0 := by
          intro z hz
          simp at hz
          tauto
        rw [this _ (List.getElem_mem h1)]
        simp
    have e1 : ((l, 0) :: qs.map (fun q => (q, 0)) ++ [(r, 0)] : List (Q × Nat)).map Prod.fst = l :: qs ++ [r] := by
      simp [Function.comp_def]
    show (if _ then _ else _) = _
    rw [if_pos (by rw [List.all_eq_true]; intro d hd; exact decide_eq_true (hpos d hd)), entry_cons, entry_nil, add_zero, blockEntry, e1, e2,
      if_pos ⟨hlab b (by simp), inBox_zeros hpos⟩]

theorem Stored.nonempty {le : Q → Q → Bool} {Ms : List (List (BondInfo Q))} {ts : List (SpT Q K)} {Ss : List (SlT Q K)} (h : Stored le Ms ts Ss)
    (hne : ts ≠ []) : Ss ≠ [] := by
  rcases Ms with _ | ⟨M, Ms⟩ <;> rcases ts with _ | ⟨T, ts⟩ <;> rcases Ss with _ | ⟨S, Ss⟩ <;> simp_all [Stored]

/-- The amplitude of a stored state. -/
theorem amplitude_ok {le : Q → Q → Bool} (o : LabelOrder le) {l r : Q} {X : List (BondInfo Q)} {phys Ms : List (List (BondInfo Q))}
    {ts : List (SpT Q K)} {Ss : List (SlT Q K)} {cs : List (List (Int × Q))} (h : OnBonds ([(l, 1)] :: X ++ [[(r, 1)]]) phys ts) (hX : ∀ c ∈ X, GoodBond c)
    (hg : ∀ ph ∈ phys, ∀ i ∈ ph, GoodBond i)
    (hS : Stored le Ms ts Ss) (hM : Ms.map List.length = phys.map List.length) (hw : ∀ M ∈ Ms, ∀ i ∈ M, Dict.WF i)
    (hc : List.Forall₂ (Choice le) Ms cs) :
    Mps.amplitude le Ss (detOf cs) = some (ampl ts X (l, 0) (stateOf cs) (r, 0)) := by
  obtain ⟨Bs, b1, b2⟩ := sliceAt_ok o h (fun c hc => (hX c hc).1) hS hM hw hc []
  rw [List.append_nil] at b1
  unfold Mps.amplitude
  rw [b1, Option.bind_some, if_neg (by simp)]
  have hpos : ∀ b ∈ phys.flatten, ∀ x ∈ b, 0 < x.2 := by
    intro b hb
    obtain ⟨ph, h1, h2⟩ := List.mem_flatten.1 hb
    exact (hg ph h1 b h2).2
  have hlen : phys.flatten.length = (cs.map fun c => c.map Prod.snd).flatten.length := by
    rw [List.length_flatten, List.length_flatten, ← hM, List.map_map]
    congr 1
    clear hM hS b1 b2 hw h
    induction hc with
    | nil => rfl
    | cons h1 _ ih => simp [h1.length_eq, ih]
  have hst : (stateOf cs).map (fun p => p.map Prod.fst) = cs.map fun c => c.map Prod.snd := by
    simp [stateOf, Function.comp_def]
  have hst2 : (stateOf cs).flatten = ((cs.map fun c => c.map Prod.snd).flatten).map fun q => (q, 0) := by
    simp [stateOf, List.map_flatten, Function.comp_def]
  rcases X with _ | ⟨b', X⟩
  · rcases Bs with _ | ⟨B, Bs⟩
    · rcases phys with _ | ⟨ph, _ | ⟨ph', phys⟩⟩ <;> simp [Sliced] at b2
    rcases phys with _ | ⟨ph, _ | ⟨ph', phys⟩⟩ <;> first | exact False.elim b2 | skip
    rcases cs with _ | ⟨c, _ | ⟨c', cs⟩⟩ <;> first | exact False.elim b2 | skip
    rcases ts with _ | ⟨T, _ | ⟨T', ts⟩⟩ <;> first | exact False.elim b2 | skip
    rcases Bs with _ | ⟨B', Bs⟩ <;> first | exact False.elim b2 | skip
    obtain ⟨-, ⟨J, j, hB⟩, he⟩ := b2
    have := read_off hB (by simpa using hpos) (by simpa using hlen)
    simp only [List.foldlM_nil, Option.pure_def, Option.bind_some]
    rw [this, show (c.map Prod.snd).map (fun q => (q, 0)) = c.map fun x : Int × Q => (x.2, 0) by simp [Function.comp_def],
      he _ _ _ (by simp [Function.comp_def])]
    rfl
  · rcases Bs with _ | ⟨B, Bs⟩
    · rcases phys with _ | ⟨ph, _ | ⟨ph', phys⟩⟩ <;> simp [Sliced] at b2
    rcases phys with _ | ⟨ph, phys⟩ <;> first | exact False.elim b2 | skip
    rcases cs with _ | ⟨c, cs⟩ <;> first | exact False.elim b2 | skip
    rcases ts with _ | ⟨T, ts⟩ <;> first | exact False.elim b2 | skip
    obtain ⟨hl, hw', ⟨J, j, j', hB⟩, he, hrest⟩ := b2
    obtain ⟨F, J', f1, f2, f3⟩ := fold_dot le hrest hw' (a := [(l, 1)] :: ph) (I := j :: J) hB
    simp only [f1, Option.bind_some]
    have f2' : Inv ([(l, 1)] :: (ph :: phys).flatten ++ [[(r, 1)]]) J' ((c :: cs).map fun c => c.map Prod.snd).flatten F := by simpa using f2
    rw [read_off f2' hpos hlen]
    congr 1
    have e := f3 ((l, 0) :: c.map fun x => (x.2, 0)) (r, 0) (stateOf cs) (by simp [hl]) (by simp [stateOf, Function.comp_def])
    rw [← hst2]
    have e0 : (l, 0) :: (stateOf (c :: cs)).flatten ++ [(r, 0)] = ((l, 0) :: c.map fun x => (x.2, 0)) ++ (stateOf cs).flatten ++ [(r, 0)] := by
      simp [stateOf]
    rw [e0, e]
    rw [show stateOf (c :: cs) = (c.map fun x => (x.2, 0)) :: stateOf cs from rfl, ampl]
    refine sum_map_congr' _ _ _ fun z _ => ?_
    rw [he _ _ _ (by simp [Function.comp_def])]

/-- The physical legs read off a tensor. -/
def ownLegs (T : SpT Q K) : List (BondInfo Q) := ((siteInfos T).take (T.ndim - 1)).drop 1

theorem ownLegs_eq {l r : BondInfo Q} {ph : List (BondInfo Q)} {T : SpT Q K} (hT : Conforms (l :: ph ++ [r]) T) (hne : T ≠ []) :
    ownLegs T = (List.range ph.length).map fun k => occ (k + 1) T := by
  unfold ownLegs siteInfos
  rw [ndim_of_conforms hT hne, length_ends, ← List.map_take, ← List.map_drop]
  have : ((List.range (ph.length + 2)).take (ph.length + 2 - 1)).drop 1 = (List.range ph.length).map (· + 1) := by
    rw [List.take_range, Nat.min_eq_left (by omega)]
    simp [List.range_succ_eq_map]
  rw [this, List.map_map]
  rfl

theorem labelsIn_mid {l r : BondInfo Q} {ph M : List (BondInfo Q)} {qs : List Q} (h : LabelsIn (l :: ph ++ [r]) qs)
    (hM : M.length = ph.length) (hk : ∀ k, k < ph.length → qs.getD (k + 1) 0 ∈ (M.getD k []).map Prod.fst) : LabelsIn (l :: M ++ [r]) qs := by
  obtain ⟨x, m, y, rfl, hx, hm, hy⟩ := h.split
  refine .cons hx (List.rel_append ?_ (.cons hy .nil))
  rw [List.forall₂_iff_get]
  refine ⟨by rw [hm.length_eq, hM], ?_⟩
  intro i h1 h2
  have := hk i (hM ▸ h2)
  simpa [List.getD_eq_getElem?_getD, List.getElem?_append_left h1, List.getElem?_eq_getElem h1, List.getElem?_eq_getElem h2] using this

theorem sliceSites_basis (le : Q → Q → Bool) {Y : List (BondInfo Q)} {phys : List (List (BondInfo Q))} {ts : List (SpT Q K)}
    (h : OnBonds Y phys ts) (hu : ∀ T ∈ ts, UniqueLabels T) (hne : ∀ T ∈ ts, T ≠ []) :
    ∃ Ss, Mps.sliceSites le ts (ts.map siteInfos) Y (some phys.flatten) = some Ss ∧ Stored le phys ts Ss := by
  induction ts generalizing Y phys with
  | nil =>
    rcases Y with _ | ⟨l, _ | ⟨r, Y⟩⟩ <;> rcases phys with _ | ⟨ph, phys⟩ <;> first | exact False.elim h | skip
    exact ⟨[], by simp [Mps.sliceSites], trivial⟩
  | cons T ts ih =>
    rcases Y with _ | ⟨l, _ | ⟨r, Y⟩⟩ <;> rcases phys with _ | ⟨ph, phys⟩ <;> first | exact False.elim h | skip
    have hn : T.ndim - 2 = ph.length := by rw [ndim_of_conforms h.1 (hne T (by simp))]; simp
    obtain ⟨S, s1, s2⟩ := toSliceable_rep le (hu T (by simp)) fun b hb => (h.1 b hb).labelsIn
    obtain ⟨Ss, g1, g2⟩ := ih h.2 (fun T hT => hu T (by simp [hT])) fun T hT => hne T (by simp [hT])
    refine ⟨S :: Ss, ?_, ⟨_, _, s2⟩, g2⟩
    rw [List.map_cons]
    simp only [Mps.sliceSites, hn, List.flatten_cons, List.take_left' rfl, Option.map_some, List.drop_left' rfl]
    rw [s1, g1]
    rfl

theorem sliceSites_own (le : Q → Q → Bool) {Y : List (BondInfo Q)} {phys : List (List (BondInfo Q))} {ts : List (SpT Q K)}
    (h : OnBonds Y phys ts) (hu : ∀ T ∈ ts, UniqueLabels T) (hne : ∀ T ∈ ts, T ≠ []) :
    ∃ Ss, Mps.sliceSites le ts (ts.map siteInfos) Y none = some Ss ∧ Stored le (ts.map ownLegs) ts Ss := by
  induction ts generalizing Y phys with
  | nil =>
    rcases Y with _ | ⟨l, _ | ⟨r, Y⟩⟩ <;> rcases phys with _ | ⟨ph, phys⟩ <;> first | exact False.elim h | skip
    exact ⟨[], by simp [Mps.sliceSites], trivial⟩
  | cons T ts ih =>
    rcases Y with _ | ⟨l, _ | ⟨r, Y⟩⟩ <;> rcases phys with _ | ⟨ph, phys⟩ <;> first | exact False.elim h | skip
    obtain ⟨S, s1, s2⟩ := toSliceable_rep le (I := l :: ownLegs T ++ [r]) (hu T (by simp)) (by
      intro b hb
      refine labelsIn_mid (h.1 b hb).labelsIn (by rw [ownLegs_eq h.1 (hne T (by simp))]; simp) ?_
      intro k hk
      rw [ownLegs_eq h.1 (hne T (by simp))]
      have hk' : k + 1 < (l :: ph ++ [r]).length := by simp; omega
      have := ((occ_spec hk' h.1).2 (b.1.getD (k + 1) 0) (b.2.shape.getD (k + 1) 0)).2 ⟨(h.1 b hb).getD hk', b, hb, rfl⟩
      simp only [List.getD_eq_getElem?_getD, List.getElem?_map, List.getElem?_range hk, Option.map_some, Option.getD_some]
      rw [List.getD_eq_getElem?_getD] at this
      exact Dict.mem_keys_iff.2 ⟨_, this⟩)
    obtain ⟨Ss, g1, g2⟩ := ih h.2 (fun T hT => hu T (by simp [hT])) fun T hT => hne T (by simp [hT])
    refine ⟨S :: Ss, ?_, ⟨_, _, s2⟩, g2⟩
    rw [List.map_cons]
    simp only [Mps.sliceSites, Option.map_none]
    show (T.toSliceable le (some (l :: ownLegs T ++ [r]))).bind _ = _
    rw [s1, g1]
    rfl

/-- `to_sliceable` of a state. -/
theorem mps_toSliceable (le : Q → Q → Bool) {l r : Q} {X : List (BondInfo Q)} {phys : List (List (BondInfo Q))} {ts : List (SpT Q K)}
    (h : OnBonds ([(l, 1)] :: X ++ [[(r, 1)]]) phys ts) (hX : ∀ c ∈ X, GoodBond c) (hne : ∀ T ∈ ts, T ≠ []) (basis : Option (List (BondInfo Q))) :
    ∃ Y, OnBonds Y phys ts ∧ Mps.toSliceable le basis ts = Mps.sliceSites le ts (ts.map siteInfos) Y basis := by
  obtain ⟨lA1, lA2⟩ := h.lengths
  obtain ⟨ml, hcl⟩ := h.first
  obtain ⟨mr, hcr⟩ := h.last
  have hhead : ts.headD [] ∈ ts := by
    rcases ts with _ | ⟨T, ts⟩
    · simp at lA1
    · simp
  have hlast : ts.getLastD [] ∈ ts := by
    rcases ts with _ | ⟨T, ts⟩
    · simp at lA1
    · rw [List.getLastD_cons]
      exact List.getLastD_mem_cons
  obtain ⟨wF, sF⟩ := occ_spec (k := 0) (by simp) hcl
  obtain ⟨wE, sE⟩ := occ_spec (k := (phys.getLastD []).length + 1) (by simp) hcr
  rw [getD_mid] at sE
  obtain ⟨a1, -, -⟩ := rehome h hX hne (F := occ 0 (ts.headD [])) (E := occ ((phys.getLastD []).length + 1) (ts.getLastD []))
    (fun q s ho hq => (sF q s).2 ⟨hq, ho⟩) (fun q s ho hq => (sE q s).2 ⟨hq, ho⟩)
  refine ⟨_, a1, ?_⟩
  have hfirst : ((ts.map siteInfos).headD []).headD [] = occ 0 (ts.headD []) := by
    rw [← (siteInfos_first hcl (hne _ hhead)).2]
    rcases ts with _ | ⟨T, ts⟩
    · simp at lA1
    · rfl
  have hlst : ((ts.map siteInfos).getLastD []).getLastD [] = occ ((phys.getLastD []).length + 1) (ts.getLastD []) := by
    rw [← siteInfos_last hcr (hne _ hlast)]
    congr 1
    rcases ts with _ | ⟨T, ts⟩
    · simp at lA1
    · rw [List.getLastD_cons, List.map_cons, List.getLastD_cons, List.getLastD_map]
  unfold Mps.toSliceable
  rw [if_neg, mapM_infos a1 hne, Option.bind_some, hfirst, hlst]
  · rfl
  · rw [List.any_eq_true]
    rintro ⟨T, hT, he⟩
    exact hne T hT (List.isEmpty_iff.1 he)

end
end Verif
