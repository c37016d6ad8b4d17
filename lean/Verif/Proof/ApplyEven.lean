import Verif.Thm.MpsProd

/-! Parity of the blocks of the product of an operator and a state. -/

set_option linter.unusedSectionVars false

namespace Verif
section
variable {Q K : Type} [DecidableEq Q] [AddCommGroup Q] [CommRing K]

/-- The number of fermionic labels of every block has the parity `p`. -/
def ParBlocks (isF : Q → Bool) (p : Bool) (T : SpT Q K) : Prop := ∀ b ∈ T, fermParity isF b.1 = p

/-- The tensor at place `i` has the parity `p i`. -/
def ParAt (isF : Q → Bool) (p : Nat → Bool) (ts : List (SpT Q K)) : Prop := ∀ i t, ts[i]? = some t → ParBlocks isF (p i) t

theorem parAt_nil (isF : Q → Bool) (p : Nat → Bool) : ParAt isF p ([] : List (SpT Q K)) := by
  intro i t h
  simp at h

theorem parAt_cons {isF : Q → Bool} {p : Nat → Bool} {T : SpT Q K} {ts : List (SpT Q K)} :
    ParAt isF p (T :: ts) ↔ ParBlocks isF (p 0) T ∧ ParAt isF (fun i => p (i + 1)) ts := by
  constructor
  · intro h
    exact ⟨h 0 T rfl, fun i t hi => h (i + 1) t hi⟩
  · rintro ⟨h1, h2⟩ i t hi
    rcases i with _ | i
    · simp only [List.getElem?_cons_zero, Option.some.injEq] at hi
      rw [← hi]
      exact h1
    · exact h2 i t (by simpa using hi)

theorem evenInside_iff {isF : Q → Bool} {ts : List (SpT Q K)} : EvenInside isF ts ↔ ∃ p, ParAt isF (fun i => decide (i + 1 = ts.length) && p) ts := by
  constructor
  · rintro ⟨h1, h2⟩
    by_cases h0 : ts = []
    · subst h0
      exact ⟨false, parAt_nil _ _⟩
    obtain ⟨p, hp⟩ := h2 _ (List.getLast_mem h0)
    refine ⟨p, fun i t hi => ?_⟩
    obtain ⟨hl, rfl⟩ := List.getElem?_eq_some_iff.1 hi
    by_cases hlast : i + 1 = ts.length
    · have : ts[i] = ts.getLast h0 := by
        rw [List.getLast_eq_getElem]
        congr 1
        omega
      rw [this]
      simpa [hlast, ParBlocks] using hp
    · have : ts[i] ∈ ts.dropLast := by
        have hd : i < ts.dropLast.length := by
          rw [List.length_dropLast]
          omega
        rw [← List.getElem_dropLast hd]
        exact List.getElem_mem hd
      simpa [hlast, ParBlocks, EvenBlocks] using h1 _ this
  · rintro ⟨p, h⟩
    refine ⟨fun T hT => ?_, fun T hT => ?_⟩
    · obtain ⟨i, hi, rfl⟩ := List.getElem_of_mem hT
      rw [List.length_dropLast] at hi
      rw [List.getElem_dropLast]
      have := h i _ (List.getElem?_eq_getElem (by omega))
      have hne : ¬ i + 1 = ts.length := by omega
      simpa [hne, ParBlocks, EvenBlocks] using this
    · obtain ⟨i, hi, rfl⟩ := List.getElem_of_mem hT
      exact ⟨_, h i _ (List.getElem?_eq_getElem hi)⟩

theorem parity_shuffle : ∀ w u m w' x x' p p' : Bool, xor w (xor u (xor m w')) = p → xor x (xor m x') = p' →
    xor w (xor x (xor u (xor w' x'))) = xor p p' := by decide

theorem pdotState_par (isF : Q → Bool) {pB pW : Bool} {wl wr l r : BondInfo Q} {ups downs : List (BondInfo Q)} {W : OpT Q K} {B : SpT Q K}
    (hW : OpSite isF wl ups downs wr W) (hB : Conforms (l :: downs ++ [r]) B) (hp : ParBlocks isF pB B) (hWe : ParBlocks isF pW W.both) (hneW : W.noBlocks = false) (hneB : B ≠ [])
    (hups : ups ≠ []) (hdowns : downs ≠ []) (hw : ∀ b ∈ downs, Dict.WF b) {R : SpT Q K} (hR : W.pdotState isF B = some R) : ParBlocks isF (xor pW pB) R := by
  have nW : W.ndim = ups.length + downs.length + 2 := by
    rw [OpT.ndim_of hW.odd hW.even hneW]; simp; omega
  have nB : B.ndim = downs.length + 2 := by
    rw [ndim_of_conforms hB hneB]; simp
  have hu0 : 0 < ups.length := List.length_pos_iff.2 hups
  have hd0 : 0 < downs.length := List.length_pos_iff.2 hdowns
  have e1 : W.ndim - B.ndim = ups.length := by omega
  have e2 : B.ndim - 2 = downs.length := by omega
  obtain ⟨Re, a1, a2, a3, a4, a5⟩ := sp_contract (wl :: ups) downs [wr] [l] [r] hw W.even B hW.even hB
  obtain ⟨Ro, b1, b2, b3, b4, b5⟩ := sp_contract (wl :: ups) downs [wr] [l] [r] hw W.odd B hW.odd hB
  have eA : (wl :: ups).length = ups.length + 1 := rfl
  have eB : ([l] : List (BondInfo Q)).length = 1 := rfl
  rw [eA, eB] at a1 b1
  unfold OpT.pdotState at hR
  rw [if_neg (by omega)] at hR
  simp only [e1, e2] at hR
  unfold OpT.tensordotState at hR
  have m1 : ((List.range' (ups.length + 1) downs.length).map Int.ofNat).map (SpT.normAxis W.ndim) = List.range' (ups.length + 1) downs.length :=
    normAxes_ofNat _ _
  have m2 : ((List.range' 1 downs.length).map Int.ofNat).map (SpT.normAxis B.ndim) = List.range' 1 downs.length := normAxes_ofNat _ _
  unfold axesAt at a1 b1
  simp only [m1, m2, a1, b1, Option.bind_some, Option.map_some, Option.some.injEq] at hR
  intro c hc
  rw [← hR] at hc
  obtain ⟨c1, hc1, rfl⟩ := List.mem_map.1 hc
  unfold OpT.addAliased at hc1
  obtain ⟨c2, hc2, rfl⟩ := List.mem_map.1 hc1
  have hlab : (∃ c3 ∈ Ro, c3.1 = c2.1) ∨ ∃ c3 ∈ Re, c3.1 = c2.1 := by
    rcases add_labels _ _ c2.1 (List.mem_map.2 ⟨c2, hc2, rfl⟩) with h | h
    · obtain ⟨c3, h3, h4⟩ := List.mem_map.1 h
      exact Or.inl ⟨c3, h3, h4⟩
    · obtain ⟨c3, h3, h4⟩ := List.mem_map.1 h
      exact Or.inr ⟨c3, h3, h4⟩
  have key : ∀ (T : SpT Q K), ParBlocks isF pW T → ∀ R : SpT Q K,
      (∀ c ∈ R, ∃ u v m u' v' : List Q, u.length = (wl :: ups).length ∧ v.length = [wr].length ∧ m.length = downs.length ∧ u'.length = [l].length ∧
        v'.length = [r].length ∧ (∃ a ∈ T, a.1 = u ++ m ++ v) ∧ (∃ b ∈ B, b.1 = u' ++ m ++ v') ∧ c.1 = (u ++ v) ++ (u' ++ v')) →
      ∀ c ∈ R, fermParity isF (pick ([0, ups.length + 2] ++ List.range' 1 ups.length ++ [ups.length + 1, ups.length + 3]) c.1) = xor pW pB := by
    intro T hT R hR c hc
    obtain ⟨u, v, m, u', v', h1, h2, h3, h4, h5, ⟨a, ha, hq⟩, ⟨b, hb, hq'⟩, h6⟩ := hR c hc
    rcases u with _ | ⟨w, u⟩
    · simp at h1
    obtain ⟨w', rfl⟩ := List.length_eq_one_iff.1 (h2.trans (by rfl))
    obtain ⟨x, rfl⟩ := List.length_eq_one_iff.1 (h4.trans (by rfl))
    obtain ⟨x', rfl⟩ := List.length_eq_one_iff.1 (h5.trans (by rfl))
    have hl : u.length = ups.length := by simpa using h1
    have k1 := hT a ha
    have k2 := hp b hb
    rw [hq] at k1
    rw [hq'] at k2
    have e : c.1 = w :: u ++ [w', x, x'] := by rw [h6]; simp
    have := pick_stAxes w u w' x x'
    unfold stAxes at this
    rw [hl] at this
    rw [e, this]
    simp only [fermParity_append, fermParity_cons, List.cons_append, List.nil_append] at k1 k2 ⊢
    simp only [fermParity, List.countP_nil, Nat.zero_mod, Bool.xor_false] at k1 k2 ⊢
    refine parity_shuffle _ _ _ _ _ _ _ _ ?_ k2
    rw [← k1]
    simp [Bool.xor_assoc]
  have ho : ParBlocks isF pW W.odd := fun b hb => hWe b (List.mem_append_left _ hb)
  have he : ParBlocks isF pW W.even := fun b hb => hWe b (List.mem_append_right _ hb)
  have goal : fermParity isF (pick ([0, ups.length + 2] ++ List.range' 1 ups.length ++ [ups.length + 1, ups.length + 3]) c2.1) = xor pW pB := by
    rcases hlab with ⟨c3, h3, h4⟩ | ⟨c3, h3, h4⟩
    · rw [← h4]; exact key _ ho Ro b5 c3 h3
    · rw [← h4]; exact key _ he Re a5 c3 h3
  simp only [Option.getD_some]
  split_ifs <;> exact goal

theorem applySites_par (isF : Q → Bool) {pB pW : Nat → Bool} {l : BondInfo Q × BondInfo Q} {bonds : List (BondInfo Q × BondInfo Q)}
    {phys : List (List (BondInfo Q) × List (BondInfo Q))} {ws : List (OpT Q K)} {bs : List (SpT Q K)} (h : ApplyOn isF (l :: bonds) phys ws bs)
    (hW : ParAt isF pW (ws.map OpT.both)) (hb : ParAt isF pB bs) {rs : List (SpT Q K)} (hr : Mps.applySites isF ws bs = some (some rs)) :
    ParAt isF (fun i => xor (pW i) (pB i)) rs := by
  induction bonds generalizing l phys ws bs rs pB pW with
  | nil =>
    obtain ⟨rfl, rfl, rfl⟩ := h.one_inv
    simp [Mps.applySites] at hr
    subst hr
    exact parAt_nil _ _
  | cons r bonds ih =>
    obtain ⟨ph, phys, W, ws, B, bs, rfl, rfl, rfl, hW', hB, hp, hn1, hn2, hwf, hrest⟩ := h.cons_inv
    rw [List.map_cons, parAt_cons] at hW
    rw [parAt_cons] at hb
    rw [Mps.applySites] at hr
    split_ifs at hr with hc
    · simp at hr
    · simp only [Bool.or_eq_true, not_or, Bool.not_eq_true] at hc
      have hBe : B ≠ [] := by
        rintro rfl
        simp at hc
      cases hpd : W.pdotState isF B with
      | none => rw [hpd] at hr; simp at hr
      | some R =>
        rw [hpd] at hr
        simp only at hr
        split_ifs at hr with hR
        · simp at hr
        · cases ha : Mps.applySites isF ws bs with
          | none => rw [ha] at hr; simp at hr
          | some o =>
            rw [ha] at hr
            cases o with
            | none => simp at hr
            | some rs' =>
              simp at hr
              subst hr
              rw [parAt_cons]
              exact ⟨pdotState_par isF hW' hB hb.1 hW.1 hc.1 hBe hn1 hn2 hwf hpd, ih hrest hW.2 hb.2 ha⟩

theorem mapM_source {α β : Type} {f : α → Option β} {l : List α} {l' : List β} (h : l.mapM f = some l') {b : β} (hb : b ∈ l') : ∃ a ∈ l, f a = some b := by
  induction l generalizing l' with
  | nil => simp at h; subst h; simp at hb
  | cons x t ih =>
    rw [List.mapM_cons] at h
    cases hx : f x with
    | none => rw [hx] at h; simp at h
    | some y =>
      rw [hx] at h
      cases ht : t.mapM f with
      | none => rw [ht] at h; simp at h
      | some t' =>
        rw [ht] at h
        have : y :: t' = l' := by simpa using h
        rw [← this] at hb
        rcases List.mem_cons.1 hb with rfl | hb
        · exact ⟨x, by simp, hx⟩
        · obtain ⟨a, ha, e⟩ := ih ht hb
          exact ⟨a, List.mem_cons_of_mem _ ha, e⟩

/-- The labels after fusing two neighbouring legs. -/
theorem fuse_labels {T R : SpT Q K} {fi : BondFusingInfo Q} {k : Nat} (hpat : fi.pattern = [true, true]) (hlen : ∀ b ∈ T, k + 1 < b.1.length)
    (h : SpT.fuse T [k, k + 1] fi none = some R) {c : List Q × Arr K} (hc : c ∈ R) :
    ∃ t ∈ T, ∃ pre a b post, t.1 = pre ++ [a, b] ++ post ∧ pre.length = k ∧ c.1 = pre ++ (a + b) :: post := by
  unfold SpT.fuse at h
  have hm : ([k, k + 1] : List Nat).min? = some k := by simp
  rw [hm] at h
  simp only at h
  cases hps : T.mapM (SpT.fusePiece fi ((none : Option (List Bool)).getD fi.pattern) [k, k + 1] ([k, k + 1].filter (· != k)) k) with
  | none => rw [hps] at h; simp at h
  | some ps =>
    rw [hps] at h
    simp only [Option.some.injEq] at h
    rw [← h] at hc
    obtain ⟨d, hd, rfl⟩ := List.mem_map.1 hc
    obtain ⟨w1, w2⟩ := collectPieces_spec (ps.filterMap id)
    have hg := Dict.get?_of_mem w1 (k := d.1) (v := d.2) hd
    rw [w2] at hg
    have hne : ((ps.filterMap id).filter fun p => p.key = d.1) ≠ [] := by
      intro h0
      rw [h0] at hg
      simp at hg
    obtain ⟨p, hp⟩ := List.exists_mem_of_ne_nil _ hne
    obtain ⟨hp1, hp2⟩ := List.mem_filter.1 hp
    obtain ⟨o, ho, ho'⟩ := List.mem_filterMap.1 hp1
    simp only [id_eq] at ho'
    subst ho'
    obtain ⟨t, ht, htp⟩ := mapM_source hps ho
    have hl := hlen t ht
    obtain ⟨pre, a, b, post, e, hk⟩ : ∃ pre a b post, t.1 = pre ++ [a, b] ++ post ∧ pre.length = k := by
      refine ⟨t.1.take k, t.1[k], t.1[k + 1], t.1.drop (k + 2), ?_, by simp; omega⟩
      conv_lhs => rw [← List.take_append_drop k t.1]
      rw [List.drop_eq_getElem_cons (by omega), List.drop_eq_getElem_cons (by omega)]
      simp
    refine ⟨t, ht, pre, a, b, post, e, hk, ?_⟩
    have hkey : p.key = SpT.newLegs t.1 ([k, k + 1].filter (· != k)) k (BondFusingInfo.combine (pick [k, k + 1] t.1) fi.pattern) := by
      unfold SpT.fusePiece at htp
      simp only [Option.getD_none] at htp
      split at htp
      · simp at htp
      · split at htp
        · simp at htp
        · simp only [Option.some.injEq] at htp
          rw [← htp]
    have hpk : pick [k, k + 1] t.1 = [a, b] := by
      rw [e, ← hk]
      show [(pre ++ [a, b] ++ post).getD pre.length 0, (pre ++ [a, b] ++ post).getD (pre.length + 1) 0] = [a, b]
      rw [getD_mid0, getD_mid1]
    have hfa : FuseAxes t.1.length [k, k + 1] k := ⟨by simp, by simp, by simp; omega, by simp⟩
    have hk2 : p.key = d.1 := by simpa using hp2
    show d.1 = _
    rw [← hk2, hkey, newLegs_eq t.1 hfa, hpk, BondFusingInfo.combine_eq, hpat, signedSum_pair, pick_range_take k t.1 (by omega)]
    have h1 : t.1.take k = pre := by rw [e, ← hk, List.append_assoc, List.take_left' rfl]
    have h2 : pick (restAxes t.1.length [k, k + 1] k) t.1 = post := by
      have := fusedIndex_pair pre post a b (a + b)
      unfold fusedIndex at this
      rw [hk, ← e, h1] at this
      have := List.append_cancel_left this
      simp only [List.cons.injEq, true_and] at this
      rw [← this]
      rfl
    rw [h1, h2]

theorem fuse_par {isF : Q → Bool} {p : Bool} (hadd : ∀ a b, isF (a + b) = xor (isF a) (isF b)) {T R : SpT Q K} {fi : BondFusingInfo Q} {k : Nat} (hpat : fi.pattern = [true, true])
    (hlen : ∀ b ∈ T, k + 1 < b.1.length) (h : SpT.fuse T [k, k + 1] fi none = some R) (hT : ParBlocks isF p T) : ParBlocks isF p R := by
  intro c hc
  obtain ⟨t, ht, pre, a, b, post, e, hk, e'⟩ := fuse_labels hpat hlen h hc
  have := hT t ht
  rw [e] at this
  rw [e']
  simp only [fermParity_append, fermParity_cons, hadd, List.append_assoc, List.cons_append, List.nil_append] at this ⊢
  rw [← this]
  simp [Bool.xor_assoc]

theorem mergeSites_par {isF : Q → Bool} {p : Nat → Bool} (hadd : ∀ a b, isF (a + b) = xor (isF a) (isF b)) {pb : List (BondFusingInfo Q)} (hpb : ∀ f ∈ pb, f.pattern = [true, true])
    {l : BondInfo Q × BondInfo Q} {bonds : List (BondInfo Q × BondInfo Q)} {phys : List (List (BondInfo Q))} {rs ts : List (SpT Q K)} (h : OnPairs (l :: bonds) phys rs)
    (hne : ∀ r ∈ rs, r ≠ []) (he : ParAt isF p rs) (hts : Mps.mergeSites rs pb = some ts) : ParAt isF p ts := by
  induction bonds generalizing pb l phys rs ts p with
  | nil =>
    obtain ⟨rfl, rfl⟩ := h.one_inv
    simp [Mps.mergeSites] at hts
    subst hts
    exact parAt_nil _ _
  | cons r bonds ih =>
    obtain ⟨ph, phys, T, rs, rfl, rfl, h1, h2⟩ := h.cons_inv
    rw [parAt_cons] at he
    rcases pb with _ | ⟨fl, _ | ⟨fr, pb⟩⟩
    · simp [Mps.mergeSites] at hts
      subst hts
      exact parAt_nil _ _
    · simp [Mps.mergeSites] at hts
      subst hts
      exact parAt_nil _ _
    · rw [Mps.mergeSites] at hts
      have nd : T.ndim = ph.length + 4 := by rw [ndim_of_conforms h1 (hne T (by simp))]; simp
      rw [nd] at hts
      have hl : ∀ b ∈ T, b.1.length = ph.length + 4 := fun b hb => by
        have := (isCombination_iff_getD.1 (h1 b hb)).1
        rw [this]
        simp
      cases f1 : T.fuse [ph.length + 4 - 2, ph.length + 4 - 1] fr none with
      | none => rw [f1] at hts; simp at hts
      | some t1 =>
        rw [f1, Option.bind_some] at hts
        cases f2 : t1.fuse [0, 1] fl none with
        | none => rw [f2] at hts; simp at hts
        | some t2 =>
          rw [f2, Option.bind_some] at hts
          cases f3 : Mps.mergeSites rs (fr :: pb) with
          | none => rw [f3] at hts; simp at hts
          | some ts' =>
            rw [f3] at hts
            have e : t2 :: ts' = ts := by simpa using hts
            have e1 : T.fuse [ph.length + 2, ph.length + 2 + 1] fr none = some t1 := f1
            have p1 : fr.pattern = [true, true] := hpb fr (by simp)
            have p2 : fl.pattern = [true, true] := hpb fl (by simp)
            have k1 : ∀ b ∈ T, ph.length + 2 + 1 < b.1.length := fun b hb => by rw [hl b hb]; omega
            have g1 := fuse_par hadd p1 k1 e1 he.1
            have k2 : ∀ b ∈ t1, 0 + 1 < b.1.length := fun b hb => by
              obtain ⟨t, ht, pre, x, y, post, e, hk, e'⟩ := fuse_labels p1 k1 e1 hb
              rw [e']
              simp
              omega
            have g2 := fuse_par hadd p2 k2 f2 g1
            rw [← e, parAt_cons]
            exact ⟨g2, ih (fun f hf => hpb f (List.mem_cons_of_mem _ hf)) h2 (fun r hr => hne r (List.mem_cons_of_mem _ hr)) he.2 f3⟩

theorem tensorProduct_pattern (le : Q → Q → Bool) (A B : BondInfo Q) {f : BondFusingInfo Q} (h : BondFusingInfo.tensorProduct le [A, B] none none = some f) : f.pattern = [true, true] := by
  unfold BondFusingInfo.tensorProduct at h
  split_ifs at h
  simp only [Option.some.injEq] at h
  rw [← h]
  rfl

theorem prodBonds_pattern (le : Q → Q → Bool) {infos : List (List (BondInfo Q))} {pb : List (BondFusingInfo Q)} (h : prodBonds le infos = some pb) : ∀ f ∈ pb, f.pattern = [true, true] := by
  intro f hf
  unfold prodBonds at h
  obtain ⟨o, ho, e⟩ := mapM_source h hf
  simp only [id_eq] at e
  subst e
  have inner : ∀ is : List (List (BondInfo Q)), some f ∈ prodInner le is → f.pattern = [true, true] := by
    intro is
    induction is with
    | nil => simp [prodInner]
    | cons x is ih =>
      rcases is with _ | ⟨y, is⟩
      · simp [prodInner]
      · intro hm
        rw [prodInner] at hm
        rcases List.mem_cons.1 hm with hm | hm
        · exact tensorProduct_pattern le _ _ hm.symm
        · exact ih hm
  simp only [List.mem_append, List.mem_cons, List.not_mem_nil, or_false] at ho
  rcases ho with (ho | ho) | ho
  · exact tensorProduct_pattern le _ _ ho.symm
  · exact inner _ ho
  · exact tensorProduct_pattern le _ _ ho.symm

theorem applyTensors_par (isF : Q → Bool) {pB pW : Nat → Bool} (hadd : ∀ a b, isF (a + b) = xor (isF a) (isF b)) (le : Q → Q → Bool) {l : BondInfo Q × BondInfo Q} {bonds : List (BondInfo Q × BondInfo Q)}
    {phys : List (List (BondInfo Q) × List (BondInfo Q))} (a : Mpo Q K) (b : Mps Q K) (h : ApplyOn isF (l :: bonds) phys a.tensors b.tensors)
    (hW : ParAt isF pW (a.tensors.map OpT.both)) (hB : ParAt isF pB b.tensors) {c : Mps Q K} (hc : Mps.applyTensors isF le a b = some (some c)) :
    ParAt isF (fun i => xor (pW i) (pB i)) c.tensors := by
  unfold Mps.applyTensors at hc
  split_ifs at hc
  rcases applySites_spec isF h with ⟨h1, _⟩ | ⟨rs, h1, h2, h3, _⟩
  · rw [h1] at hc
    simp at hc
  · rw [h1] at hc
    simp only at hc
    cases i1 : rs.mapM SpT.infos with
    | none => rw [i1] at hc; simp at hc
    | some is =>
      rw [i1, Option.bind_some] at hc
      cases i2 : prodBonds le is with
      | none => rw [i2] at hc; simp at hc
      | some pb =>
        rw [i2, Option.bind_some] at hc
        cases i3 : Mps.mergeSites rs pb with
        | none => rw [i3] at hc; simp at hc
        | some ts =>
          rw [i3] at hc
          have e : (⟨ts, 0⟩ : Mps Q K) = c := by simpa using hc
          rw [← e]
          exact mergeSites_par hadd (prodBonds_pattern le i2) h2 (fun r hr => (h3 r hr).1) (applySites_par isF h hW hB h1) i3

theorem mem_set_label {α β : Type} [DecidableEq α] (d : Dict α β) (k : α) (v : β) {x : α × β} (h : x ∈ Dict.set d k v) : x ∈ d ∨ x.1 = k := by
  induction d with
  | nil =>
    simp [Dict.set] at h
    exact Or.inr (by rw [h])
  | cons a d ih =>
    rw [Dict.set] at h
    split at h
    · rename_i hk
      rcases List.mem_cons.1 h with rfl | h
      · exact Or.inr hk
      · exact Or.inl (List.mem_cons_of_mem _ h)
    · rcases List.mem_cons.1 h with rfl | h
      · exact Or.inl (List.mem_cons_self ..)
      · rcases ih h with h | h
        · exact Or.inl (List.mem_cons_of_mem _ h)
        · exact Or.inr h

theorem kronAdd_par {isF : Q → Bool} {p : Bool} {A B : SpT Q K} (lb rb : BondInfo Q) (hA : ParBlocks isF p A) (hB : ParBlocks isF p B) : ParBlocks isF p (SpT.kronAdd A B lb rb) := by
  have alloc : ∀ (L m : SpT Q K), ParBlocks isF p L → ParBlocks isF p m → ParBlocks isF p (L.foldl (SpT.kronAlloc lb rb) m) := by
    intro L
    induction L with
    | nil => intro m _ hm; exact hm
    | cons b L ih =>
      intro m hL hm
      refine ih _ (fun c hc => hL c (List.mem_cons_of_mem _ hc)) ?_
      unfold SpT.kronAlloc
      split_ifs
      · exact hm
      · intro c hc
        rcases mem_set_label _ _ _ hc with h | h
        · exact hm c h
        · rw [h]; exact hL b (by simp)
  have place : ∀ (hi : Bool) (L m : SpT Q K), ParBlocks isF p L → ParBlocks isF p m → ParBlocks isF p (L.foldl (SpT.kronPlace hi) m) := by
    intro hi L
    induction L with
    | nil => intro m _ hm; exact hm
    | cons b L ih =>
      intro m hL hm
      refine ih _ (fun c hc => hL c (List.mem_cons_of_mem _ hc)) ?_
      unfold SpT.kronPlace
      split
      · exact hm
      · intro c hc
        rcases mem_set_label _ _ _ hc with h | h
        · exact hm c h
        · rw [h]; exact hL b (by simp)
  unfold SpT.kronAdd
  refine place true B _ hB (place false A _ hA (alloc _ _ ?_ ?_))
  · intro c hc
    rcases List.mem_append.1 hc with h | h
    · exact hA c h
    · exact hB c h
  · intro c hc
    simp at hc

theorem kronAddSites_par {isF : Q → Bool} {p : Nat → Bool} (as bs : List (SpT Q K)) (bonds : List (BondInfo Q)) (hA : ParAt isF p as) (hB : ParAt isF p bs) :
    ParAt isF p (Mps.kronAddSites as bs bonds) := by
  induction as generalizing bs bonds p with
  | nil =>
    simp only [Mps.kronAddSites]
    exact parAt_nil _ _
  | cons A as ih =>
    rcases bs with _ | ⟨B, bs⟩
    · simp only [Mps.kronAddSites]
      exact parAt_nil _ _
    · rcases bonds with _ | ⟨l, _ | ⟨r, rest⟩⟩
      · simp only [Mps.kronAddSites]
        exact parAt_nil _ _
      · simp only [Mps.kronAddSites]
        exact parAt_nil _ _
      · rw [parAt_cons] at hA hB
        rw [Mps.kronAddSites, parAt_cons]
        exact ⟨kronAdd_par l r hA.1 hB.1, ih bs _ hA.2 hB.2⟩

theorem add_par {isF : Q → Bool} {p : Nat → Bool} {a b c : Mps Q K} (hA : ParAt isF p a.tensors) (hB : ParAt isF p b.tensors) (h : Mps.add a b = some c) :
    ParAt isF p c.tensors := by
  unfold Mps.add at h
  cases hs : Mps.addTensors a b with
  | none => rw [hs] at h; simp at h
  | some r =>
    rw [hs] at h
    simp only [Option.map_some, Option.some.injEq] at h
    rw [← h]
    show ParAt isF p r.tensors
    unfold Mps.addTensors at hs
    by_cases h0 : a.tensors.length ≠ b.tensors.length
    · rw [if_pos h0] at hs
      simp at hs
    rw [if_neg h0] at hs
    split at hs
    · rename_i ta tb e1 e2
      simp only [Option.some.injEq] at hs
      rw [← hs]
      rw [e1, parAt_cons] at hA
      rw [e2, parAt_cons] at hB
      show ParAt isF p [ta.add tb]
      rw [parAt_cons]
      refine ⟨?_, parAt_nil _ _⟩
      intro c hc
      rcases add_labels ta tb c.1 (List.mem_map.2 ⟨c, hc, rfl⟩) with h | h
      · obtain ⟨d, hd, e⟩ := List.mem_map.1 h
        rw [← e]
        exact hA.1 d hd
      · obtain ⟨d, hd, e⟩ := List.mem_map.1 h
        rw [← e]
        exact hB.1 d hd
    · split_ifs at hs
      · simp only [Option.some.injEq] at hs
        rw [← hs]
        exact hB
      · simp only [Option.some.injEq] at hs
        rw [← hs]
        exact hA
      · cases i1 : a.tensors.mapM SpT.infos with
        | none => rw [i1] at hs; simp at hs
        | some ia =>
          rw [i1, Option.bind_some] at hs
          cases i2 : b.tensors.mapM SpT.infos with
          | none => rw [i2] at hs; simp at hs
          | some ib =>
            rw [i2] at hs
            simp only [Option.map_some, Option.some.injEq] at hs
            rw [← hs]
            exact kronAddSites_par _ _ _ hA hB

theorem smul_par {isF : Q → Bool} {p : Nat → Bool} (k : K) {a : Mps Q K} (hA : ParAt isF p a.tensors) : ParAt isF p (Mps.smul k a).tensors := by
  unfold Mps.smul
  rcases ha : a.tensors with _ | ⟨T, ts⟩
  · exact parAt_nil _ _
  · rw [ha, parAt_cons] at hA
    show ParAt isF p (_ :: ts)
    rw [parAt_cons]
    refine ⟨fun c hc => ?_, hA.2⟩
    obtain ⟨d, hd, rfl⟩ := List.mem_map.1 hc
    exact hA.1 d hd

/-- The operator, with its constant, applied to the state: the parities add up.  An operator with a constant must be bosonic. -/
theorem apply_par [DecidableEq K] (isF : Q → Bool) {pB pW : Nat → Bool} (hadd : ∀ a b, isF (a + b) = xor (isF a) (isF b)) (le : Q → Q → Bool) {l : BondInfo Q × BondInfo Q}
    {bonds : List (BondInfo Q × BondInfo Q)} {phys : List (List (BondInfo Q) × List (BondInfo Q))} (a : Mpo Q K) (b : Mps Q K)
    (h : ApplyOn isF (l :: bonds) phys a.tensors b.tensors) (hB : ParAt isF pB b.tensors) (hW : ParAt isF pW (a.tensors.map OpT.both))
    (hc0 : a.const ≠ 0 → ∀ i, pW i = false) {c : Mps Q K} (hc : Mps.apply isF le a b = some (some c)) : ParAt isF (fun i => xor (pW i) (pB i)) c.tensors := by
  unfold Mps.apply at hc
  cases ha : Mps.applyTensors isF le a b with
  | none => rw [ha] at hc; simp at hc
  | some o =>
    rw [ha] at hc
    cases o with
    | none => simp at hc
    | some r =>
      have hr := applyTensors_par isF hadd le a b h hW hB ha
      simp only at hc
      split_ifs at hc with h0
      · cases hs : Mps.add r (b.smul a.const) with
        | none => rw [hs] at hc; simp at hc
        | some s =>
          rw [hs] at hc
          have e : s = c := by simpa using hc
          rw [← e]
          refine add_par hr (smul_par _ ?_) hs
          have : (fun i => xor (pW i) (pB i)) = pB := by
            funext i
            rw [hc0 h0.1 i, Bool.false_xor]
          rw [this]
          exact hB
      · have e : r = c := by simpa using hc
        rw [← e]
        exact hr

theorem apply_evenInside [DecidableEq K] (isF : Q → Bool) (hadd : ∀ a b, isF (a + b) = xor (isF a) (isF b)) (le : Q → Q → Bool) {l : BondInfo Q × BondInfo Q}
    {bonds : List (BondInfo Q × BondInfo Q)} {phys : List (List (BondInfo Q) × List (BondInfo Q))} (a : Mpo Q K) (b : Mps Q K)
    (h : ApplyOn isF (l :: bonds) phys a.tensors b.tensors) (hB : EvenInside isF b.tensors) (hW : EvenInside isF (a.tensors.map OpT.both))
    (hc0 : a.const ≠ 0 → ∀ W ∈ a.tensors, EvenBlocks isF W.both) {c : Mps Q K} (hc : Mps.apply isF le a b = some (some c)) (h1 : a.tensors.length = b.tensors.length)
    (h2 : c.tensors.length = b.tensors.length) : EvenInside isF c.tensors := by
  obtain ⟨pB, hB⟩ := evenInside_iff.1 hB
  by_cases h0 : a.const = 0
  · obtain ⟨pW, hW⟩ := evenInside_iff.1 hW
    refine evenInside_iff.2 ⟨xor pW pB, ?_⟩
    have := apply_par isF hadd le a b h hB hW (fun h => absurd h0 h) hc
    rw [List.length_map, h1] at this
    rw [h2]
    refine fun i t hi => ?_
    have := this i t hi
    dsimp only at this ⊢
    rwa [← Bool.and_xor_distrib_left] at this
  · have hW' : ParAt isF (fun _ => false) (a.tensors.map OpT.both) := by
      intro i t hi
      obtain ⟨W, hW, rfl⟩ := List.mem_map.1 (List.mem_of_getElem? hi)
      exact hc0 h0 W hW
    have := apply_par isF hadd le a b h hB hW' (fun _ _ => rfl) hc
    refine evenInside_iff.2 ⟨pB, ?_⟩
    rw [h2]
    simpa using this

end
end Verif
