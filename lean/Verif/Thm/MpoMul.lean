import Verif.Proof.MpoAdd
import Verif.Thm.MpsProd

/-!
Properties C18, C19 and C20 for matrix product operators: sums, multiples and products of operators with constant terms.
-/

set_option linter.unusedSectionVars false

namespace Verif
section
variable {Q K : Type} [DecidableEq Q] [AddCommGroup Q] [CommRing K]

theorem OpOn.lengths {l : BondInfo Q} {bonds : List (BondInfo Q)} {phys : List (List (BondInfo Q) × List (BondInfo Q))}
    {ws : List (OpT Q K)} (h : OpOn (l :: bonds) phys ws) : ws.length = bonds.length ∧ phys.length = bonds.length := by
  induction bonds generalizing l phys ws with
  | nil => obtain ⟨rfl, rfl⟩ := h.one_inv; exact ⟨rfl, rfl⟩
  | cons r bonds ih =>
    obtain ⟨ph, phys, W, ws, rfl, rfl, -, h2⟩ := h.cons_inv
    simp [ih h2]

theorem opAmpl_noBlocks (isF : Q → Bool) {ws : List (OpT Q K)} (h : ws.any OpT.noBlocks = true) (X : List (BondInfo Q)) (s : Bool) (x : Q × Nat)
    (us ds : List (List (Q × Nat))) (y : Q × Nat) : opAmpl isF ws X s x us ds y = 0 := by
  by_cases hl : us.length = ds.length
  · rw [opAmpl_signed isF ws X s x us ds y hl]
    refine ampl_empty ?_ _ _ _ _
    clear hl
    induction ws generalizing s ds with
    | nil => simp at h
    | cons W ws ih =>
      obtain ⟨s', ds', e, -⟩ := signedChain_cons isF W ws s ds
      rw [e]
      rw [List.any_cons, Bool.or_eq_true] at h
      rcases h with h | h
      · have : W.signed s = [] := by
          unfold OpT.noBlocks at h
          simp only [Bool.and_eq_true, List.isEmpty_iff] at h
          simp [OpT.signed, h.1, h.2, SpT.smul]
        rw [this]; exact List.mem_cons_self ..
      · exact List.mem_cons_of_mem _ (ih h s' ds')
  · exact opAmpl_length isF ws X s x us ds y hl

theorem opAdd_long (a b : Mpo Q K) (h : a.tensors.length = b.tensors.length) (h2 : 2 ≤ a.tensors.length) :
    Mpo.add a b = if a.tensors.any OpT.noBlocks then some ⟨b.tensors, a.const + b.const⟩
      else if b.tensors.any OpT.noBlocks then some ⟨a.tensors, a.const + b.const⟩
      else (a.tensors.mapM OpT.infos).bind fun ainfos => (b.tensors.mapM OpT.infos).map fun binfos =>
        ⟨Mpo.kronAddSites a.tensors b.tensors ((ainfos.headD []).headD [] ::
          ((Mps.innerBonds ainfos).zip (Mps.innerBonds binfos)).map (fun x => BondInfo.addCounts x.1 x.2) ++ [(ainfos.getLastD []).getLastD []]),
          a.const + b.const⟩ := by
  unfold Mpo.add
  rw [if_neg (by omega)]
  obtain ⟨ats, ac⟩ := a
  obtain ⟨bts, bc⟩ := b
  rcases ats with _ | ⟨A, _ | ⟨A', as⟩⟩
  · simp at h2
  · simp at h2
  · rfl

/-- C18 for operators: every matrix element of the sum is the sum of the matrix elements; the constants add. -/
theorem C18_operators (isF : Q → Bool) (l r : BondInfo Q) (X Y : List (BondInfo Q)) (phys : List (List (BondInfo Q) × List (BondInfo Q))) (a b : Mpo Q K)
    (h : OpAddable l r X Y phys a.tensors b.tensors) :
    ∃ c N, Mpo.add a b = some c ∧ OpOn (l :: N ++ [r]) phys c.tensors ∧ (∀ n ∈ N, GoodBond n) ∧ c.const = a.const + b.const ∧
      ∀ s x us ds y, opAmpl isF c.tensors N s x us ds y = opAmpl isF a.tensors X s x us ds y + opAmpl isF b.tensors Y s x us ds y := by
  obtain ⟨hA, hB, hg, hph, hl, hr⟩ := h
  have hgX : ∀ c ∈ X, GoodBond c := fun c hc => hg c (by simp [hc])
  have hgY : ∀ c ∈ Y, GoodBond c := fun c hc => hg c (by simp [hc])
  obtain ⟨lA1, lA2⟩ := OpOn.lengths (l := l) (bonds := X ++ [r]) hA
  obtain ⟨lB1, lB2⟩ := OpOn.lengths (l := l) (bonds := Y ++ [r]) hB
  simp only [List.length_append, List.length_cons, List.length_nil] at lA1 lA2 lB1 lB2
  have hXY : X.length = Y.length := by omega
  by_cases hX0 : X = []
  · subst hX0
    obtain rfl : Y = [] := List.length_eq_zero_iff.1 hXY.symm
    obtain ⟨ats, ac⟩ := a
    obtain ⟨bts, bc⟩ := b
    obtain ⟨ta, rfl⟩ := List.length_eq_one_iff.1 lA1
    obtain ⟨tb, rfl⟩ := List.length_eq_one_iff.1 lB1
    obtain ⟨ph, rfl⟩ := List.length_eq_one_iff.1 lA2
    obtain ⟨o1, o2, o3⟩ := C11_add _ ta.odd tb.odd hA.1.odd hB.1.odd hA.1.oddUnique
    obtain ⟨e1, e2, e3⟩ := C11_add _ ta.even tb.even hA.1.even hB.1.even hA.1.evenUnique
    refine ⟨⟨[ta.add tb], ac + bc⟩, [], rfl, ⟨⟨o1, e1, o2, e2⟩, trivial⟩, by simp, rfl, fun s x us ds y => ?_⟩
    rcases us with _ | ⟨u, _ | ⟨u', us⟩⟩ <;> rcases ds with _ | ⟨d, _ | ⟨d', ds⟩⟩
    all_goals first
      | (simp only [opAmpl, opEntry, OpT.add]; rw [o3, e3]; ring)
      | simp [opAmpl]
  · have hX1 : 0 < X.length := List.length_pos_iff.2 hX0
    have hlong := opAdd_long a b (by omega) (by omega)
    by_cases hna : a.tensors.any OpT.noBlocks = true
    · rw [if_pos hna] at hlong
      refine ⟨⟨b.tensors, a.const + b.const⟩, Y, hlong, hB, hgY, rfl, fun s x us ds y => ?_⟩
      rw [opAmpl_noBlocks isF hna, zero_add]
    rw [if_neg hna] at hlong
    by_cases hnb : b.tensors.any OpT.noBlocks = true
    · rw [if_pos hnb] at hlong
      refine ⟨⟨a.tensors, a.const + b.const⟩, X, hlong, hA, hgX, rfl, fun s x us ds y => ?_⟩
      rw [opAmpl_noBlocks isF hnb, add_zero]
    rw [if_neg hnb] at hlong
    have neA : ∀ T ∈ a.tensors, T.noBlocks = false := fun T hT => by
      by_contra h0
      exact hna (List.any_eq_true.2 ⟨T, hT, by simpa using h0⟩)
    have neB : ∀ T ∈ b.tensors, T.noBlocks = false := fun T hT => by
      by_contra h0
      exact hnb (List.any_eq_true.2 ⟨T, hT, by simpa using h0⟩)
    obtain ⟨is, ia, sa⟩ := opSiteSpecs (bonds := X ++ [r]) hA (fun c hc => hg c (by simp at hc ⊢; tauto)) hph neA
    obtain ⟨js, ib, sb⟩ := opSiteSpecs (bonds := Y ++ [r]) hB (fun c hc => hg c (by simp at hc ⊢; tauto)) hph neB
    obtain ⟨wF, sF⟩ := SiteSpecs.first (X := X) (r := r) sa
    obtain ⟨wE, sE⟩ := SiteSpecs.last (X := X) (r := r) sa
    rw [ia, ib, Option.bind_some, Option.map_some] at hlong
    set F := (is.headD []).headD [] with hF
    set E := (is.getLastD []).getLastD [] with hE
    have hA' := OpOn.both (bonds := X ++ [r]) hA
    have hB' := OpOn.both (bonds := Y ++ [r]) hB
    obtain ⟨a1, a2, a3⟩ := rehomeSites (X := X) (F := F) (E := E) hA' sa (fun q s ho hq => (sF q s).2 ⟨hq, ho⟩) (fun q s ho hq => (sE q s).2 ⟨hq, ho⟩)
    obtain ⟨b1, b2, b3⟩ := rehomeSites (X := Y) (F := F) (E := E) hB' sb (fun q s ho hq => (sF q s).2 ⟨hq, hl q ho⟩)
      (fun q s ho hq => (sE q s).2 ⟨hq, hr q ho⟩)
    set X' := Mps.innerBonds is with hX'
    set Y' := Mps.innerBonds js with hY'
    have hlen : X'.length = Y'.length := by omega
    have a4 : OpOn (F :: X' ++ [E]) phys a.tensors := OpOn.rehome (bonds := X ++ [r]) (bonds' := X' ++ [E]) hA a1 (by simp [a2])
    have b4 : OpOn (F :: Y' ++ [E]) phys b.tensors := OpOn.rehome (bonds := Y ++ [r]) (bonds' := Y' ++ [E]) hB b1 (by simp [b2])
    set N := (X'.zip Y').map fun x => BondInfo.addCounts x.1 x.2 with hN
    obtain ⟨c1, c2⟩ := opKronAddSites_spec isF a4 b4 hlen a3 b3 wE.2 (Fits.self wF.2) N hN
    have hc1 := OpOn.both (bonds := N ++ [E]) c1
    refine ⟨_, N, hlong, ?_, ?_, rfl, ?_⟩
    · exact OpOn.rehome (bonds := N ++ [E]) (bonds' := N ++ [r]) c1 (OnBonds.widen (X := N) hc1 (fun q s hq => ((sF q s).1 hq).1)
        (fun q s hq => ((sE q s).1 hq).1)) (by simp)
    · intro n hn
      obtain ⟨p, -, rfl⟩ := List.mem_map.1 hn
      exact good_add _ _
    · intro s x us ds y
      by_cases hud : us.length = ds.length
      · have hsa := signedChain_onBonds isF (bonds := X ++ [r]) hA s ds
        have hsb := signedChain_onBonds isF (bonds := Y ++ [r]) hB s ds
        have hsa' := signedChain_onBonds isF (bonds := X' ++ [E]) a4 s ds
        have hsb' := signedChain_onBonds isF (bonds := Y' ++ [E]) b4 s ds
        rw [opAmpl_signed _ _ _ _ _ _ _ _ hud, opAmpl_signed _ _ _ _ _ _ _ _ hud, opAmpl_signed _ _ _ _ _ _ _ _ hud, ampl_congr (c2 s ds)]
        rw [ampl_bonds (X := X) (X' := X') hsa hsa' (fun c hc => (hgX c hc).1) (fun c hc => (a3 c hc).1),
          ampl_bonds (X := Y) (X' := Y') hsb hsb' (fun c hc => (hgY c hc).1) (fun c hc => (b3 c hc).1)]
        rw [(kronAddSites_spec (X := X') (Y := Y') hsa' hsb' hlen a3 b3 wE.2 (Fits.self wF.2) N hN).2]
        simp
      · rw [opAmpl_length _ _ _ _ _ _ _ _ hud, opAmpl_length _ _ _ _ _ _ _ _ hud, opAmpl_length _ _ _ _ _ _ _ _ hud, add_zero]

/-- C19 for operators: a multiple has that multiple of every matrix element and of the constant, on the same legs. -/
theorem C19_operators_scale (isF : Q → Bool) (c : K) (a : Mpo Q K) (hn : a.tensors ≠ []) :
    (Mpo.smul c a).const = c * a.const ∧
    (∀ bonds phys, OpOn bonds phys a.tensors → OpOn bonds phys (Mpo.smul c a).tensors) ∧
    ∀ X s x us ds y, opAmpl isF (Mpo.smul c a).tensors X s x us ds y = c * opAmpl isF a.tensors X s x us ds y := by
  obtain ⟨ts, ac⟩ := a
  rcases ts with _ | ⟨T, ts⟩
  · exact absurd rfl hn
  have hu : ∀ S : SpT Q K, UniqueLabels S → UniqueLabels (S.smul c) := fun S h => by
    unfold UniqueLabels SpT.smul at *
    rw [List.map_map]
    exact h
  have he : ∀ s x, opEntry (T.smul c) s x = c * opEntry T s x := fun s x => by
    unfold opEntry OpT.smul
    rw [C11_smul, C11_smul]
    ring
  refine ⟨rfl, fun bonds phys h => ?_, fun X s x us ds y => ?_⟩
  · rcases bonds with _ | ⟨l, _ | ⟨r, bonds⟩⟩
    · rcases phys with _ | ⟨ph, phys⟩ <;> exact h.elim
    · rcases phys with _ | ⟨ph, phys⟩ <;> exact h.elim
    rcases phys with _ | ⟨ph, phys⟩
    · exact h.elim
    exact ⟨⟨conforms_mapShape _ (fun _ => rfl) (fun _ => rfl) h.1.odd, conforms_mapShape _ (fun _ => rfl) (fun _ => rfl) h.1.even,
      hu _ h.1.oddUnique, hu _ h.1.evenUnique⟩, h.2⟩
  · show opAmpl isF (T.smul c :: ts) X s x us ds y = c * opAmpl isF (T :: ts) X s x us ds y
    rcases us with _ | ⟨u, us⟩
    · simp [opAmpl]
    rcases ds with _ | ⟨d, ds⟩
    · simp [opAmpl]
    rcases X with _ | ⟨b, X⟩
    · rcases ts with _ | ⟨T', ts⟩
      · rcases us with _ | ⟨u', us⟩ <;> rcases ds with _ | ⟨d', ds⟩
        · simp only [opAmpl, he]
        all_goals simp [opAmpl]
      · simp [opAmpl]
    · rw [opAmpl_cons, opAmpl_cons, ← sum_map_mul_left']
      refine sum_map_congr' _ _ _ fun z _ => ?_
      rw [he, mul_assoc]

theorem OpOnBonds.opOn {isF : Q → Bool} {l : BondInfo Q} {bonds : List (BondInfo Q)} {phys : List (List (BondInfo Q) × List (BondInfo Q))}
    {ws : List (OpT Q K)} (h : OpOnBonds isF (l :: bonds) phys ws) : OpOn (l :: bonds) phys ws := by
  induction bonds generalizing l phys ws with
  | nil => obtain ⟨rfl, rfl⟩ := h.one_inv; trivial
  | cons r bonds ih =>
    obtain ⟨ph, phys, W, ws, rfl, rfl, h1, h2⟩ := h.cons_inv
    exact ⟨⟨h1.odd, h1.even, h1.oddUnique, h1.evenUnique⟩, ih h2⟩

/-- Two operators with one label on the outer edges can always be added. -/
theorem opAdd_single (isF : Q → Bool) {q q' : Q} {n n' : Nat} {X Y : List (BondInfo Q)} {phys : List (List (BondInfo Q) × List (BondInfo Q))}
    (a b : Mpo Q K) (hA : OpOn ([(q, n)] :: X ++ [[(q', n')]]) phys a.tensors) (hB : OpOn ([(q, n)] :: Y ++ [[(q', n')]]) phys b.tensors)
    (hg : ∀ c ∈ [(q, n)] :: [(q', n')] :: X ++ Y, GoodBond c) (hp : ∀ ph ∈ phys, ∀ c ∈ ph.1 ++ ph.2, GoodBond c) (hX : X ≠ []) :
    ∃ c N, Mpo.add a b = some c ∧ OpOn ([(q, n)] :: N ++ [[(q', n')]]) phys c.tensors ∧ (∀ n ∈ N, GoodBond n) ∧ c.const = a.const + b.const ∧
      ∀ s x us ds y, opAmpl isF c.tensors N s x us ds y = opAmpl isF a.tensors X s x us ds y + opAmpl isF b.tensors Y s x us ds y := by
  by_cases hna : a.tensors.any OpT.noBlocks = true
  · obtain ⟨lA1, lA2⟩ := OpOn.lengths (l := [(q, n)]) (bonds := X ++ [[(q', n')]]) hA
    obtain ⟨lB1, lB2⟩ := OpOn.lengths (l := [(q, n)]) (bonds := Y ++ [[(q', n')]]) hB
    simp only [List.length_append, List.length_cons, List.length_nil] at lA1 lA2 lB1 lB2
    have := List.length_pos_iff.2 hX
    have hlong := opAdd_long a b (by omega) (by omega)
    rw [if_pos hna] at hlong
    refine ⟨⟨b.tensors, a.const + b.const⟩, Y, hlong, hB, fun c hc => hg c (by simp [hc]), rfl, fun s x us ds y => ?_⟩
    rw [opAmpl_noBlocks isF hna, zero_add]
  · have neA : ∀ T ∈ a.tensors.map OpT.both, T ≠ [] := fun T hT => by
      obtain ⟨W, hW, rfl⟩ := List.mem_map.1 hT
      rw [both_ne_nil]
      by_contra h0
      exact hna (List.any_eq_true.2 ⟨W, hW, by simpa using h0⟩)
    have hA' := OpOn.both (bonds := X ++ [[(q', n')]]) hA
    have hB' := OpOn.both (bonds := Y ++ [[(q', n')]]) hB
    have hadd := addable_single (X := X) (Y := Y) hA' hB' hg neA
    exact C18_operators isF _ _ X Y phys a b ⟨hA, hB, hg, hp, hadd.left, hadd.right⟩

theorem mulOn_of {isF : Q → Bool} {wl l : BondInfo Q} {X Y : List (BondInfo Q)} {phys : List (List (BondInfo Q) × List (BondInfo Q) × List (BondInfo Q))}
    {as bs : List (OpT Q K)} (ha : OpOnBonds isF (wl :: X) (phys.map fun ph => (ph.1, ph.2.1)) as)
    (hb : OpOnBonds isF (l :: Y) (phys.map fun ph => (ph.2.1, ph.2.2)) bs) (hl : X.length = Y.length)
    (legs : ∀ ph ∈ phys, ph.2.1 ≠ [] ∧ ph.1.length = ph.2.1.length ∧ ph.2.2.length = ph.2.1.length ∧ ∀ c ∈ ph.1 ++ ph.2.1 ++ ph.2.2, GoodBond c)
    (parity : ∀ B ∈ bs, SameParity isF B.both) : MulOn isF ((wl, l) :: X.zip Y) phys as bs := by
  induction X generalizing wl l Y phys as bs with
  | nil =>
    obtain rfl : Y = [] := List.length_eq_zero_iff.1 hl.symm
    obtain ⟨e, rfl⟩ := ha.one_inv
    obtain ⟨e', rfl⟩ := hb.one_inv
    obtain rfl : phys = [] := by simpa using e
    trivial
  | cons r X ih =>
    rcases Y with _ | ⟨r', Y⟩
    · simp at hl
    obtain ⟨pa, phys1, W, ws, e, rfl, h1, h2⟩ := ha.cons_inv
    obtain ⟨pb, phys2, B, bs, e', rfl, h3, h4⟩ := hb.cons_inv
    rcases phys with _ | ⟨ph, phys⟩
    · simp at e
    obtain ⟨rfl, rfl⟩ : pa = (ph.1, ph.2.1) ∧ phys1 = phys.map fun ph => (ph.1, ph.2.1) := by simpa [eq_comm] using e
    obtain ⟨rfl, rfl⟩ : pb = (ph.2.1, ph.2.2) ∧ phys2 = phys.map fun ph => (ph.2.1, ph.2.2) := by simpa [eq_comm] using e'
    obtain ⟨n1, n2, n3, n4⟩ := legs ph (List.mem_cons_self ..)
    exact ⟨h1, h3, parity B (List.mem_cons_self ..), ⟨n1, n2, n3⟩, fun b hb => (n4 b (by simp [hb])).1,
      ih h2 h4 (by simpa using hl) (fun p hp => legs p (List.mem_cons_of_mem _ hp)) fun B hB => parity B (List.mem_cons_of_mem _ hB)⟩

theorem EvenBlocks.opSite {isF : Q → Bool} {W : OpT Q K} (hW : EvenBlocks isF W.both) {s : Bool} {x y : Q × Nat} {m d : List (Q × Nat)}
    (h : opEntry W s (x :: m ++ d ++ [y]) ≠ 0) : xor (xor (isF x.1) (basisPar isF m)) (basisPar isF d) = isF y.1 := by
  have key : ∀ T : SpT Q K, EvenBlocks isF T → entry T (x :: m ++ d ++ [y]) ≠ 0 → xor (xor (isF x.1) (basisPar isF m)) (basisPar isF d) = isF y.1 := by
    intro T hT hne
    have e : x :: m ++ d ++ [y] = x :: (m ++ d) ++ [y] := by simp
    rw [e] at hne
    have := hT.site (l := []) (r := []) (ph := []) hne
    rw [← this]
    unfold basisPar
    rw [List.map_append, fermParity_append, Bool.xor_assoc]
  by_cases h1 : entry W.even (x :: m ++ d ++ [y]) = 0
  · refine key W.odd (fun b hb => hW b (List.mem_append_left _ hb)) fun h2 => h ?_
    unfold opEntry
    rw [h1, h2]; simp
  · exact key W.even (fun b hb => hW b (List.mem_append_right _ hb)) h1

theorem multiplied_eq_sch {isF : Q → Bool} {wl wr l r : BondInfo Q} {X Y : List (BondInfo Q)}
    {phys : List (List (BondInfo Q) × List (BondInfo Q) × List (BondInfo Q))} {as bs : List (OpT Q K)} (h : Multipliable isF wl wr l r X Y phys as bs)
    (s : Bool) (w x w' x' : Q × Nat) (us ds : List (List (Q × Nat))) (hus : us.length = as.length) (hds : ds.length = as.length) :
    sch (basisPar isF) (mulFuns isF phys as bs) ((X.zip Y).map fun b => pairs (legBasis b.1) (legBasis b.2)) s (w, x) us ds (w', x') =
      multiplied isF X Y phys as bs s w x us ds w' x' := by
  obtain ⟨l1, l2⟩ := OpOnBonds.lengths (l := wl) (bonds := X ++ [wr]) h.opA
  obtain ⟨l3, l4⟩ := OpOnBonds.lengths (l := l) (bonds := Y ++ [r]) h.opB
  simp only [List.length_append, List.length_cons, List.length_nil, List.length_map] at l1 l2 l3 l4
  have key := sch_prod (basisPar isF) (basisPar isF) (fun x : Q × Nat => isF x.1) (mss := phys.map fun ph => legIndices ph.2.1) (fs := as.map opFun)
    (gs := bs.map opFun) (bs := X.map legBasis) (cs := Y.map legBasis) (by simp [l1]) (by simp [l3]) (by simp; omega) (by simp; omega)
    (by
      intro g hg s x m d y hne
      rw [← List.map_dropLast] at hg
      obtain ⟨B, hB, rfl⟩ := List.mem_map.1 hg
      exact EvenBlocks.opSite (h.parity.inner B.both (by rw [← List.map_dropLast]; exact List.mem_map_of_mem hB)) hne) s w x us ds (by simp [hus]) (by simp [hds]) w' x'
  have e : ((X.map legBasis).zip (Y.map legBasis)).map (fun z => pairs z.1 z.2) = (X.zip Y).map fun b => pairs (legBasis b.1) (legBasis b.2) := by
    rw [List.zip_map, List.map_map]
    rfl
  rw [e] at key
  refine key.trans ?_
  unfold multiplied
  refine sum_map_congr' _ _ _ fun ms hms => ?_
  rw [opAmpl_eq_sch, opAmpl_eq_sch]

/-- **C20**, operator times operator, tensor part.  With one label on each outer edge, the product has the matrix elements of the operator product;
when the number 0 is returned they all vanish. -/
theorem C20_mul_tensors (isF : Q → Bool) (le : Q → Q → Bool) {ql qr q q' : Q} {nl nr n n' : Nat} {X Y : List (BondInfo Q)}
    {phys : List (List (BondInfo Q) × List (BondInfo Q) × List (BondInfo Q))} (a b : Mpo Q K)
    (h : Multipliable isF [(ql, nl)] [(qr, nr)] [(q, n)] [(q', n')] X Y phys a.tensors b.tensors) (hX : X ≠ []) :
    (Mpo.mulTensors isF le a b = some none ∧ ∀ s w x us ds w' x', Sized (phys.map fun ph => (ph.1, ph.2.2)) us ds →
      multiplied isF X Y phys a.tensors b.tensors s w x us ds w' x' = 0) ∨
    ∃ ts N, Mpo.mulTensors isF le a b = some (some ⟨ts, 0⟩) ∧
      OpOn ([(ql + q, nl * n)] :: N ++ [[(qr + q', nr * n')]]) (phys.map fun ph => (ph.1, ph.2.2)) ts ∧ (∀ c ∈ N, GoodBond c) ∧ N.length = X.length ∧
      ∀ s i j i' j' us ds, i < nl → j < n → i' < nr → j' < n' → Sized (phys.map fun ph => (ph.1, ph.2.2)) us ds →
        opAmpl isF ts N s (ql + q, i * n + j) us ds (qr + q', i' * n' + j') =
          multiplied isF X Y phys a.tensors b.tensors s (ql, i) (q, j) us ds (qr, i') (q', j') := by
  obtain ⟨l1, l2⟩ := OpOnBonds.lengths (l := [(ql, nl)]) (bonds := X ++ [[(qr, nr)]]) h.opA
  obtain ⟨l3, l4⟩ := OpOnBonds.lengths (l := [(q, n)]) (bonds := Y ++ [[(q', n')]]) h.opB
  simp only [List.length_append, List.length_cons, List.length_nil, List.length_map] at l1 l2 l3 l4
  have hXY : X.length = Y.length := by omega
  have hon := mulOn_of (wl := [(ql, nl)]) (X := X ++ [[(qr, nr)]]) (l := [(q, n)]) (Y := Y ++ [[(q', n')]]) h.opA h.opB (by simp [hXY]) h.legs fun B hB => h.parity.all B.both (List.mem_map_of_mem hB)
  rw [zip_ends X Y _ _ hXY] at hon
  have g := h.good
  have g1 := (g [(ql, nl)] (by simp)).2 (ql, nl) (by simp)
  have g2 := (g [(qr, nr)] (by simp)).2 (qr, nr) (by simp)
  have g3 := (g [(q, n)] (by simp)).2 (q, n) (by simp)
  have g4 := (g [(q', n')] (by simp)).2 (q', n') (by simp)
  have gz : ∀ c ∈ X.zip Y, GoodBond c.1 ∧ GoodBond c.2 := fun c hc =>
    ⟨g _ (by simp [(List.of_mem_zip (a := c.1) (b := c.2) hc).1]), g _ (by simp [(List.of_mem_zip (a := c.1) (b := c.2) hc).2])⟩
  have hsz : ∀ us ds, Sized (phys.map fun ph => (ph.1, ph.2.2)) us ds → us.length = a.tensors.length ∧ ds.length = a.tensors.length := by
    intro us ds hs
    have : ∀ (p : List (List (BondInfo Q) × List (BondInfo Q))) us ds, Sized p us ds → us.length = p.length ∧ ds.length = p.length := by
      intro p us ds hs
      induction hs with
      | nil => exact ⟨rfl, rfl⟩
      | cons _ _ _ ih => simp [ih]
    have := this _ _ _ hs
    rw [List.length_map] at this
    omega
  rcases mulTensors_spec isF le (l := ([(ql, nl)], [(q, n)])) (r := ([(qr, nr)], [(q', n')])) (X := X.zip Y) a b hon
    (by
      intro e
      have := congrArg List.length e
      rw [List.length_zip] at this
      have h' := List.length_pos_iff.2 hX
      simp only [List.length_nil] at this
      omega)
    (by
      intro c hc
      simp only [List.cons_append, List.mem_cons, List.mem_append, List.not_mem_nil, or_false] at hc
      rcases hc with rfl | hc | rfl
      · exact ⟨g _ (by simp), g _ (by simp)⟩
      · exact gz c hc
      · exact ⟨g _ (by simp), g _ (by simp)⟩)
    (by
      intro ph hph c hc
      obtain ⟨p, hp, rfl⟩ := List.mem_map.1 hph
      refine (h.legs p hp).2.2.2 c ?_
      simp only [List.mem_append] at hc ⊢
      tauto) (by rw [List.length_zip]; omega) with ⟨e, hz⟩ | ⟨ts, fl, fm, fr, F, E, T0, T1, e1, e2, e3, e4, e5, e6, e7, e8, e9, ⟨c0, e10⟩, ⟨c1, e11⟩, e12, e13, e14, e15, e16⟩
  · refine Or.inl ⟨e, fun s w x us ds w' x' hs => ?_⟩
    rw [← multiplied_eq_sch h s w x w' x' us ds (hsz us ds hs).1 (hsz us ds hs).2]
    exact hz us ds hs _ _ _ _
  right
  have s1 := get?_edge e10 e8 (k := 0) (by simp) (q0 := ql) (n := nl) (by simp) e12
  have s2 := get?_edge e10 e8 (k := 1) (by simp) (q0 := q) (n := n) (by simp) e13
  have s3 := get?_edge e11 e9 (k := ((joinPhys (outer phys)).getLastD []).length + 2) (by simp) (q0 := qr) (n := nr)
    (by simp only [List.getD_eq_getElem?_getD]; rw [List.getElem?_append_right (by simp)]; simp) e14
  have s4 := get?_edge e11 e9 (k := ((joinPhys (outer phys)).getLastD []).length + 3) (by simp) (q0 := q') (n := n')
    (by simp only [List.getD_eq_getElem?_getD]; rw [List.getElem?_append_right (by simp)]; simp) e15
  obtain ⟨t1, t2⟩ := e2.single g1 g3 s1 s2
  obtain ⟨t3, t4⟩ := e3.single g2 g4 s3 s4
  refine ⟨ts, fm.map fun f => f.quanta, e1, ?_, ?_, ?_, ?_⟩
  · refine OpOn.rehome (bonds := (fm.map fun f => f.quanta) ++ [fr.quanta]) e4 ?_ (by simp)
    refine OnBonds.widen (l := fl.quanta) (r := fr.quanta) (OpOn.both (bonds := (fm.map fun f => f.quanta) ++ [fr.quanta]) e4) ?_ ?_
    · intro p s hp
      rw [get?_single]; exact (t1 p s).1 hp
    · intro p s hp
      rw [get?_single]; exact (t3 p s).1 hp
  · intro c hc
    obtain ⟨f, hf, rfl⟩ := List.mem_map.1 hc
    exact e5 f hf
  · rw [List.length_map, e7, List.length_zip]; omega
  · intro s i j i' j' us ds hi hj hi' hj' hs
    obtain ⟨m1, m2⟩ := t2 i j hi hj
    obtain ⟨m3, m4⟩ := t4 i' j' hi' hj'
    have := e16 s _ m1 us ds hs _ m3
    rw [m2, m4] at this
    rw [this]
    exact multiplied_eq_sch h s _ _ _ _ us ds (hsz us ds hs).1 (hsz us ds hs).2

/-- **C20**, operator times operator with constants.  Both have the trivial outer edges and the same row and column legs.  The product of
`A + α` and `B + β` is `A B + α B + β A + α β`, or the number 0 is returned, and then `A B` vanishes. -/
theorem C20_mul [DecidableEq K] (isF : Q → Bool) (le : Q → Q → Bool) {X Y : List (BondInfo Q)}
    {phys : List (List (BondInfo Q) × List (BondInfo Q) × List (BondInfo Q))} (a b : Mpo Q K)
    (h : Multipliable isF [(0, 1)] [(0, 1)] [(0, 1)] [(0, 1)] X Y phys a.tensors b.tensors) (hX : X ≠ [])
    (hsame : ∀ ph ∈ phys, ph.1 = ph.2.1 ∧ ph.2.2 = ph.2.1) :
    (Mpo.mul isF le a b = some none ∧ ∀ s us ds, Sized (phys.map fun ph => (ph.1, ph.2.2)) us ds →
      multiplied isF X Y phys a.tensors b.tensors s (0, 0) (0, 0) us ds (0, 0) (0, 0) = 0) ∨
    ∃ c N, Mpo.mul isF le a b = some (some c) ∧ OpOn ([(0, 1)] :: N ++ [[(0, 1)]]) (phys.map fun ph => (ph.1, ph.2.2)) c.tensors ∧
      (∀ d ∈ N, GoodBond d) ∧ c.const = a.const * b.const ∧
      ∀ s us ds, Sized (phys.map fun ph => (ph.1, ph.2.2)) us ds → opAmpl isF c.tensors N s (0, 0) us ds (0, 0) =
        multiplied isF X Y phys a.tensors b.tensors s (0, 0) (0, 0) us ds (0, 0) (0, 0) +
          a.const * opAmpl isF b.tensors Y s (0, 0) us ds (0, 0) + b.const * opAmpl isF a.tensors X s (0, 0) us ds (0, 0) := by
  rcases C20_mul_tensors isF le a b h hX with ⟨e, hz⟩ | ⟨ts, N, e1, e2, e3, e4, e5⟩
  · left
    exact ⟨by unfold Mpo.mul; rw [e], fun s us ds hs => hz _ _ _ _ _ _ _ hs⟩
  right
  unfold Mpo.mul
  rw [e1]
  simp only [zero_add, one_mul] at e2 e5
  have e5' : ∀ s us ds, Sized (phys.map fun ph => (ph.1, ph.2.2)) us ds → opAmpl isF ts N s (0, 0) us ds (0, 0) =
      multiplied isF X Y phys a.tensors b.tensors s (0, 0) (0, 0) us ds (0, 0) (0, 0) := by
    intro s us ds hs
    have := e5 s 0 0 0 0 us ds (by omega) (by omega) (by omega) (by omega) hs
    simpa using this
  have pA : (phys.map fun ph => (ph.1, ph.2.1)) = phys.map fun ph => (ph.1, ph.2.2) := List.map_congr_left fun ph hp => by rw [(hsame ph hp).2]
  have pB : (phys.map fun ph => (ph.2.1, ph.2.2)) = phys.map fun ph => (ph.1, ph.2.2) := List.map_congr_left fun ph hp => by rw [(hsame ph hp).1]
  have hA := OpOnBonds.opOn (l := [(0, 1)]) (bonds := X ++ [[(0, 1)]]) h.opA
  have hB := OpOnBonds.opOn (l := [(0, 1)]) (bonds := Y ++ [[(0, 1)]]) h.opB
  rw [pA] at hA
  rw [pB] at hB
  have lA := (OpOn.lengths hA).1
  have lB := (OpOn.lengths hB).1
  have lph := (OpOn.lengths hA).2
  have lphB := (OpOn.lengths hB).2
  simp only [List.length_append, List.length_cons, List.length_nil] at lA lB lph lphB
  have hX1 := List.length_pos_iff.2 hX
  have hY : Y ≠ [] := List.length_pos_iff.1 (by omega)
  have hN : N ≠ [] := List.length_pos_iff.1 (by omega)
  have neA : a.tensors ≠ [] := List.length_pos_iff.1 (by omega)
  have neB : b.tensors ≠ [] := List.length_pos_iff.1 (by omega)
  obtain ⟨j1, j2, j3⟩ := C19_operators_scale isF b.const a neA
  obtain ⟨k1, k2, k3⟩ := C19_operators_scale isF a.const b neB
  have hp : ∀ ph ∈ phys.map fun ph => (ph.1, ph.2.2), ∀ c ∈ ph.1 ++ ph.2, GoodBond c := by
    intro ph hph c hc
    obtain ⟨p, hp, rfl⟩ := List.mem_map.1 hph
    refine (h.legs p hp).2.2.2 c ?_
    simp only [List.mem_append] at hc ⊢
    tauto
  have g0 : GoodBond [((0 : Q), 1)] := h.good _ (by simp)
  have gX : ∀ c ∈ X, GoodBond c := fun c hc => h.good c (by simp [hc])
  have gY : ∀ c ∈ Y, GoodBond c := fun c hc => h.good c (by simp [hc])
  have gg : ∀ U V : List (BondInfo Q), (∀ c ∈ U, GoodBond c) → (∀ c ∈ V, GoodBond c) → ∀ c ∈ [((0 : Q), 1)] :: [(0, 1)] :: U ++ V, GoodBond c := by
    intro U V hU hV c hc
    simp only [List.cons_append, List.mem_cons, List.mem_append] at hc
    rcases hc with rfl | rfl | hc | hc
    · exact g0
    · exact g0
    · exact hU c hc
    · exact hV c hc
  by_cases ha : a.const = 0 <;> by_cases hb : b.const = 0
  · refine ⟨⟨ts, 0⟩, N, by simp [ha, hb], e2, e3, by simp [ha], fun s us ds hs => ?_⟩
    rw [e5' s us ds hs, ha, hb]; ring
  · obtain ⟨c, M, c1, c2, c3, c4, c5⟩ := opAdd_single isF ⟨ts, 0⟩ (Mpo.smul b.const a) e2 (j2 _ _ hA) (gg N X e3 gX) hp hN
    refine ⟨c, M, ?_, c2, c3, ?_, fun s us ds hs => ?_⟩
    · simp [ha, hb, c1]
    · rw [c4, j1, ha]; simp
    · rw [c5, j3, e5' s us ds hs, ha]; ring
  · obtain ⟨c, M, c1, c2, c3, c4, c5⟩ := opAdd_single isF ⟨ts, 0⟩ (Mpo.smul a.const b) e2 (k2 _ _ hB) (gg N Y e3 gY) hp hN
    refine ⟨c, M, ?_, c2, c3, ?_, fun s us ds hs => ?_⟩
    · simp [ha, hb, c1]
    · rw [c4, k1, hb]; simp
    · rw [c5, k3, e5' s us ds hs, hb]; ring
  · obtain ⟨t, R, t1, t2, t3, t4, t5⟩ := opAdd_single isF (Mpo.smul b.const a) (Mpo.smul a.const b) (j2 _ _ hA) (k2 _ _ hB) (gg X Y gX gY) hp hX
    obtain ⟨c, M, c1, c2, c3, c4, c5⟩ := opAdd_single isF ⟨ts, 0⟩ t e2 t2 (gg N R e3 t3) hp hN
    refine ⟨⟨c.tensors, c.const - a.const * b.const⟩, M, ?_, c2, c3, ?_, fun s us ds hs => ?_⟩
    · simp [ha, hb, c1, t1]
    · show c.const - _ = _
      rw [c4, t4, j1, k1]; ring
    · show opAmpl isF c.tensors M s _ us ds _ = _
      rw [c5, t5, j3, k3, e5' s us ds hs]; ring

/-- **C20**: both constants are lost when a tensor of the first operator has no blocks. -/
theorem C20_mul_const_lost [DecidableEq K] (isF : Q → Bool) (le : Q → Q → Bool) (W : OpT Q K) (ws : List (OpT Q K)) (c : K) (b : Mpo Q K)
    (hlen : ws.length + 1 = b.tensors.length) (h2 : 1 < b.tensors.length) (hW : W.noBlocks = true) :
    Mpo.mul isF le ⟨W :: ws, c⟩ b = some none := by
  unfold Mpo.mul Mpo.mulTensors
  rw [if_neg (by simp only [List.length_cons]; omega)]
  rcases hb : b.tensors with _ | ⟨B, bs⟩
  · simp [hb] at hlen
  · rw [Mpo.mulSites]
    simp [hW]

end

section

def mpoPhys3 : List (List (BondInfo Int) × List (BondInfo Int) × List (BondInfo Int)) :=
  [([[(0, 1), (1, 1)]], [[(0, 1), (1, 1)]], [[(0, 1), (1, 1)]]), ([[(0, 1), (1, 1)]], [[(0, 1), (1, 1)]], [[(0, 1), (1, 1)]])]

/-- The hypotheses of `C20_mul` are met by the square of an operator with a constant. -/
example : Multipliable mpoIsF [(0, 1)] [(0, 1)] [(0, 1)] [(0, 1)] [mpoBond] [mpoBond] mpoPhys3 mpoH.tensors mpoH.tensors where
  opA := ⟨⟨by decide, by decide, by decide, by decide, by decide, by decide⟩, ⟨by decide, by decide, by decide, by decide, by decide, by decide⟩, trivial⟩
  opB := ⟨⟨by decide, by decide, by decide, by decide, by decide, by decide⟩, ⟨by decide, by decide, by decide, by decide, by decide, by decide⟩, trivial⟩
  good := by unfold GoodBond; decide
  legs := by unfold GoodBond; decide
  parity := .of_even (by unfold EvenBlocks; decide)

/-- A matrix element of the square: hopping forth and back, the square of the number-like term, and the two terms with the constant 10; the constant
of the square is 100. -/
example : ∃ c N, Mpo.mul mpoIsF (fun a b => decide (a ≤ b)) mpoH mpoH = some (some c) ∧ c.const = 100 ∧
    opAmpl mpoIsF c.tensors N false (0, 0) [[(1, 0)], [(0, 0)]] [[(1, 0)], [(0, 0)]] (0, 0) = 2 * 1 * (3 * 7) * (-1) + 5 * 5 + 2 * (10 * 5) := by
  refine ⟨_, [[(0, 20), (1, 20), (-1, 20), (2, 20), (-2, 20)]], rfl, ?_⟩
  decide +kernel

/-- The sum of two operators. -/
example : OpAddable [(0, 1)] [(0, 1)] [mpoBond] [mpoBond] mpoPhys mpoH.tensors mpoH.tensors where
  onA := ⟨⟨by decide, by decide, by decide, by decide⟩, ⟨by decide, by decide, by decide, by decide⟩, trivial⟩
  onB := ⟨⟨by decide, by decide, by decide, by decide⟩, ⟨by decide, by decide, by decide, by decide⟩, trivial⟩
  good := by unfold GoodBond; decide
  legs := by unfold GoodBond; decide
  left := fun _ h => h
  right := fun _ h => h

end
end Verif
