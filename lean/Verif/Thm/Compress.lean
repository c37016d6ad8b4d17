import Verif.Proof.CompressBwd

/-! C50: block-wise singular value decomposition and compression of a matrix product state. -/

set_option linter.unusedSectionVars false

namespace Verif
section
variable {Q K V : Type} [DecidableEq Q] [AddCommGroup Q] [CommRing K] [CommRing V] [LinearOrder V] [IsStrictOrderedRing V]

/-- C50: `left_svd` decomposes the tensor along the cut before its last leg: the three factors fit together on one new bond, their product is the
tensor, and they have the form that `truncate_svd` needs.  If the dense routine returns orthonormal columns and rows and the tensor has a definite
charge and no repeated labels, then both outer factors are isometries. -/
theorem C50_left_svd (c : V → K) (svd : Arr K → Arr K × Arr V × Arr K) (hsvd : IsSvd c svd) (legs : List (BondInfo Q)) (r : BondInfo Q) (T : SpT Q K)
    (hT : Conforms (legs ++ [r]) T) (hlegs : ∀ b ∈ legs, GoodBond b) (hr : GoodBond r) :
    BlockSvd c legs [r] T (SpT.leftSvd svd T).1 (SpT.leftSvd svd T).2.1 (SpT.leftSvd svd T).2.2 ∧
      (∀ q, Counter.count (valueBond (SpT.leftSvd svd T).2.1) q ≤ Counter.count r q) ∧
      ∀ [StarRing K], SvdUnitary svd → UniqueLabels T → HasCharge (legs.length + 1) T →
        LeftIsometric legs (valueBond (SpT.leftSvd svd T).2.1) (SpT.leftSvd svd T).1 ∧
        RightIsometric (valueBond (SpT.leftSvd svd T).2.1) [r] (SpT.leftSvd svd T).2.2 := by
  refine ⟨blockSvd_left c svd hsvd hT hlegs hr, ?_, fun hun hu hq => leftSvd_isometries c svd hsvd hun hT hlegs hr hu hq⟩
  have hvb : valueBond (SpT.leftSvd svd T).2.1 = newBond true T (fun g => (svd (stackLeft (g.2.map Prod.snd))).2.1.shape.getD 0 0) :=
    valueBond_groups _
  rw [hvb]
  exact (assembled_leftSvd c svd hsvd hT hlegs hr).le

/-- C50: `right_svd` decomposes the tensor along the cut behind its first leg. -/
theorem C50_right_svd (c : V → K) (svd : Arr K → Arr K × Arr V × Arr K) (hsvd : IsSvd c svd) (legs : List (BondInfo Q)) (l : BondInfo Q) (T : SpT Q K)
    (hT : Conforms (l :: legs) T) (hlegs : ∀ b ∈ legs, GoodBond b) (hl : GoodBond l) :
    BlockSvd c [l] legs T (SpT.rightSvd svd T).1 (SpT.rightSvd svd T).2.1 (SpT.rightSvd svd T).2.2 ∧
      (∀ q, Counter.count (valueBond (SpT.rightSvd svd T).2.1) q ≤ Counter.count l q) ∧
      ∀ [StarRing K], SvdUnitary svd → UniqueLabels T → HasCharge (legs.length + 1) T →
        LeftIsometric [l] (valueBond (SpT.rightSvd svd T).2.1) (SpT.rightSvd svd T).1 ∧
        RightIsometric (valueBond (SpT.rightSvd svd T).2.1) legs (SpT.rightSvd svd T).2.2 := by
  refine ⟨blockSvd_right c svd hsvd hT hlegs hl, ?_, fun hun hu hq => rightSvd_isometries c svd hsvd hun hT hlegs hl hu hq⟩
  have hvb : valueBond (SpT.rightSvd svd T).2.1 = newBond false T (fun g => (svd (stackRight (g.2.map Prod.snd))).2.1.shape.getD 0 0) :=
    valueBond_groups _
  rw [hvb]
  exact (assembled_rightSvd c svd hsvd hT hlegs hl).le

theorem sum_le_length_mul (errs : List V) (M : V) (h : ∀ e ∈ errs, e ≤ M) : errs.sum ≤ (errs.length : V) * M := by
  induction errs with
  | nil => simp
  | cons e errs ih =>
    have h1 := ih fun e he => h e (List.mem_cons_of_mem _ he)
    have h2 := h e List.mem_cons_self
    rw [List.sum_cons, List.length_cons]
    push_cast
    linarith

theorem foldl_max_spec (errs : List V) (a : V) : a ≤ errs.foldl max a ∧ (∀ e ∈ errs, e ≤ errs.foldl max a) ∧ (errs.foldl max a = a ∨ errs.foldl max a ∈ errs) := by
  induction errs generalizing a with
  | nil => simp
  | cons e errs ih =>
    obtain ⟨h1, h2, h3⟩ := ih (max a e)
    rw [List.foldl_cons]
    refine ⟨le_trans (le_max_left _ _) h1, ?_, ?_⟩
    · intro x hx
      rcases List.mem_cons.1 hx with rfl | hx
      · exact le_trans (le_max_right _ _) h1
      · exact h2 x hx
    · rcases h3 with h3 | h3
      · rcases max_choice a e with h | h
        · left; rw [h3, h]
        · right; rw [h3, h]; simp
      · right; simp [h3]

theorem foldl_max_le_sum (errs : List V) (h : ∀ e ∈ errs, 0 ≤ e) : errs.foldl max 0 ≤ errs.sum := by
  rcases (foldl_max_spec errs 0).2.2 with h' | h'
  · rw [h']; exact List.sum_nonneg h
  · exact List.single_le_sum h _ h'

theorem rightChain_of_index [StarRing K] {l r : BondInfo Q} {X : List (BondInfo Q)} {phys : List (List (BondInfo Q))} {ts : List (SpT Q K)}
    (h : ∀ i < ts.length, RightIsometric ((l :: X).getD i []) (phys.getD i [] ++ [(X ++ [r]).getD i []]) (ts.getD i [])) :
    RightChain (l :: X ++ [r]) phys ts := by
  induction ts generalizing l X phys with
  | nil => cases X <;> cases phys <;> trivial
  | cons T ts ih =>
    cases phys with
    | nil => cases X <;> trivial
    | cons ph phys =>
      have h0 := h 0 (by simp)
      cases X with
      | nil =>
        refine ⟨by simpa using h0, ?_⟩
        cases ts <;> cases phys <;> trivial
      | cons b X =>
        refine ⟨by simpa using h0, ih ?_⟩
        intro i hi
        have := h (i + 1) (by simpa using hi)
        simpa using this

theorem leftChain_of_index [StarRing K] {l r : BondInfo Q} {X : List (BondInfo Q)} {phys : List (List (BondInfo Q))} {ts : List (SpT Q K)}
    (hX : X.length + 1 = ts.length)
    (h : ∀ i < ts.length - 1, LeftIsometric ((l :: X).getD i [] :: phys.getD i []) (X.getD i []) (ts.getD i [])) :
    LeftChain (l :: X ++ [r]) phys ts := by
  induction ts generalizing l X phys with
  | nil => cases X <;> cases phys <;> trivial
  | cons T ts ih =>
    cases phys with
    | nil => cases X <;> trivial
    | cons ph phys =>
      cases ts with
      | nil => cases X <;> trivial
      | cons T' ts =>
        cases X with
        | nil => simp at hX
        | cons b X =>
          have h0 := h 0 (by simp)
          refine ⟨by simpa using h0, ih (by simpa using hX) ?_⟩
          intro i hi
          have := h (i + 1) (by simp at hi ⊢; omega)
          simpa using this

theorem index_of_rightChain [StarRing K] {l r : BondInfo Q} {X : List (BondInfo Q)} {phys : List (List (BondInfo Q))} {ts : List (SpT Q K)}
    (hon : OnBonds (l :: X ++ [r]) phys ts) (h : RightChain (l :: X ++ [r]) phys ts) :
    ∀ i < ts.length, RightIsometric ((l :: X).getD i []) (phys.getD i [] ++ [(X ++ [r]).getD i []]) (ts.getD i []) := by
  induction ts generalizing l X phys with
  | nil => simp
  | cons T ts ih =>
    intro i hi
    cases phys with
    | nil => cases X <;> exact hon.elim
    | cons ph phys =>
      cases X with
      | nil =>
        have : ts = [] := by
          have h2 := hon.2
          cases ts with
          | nil => rfl
          | cons => cases phys <;> exact h2.elim
        subst this
        obtain rfl : i = 0 := by simpa using hi
        exact h.1
      | cons b X =>
        cases i with
        | zero => exact h.1
        | succ i =>
          have := ih hon.2 h.2 i (by simpa using hi)
          simpa using this

/-- The distance of the chains is the distance of the states. -/
theorem chainDist_eq [StarRing K] {l r : BondInfo Q} (hr : Dict.WF r) {phys : List (List (BondInfo Q))} {ts ts' : List (SpT Q K)} {X X' : List (BondInfo Q)}
    (h : OnBonds (l :: X ++ [r]) phys ts) (h' : OnBonds (l :: X' ++ [r]) phys ts') :
    chainDist l r phys ts X ts' X' = sqDist l r phys (ampl ts X) (ampl ts' X') := by
  unfold chainDist sqDist ip
  apply sum_map_congr'
  intro x _
  rw [cells_sum]
  apply sum_map_congr'
  intro ps hps
  apply sum_map_congr'
  intro y hy
  have hl : ps.length = phys.length := by
    have := ((mem_cart _ _).1 hps).length_eq
    simpa using this.symm
  simp only [chain_eq_ampl hr h hl x hy, chain_eq_ampl hr h' hl x hy]

theorem leftSweep_length {qr : Arr K → Arr K × Arr K} {c : Nat} {ts us : List (SpT Q K)} (h : Mps.leftSweep qr c ts = some us) : us.length = ts.length := by
  induction c generalizing ts us with
  | zero => simp [Mps.leftSweep] at h; rw [h]
  | succ c ih =>
    rcases ts with _ | ⟨T, _ | ⟨T', ts⟩⟩
    · simp [Mps.leftSweep] at h
    · simp [Mps.leftSweep] at h
    · simp only [Mps.leftSweep, Option.bind_eq_some_iff, Option.map_eq_some_iff] at h
      obtain ⟨N, _, u, hu, rfl⟩ := h
      have := ih hu
      simp at this ⊢
      exact this

/-- C50: `compress` of a state on the edges `l`, `r`, with both directions of the sweep.  The result lives on the same edges and physical legs, has the
same constant, and no bond is larger than `max_bond_dim`.  Without a limit (`max_bond_dim = -1`, `cutoff = 0`, `max_dw = 0`) every amplitude
is as before and the returned error is zero.

If the dense routines return orthonormal factors, every site tensor has a definite charge and no repeated labels, then the result is in canonical
form (with the centre at the first site for `left=True`, at the last one for `left=False`), and the squared distance `D` between the old and
the new state lies between the returned error and the returned error times the number of inner bonds. -/
theorem C50_compress (c : V →+* K) (qr : Arr K → Arr K × Arr K) (hqr : Factorises qr) (svd : Arr K → Arr K × Arr V × Arr K) (hsvd : IsSvd c svd)
    (o : TruncOpts V) (sqrt : V → V) (big : Arr K → Bool) (hbig : RemovesZeros big) (left : Bool) (l r : BondInfo Q) (X : List (BondInfo Q))
    (phys : List (List (BondInfo Q))) (a : Mps Q K) (hon : OnBonds (l :: X ++ [r]) phys a.tensors)
    (hg : ∀ b ∈ l :: r :: X, GoodBond b) (hp : ∀ ph ∈ phys, ∀ b ∈ ph, GoodBond b) :
    ∃ X' b err, a.compress c qr svd o sqrt big left = some (b, err) ∧ b.const = a.const ∧ OnBonds (l :: X' ++ [r]) phys b.tensors ∧
      (∀ b ∈ X', GoodBond b) ∧ (0 ≤ o.maxBondDim → ∀ b ∈ X', (legBasis b).length ≤ o.maxBondDim.toNat) ∧
      (o.maxDw = 0 → o.cutoff = 0 → o.maxBondDim = -1 → err = 0 ∧
        ∀ x ps, List.Forall₂ (fun (p : List (Q × Nat)) ph => p.length = ph.length) ps phys → ∀ y ∈ legBasis r,
          ampl b.tensors X' x ps y = ampl a.tensors X x ps y) ∧
      ∀ [StarRing K], (∀ v, star (c v) = c v) → OrthonormalColumns qr → SvdUnitary svd → (∀ T ∈ a.tensors, UniqueLabels T) →
        (∀ i < a.tensors.length, HasCharge ((phys.getD i []).length + 2) (a.tensors.getD i [])) →
        (left = true → ∀ i, 0 < i → i < a.tensors.length →
          RightIsometric ((l :: X').getD i []) (phys.getD i [] ++ [(X' ++ [r]).getD i []]) (b.tensors.getD i [])) ∧
        (left = false → ∀ i, i + 1 < a.tensors.length →
          LeftIsometric ((l :: X').getD i [] :: phys.getD i []) (X'.getD i []) (b.tensors.getD i [])) ∧
        (o.eigenValues = false → ∃ D : V, sqDist l r phys (ampl a.tensors X) (ampl b.tensors X') = c D ∧ err ≤ D ∧ D ≤ (X.length : V) * err) := by
  have hlen := hon.lengths
  have hgl : GoodBond l := hg l (by simp)
  have hgr : GoodBond r := hg r (by simp)
  -- everything follows from the two sweeps
  have finish : ∀ (X1 : List (BondInfo Q)) (ts1 : List (SpT Q K)) (c0 : Nat) (S1 : Swept l r X phys a.tensors ts1 X1 qr c0)
      (X' : List (BondInfo Q)) (ts' : List (SpT Q K)) (errs : List V) (S2 : Compressed o l r phys ts1 X1 ts' X' errs),
      (OnBonds (l :: X' ++ [r]) phys ts' ∧ (∀ b ∈ X', GoodBond b) ∧ (0 ≤ o.maxBondDim → ∀ b ∈ X', (legBasis b).length ≤ o.maxBondDim.toNat) ∧
      (o.maxDw = 0 → o.cutoff = 0 → o.maxBondDim = -1 → errs.foldl max 0 = 0 ∧
        ∀ x ps, List.Forall₂ (fun (p : List (Q × Nat)) ph => p.length = ph.length) ps phys → ∀ y ∈ legBasis r,
          ampl ts' X' x ps y = ampl a.tensors X x ps y)) ∧
      ∀ [StarRing K], (o.eigenValues = false → chainDist l r phys ts1 X1 ts' X' = c errs.sum) → 
        (o.eigenValues = false → ∃ D : V, sqDist l r phys (ampl a.tensors X) (ampl ts' X') = c D ∧ errs.foldl max 0 ≤ D ∧ D ≤ (X.length : V) * errs.foldl max 0) := by
    intro X1 ts1 c0 S1 X' ts' errs S2
    refine ⟨⟨S2.on, S2.good, S2.dims, ?_⟩, ?_⟩
    · intro h1 h2 h3
      obtain ⟨he, hch⟩ := S2.noCut ⟨h1, h2, h3⟩
      refine ⟨?_, ?_⟩
      · rcases (foldl_max_spec errs 0).2.2 with h | h
        · exact h
        · exact he _ h
      · intro x ps hps y hy
        rw [← chain_eq_ampl hgr.1 S2.on hps.length_eq x hy, hch x ps y hps, chain_eq_ampl hgr.1 S1.on hps.length_eq x hy, S1.ampl x ps y hps]
    · intro _ hd he
      refine ⟨errs.sum, ?_, foldl_max_le_sum errs (S2.nonneg he), ?_⟩
      · rw [← hd he, chainDist_eq hgr.1 S1.on S2.on]
        unfold sqDist
        apply sum_map_congr'
        intro x _
        apply sum_map_congr'
        intro ps hps
        apply sum_map_congr'
        intro y _
        have hf : List.Forall₂ (fun (p : List (Q × Nat)) ph => p.length = ph.length) ps phys := by
          have := (mem_cart _ _).1 hps
          rw [List.forall₂_map_left_iff] at this
          exact (this.imp fun _ _ h => legIndices_length h).flip
        rw [S1.ampl x ps y hf]
      · have h1 := sum_le_length_mul errs _ (foldl_max_spec errs 0).2.1
        have h2 : errs.length = X.length := by
          have e1 := S2.len
          have e2 := S1.on.lengths
          omega
        rw [← h2]
        exact h1
  cases left with
  | true =>
    obtain ⟨X1, ts1, hs, S1⟩ := sweep_spec qr hqr (a.tensors.length - 1) (by omega) hon hg hp
    have hl1 := S1.on.lengths
    obtain ⟨T, ts, rfl⟩ : ∃ T ts, ts1 = T :: ts := by
      cases ts1 with
      | nil => simp at hl1
      | cons T ts => exact ⟨T, ts, rfl⟩
    have hsw : Mps.leftSweep qr (a.tensors.length - 1) a.tensors = some (T :: ts) := by
      rw [sweep_eq] at hs
      cases hl : Mps.leftSweep qr (a.tensors.length - 1) a.tensors with
      | none => rw [hl] at hs; simp at hs
      | some us =>
        rw [hl] at hs
        have hul := leftSweep_length hl
        have h1 : Mps.rightSweep qr (us.drop (a.tensors.length - 1)) = some (us.drop (a.tensors.length - 1)) := by
          have : (us.drop (a.tensors.length - 1)).length ≤ 1 := by simp; omega
          match us.drop (a.tensors.length - 1), this with
          | [], _ => rfl
          | [_], _ => rfl
        rw [Option.bind_some, h1, Option.map_some, List.take_append_drop] at hs
        exact hs
    obtain ⟨X', N, R, errs, hb, S2, hS⟩ := svdBackward_spec c svd hsvd o sqrt big hbig S1.on
      (fun b hb => by
        simp only [List.mem_cons] at hb
        rcases hb with rfl | rfl | hb
        · exact hgl
        · exact hgr
        · exact S1.good b hb) hp
    obtain ⟨⟨f1, f2, f3, f4⟩, f5⟩ := finish X1 _ _ S1 X' _ errs S2
    refine ⟨X', ⟨N :: R, a.const⟩, errs.foldl max 0, ?_, rfl, f1, f2, f3, f4, ?_⟩
    · simp [Mps.compress, hsw, hb]
    · intro _ hstar hq hu hul hch
      have hl0 : (T :: ts).length = a.tensors.length := by
        simp at hl1 hlen ⊢; omega
      have hlc : LeftChain (l :: X1 ++ [r]) phys (T :: ts) :=
        leftChain_of_index (by simp at hl1 ⊢; omega) (by rw [hl0]; exact S1.left hq hul hch)
      obtain ⟨g1, g2, g3, g4, g5⟩ := hS hstar hu (S1.unique hul) (by rw [hl0]; exact S1.charge hch) hlc
      refine ⟨fun _ => ?_, by simp, f5 g5⟩
      intro i hi0 hi
      obtain ⟨i, rfl⟩ : ∃ j, i = j + 1 := ⟨i - 1, by omega⟩
      have hon2 := S2.on
      cases phys with
      | nil => cases X' <;> exact hon2.elim
      | cons ph phys =>
        cases X' with
        | nil =>
          have e2 := f1.lengths
          simp only [List.length_cons, List.length_nil] at e2 hl1 hlen
          omega
        | cons b X' =>
          have := index_of_rightChain hon2.2 g3 i (by
            have e2 := f1.lengths
            simp only [List.length_cons] at e2 hl1 hlen
            omega)
          simpa using this
  | false =>
    have hne : a.tensors ≠ [] := by
      intro h
      rw [h] at hlen
      simp at hlen
    obtain ⟨T0, ts0, h0⟩ := List.exists_cons_of_ne_nil hne
    rw [h0] at hon
    obtain ⟨X1, ts1, hs, S1⟩ := rightSweep_spec qr hqr hon hg hp
    rw [← h0] at hs S1 hon
    have hl1 := S1.on.lengths
    obtain ⟨T, ts, rfl⟩ : ∃ T ts, ts1 = T :: ts := by
      cases ts1 with
      | nil => simp at hl1
      | cons T ts => exact ⟨T, ts, rfl⟩
    obtain ⟨X', ts', errs, hb, S2, hS⟩ := svdForward_spec c svd hsvd o sqrt big hbig S1.on
      (fun b hb => by
        simp only [List.mem_cons] at hb
        rcases hb with rfl | rfl | hb
        · exact hgl
        · exact hgr
        · exact S1.good b hb) hp
    obtain ⟨⟨f1, f2, f3, f4⟩, f5⟩ := finish X1 _ _ S1 X' _ errs S2
    refine ⟨X', ⟨ts', a.const⟩, errs.foldl max 0, ?_, rfl, f1, f2, f3, f4, ?_⟩
    · simp [Mps.compress, hs, hb]
    · intro _ hstar hq hu hul hch
      have hl0 : (T :: ts).length = a.tensors.length := by
        simp at hl1 hlen ⊢; omega
      have hrc : RightChain (X1 ++ [r]) phys.tail ts := by
        have hon1 := S1.on
        cases phys with
        | nil => cases X1 <;> exact hon1.elim
        | cons ph phys =>
          cases X1 with
          | nil =>
            cases ts with
            | nil => cases phys <;> trivial
            | cons => simp at hl1
          | cons b X1 =>
            refine rightChain_of_index (l := b) (X := X1) ?_
            intro i hi
            have := S1.right hq hul hch (i + 1) (by omega) (by simp at hl0; omega)
            simpa using this
      obtain ⟨g1, g2⟩ := hS hstar hu (S1.unique hul T (by simp)) (by rw [hl0]; exact S1.charge hch) hrc
      exact ⟨by simp, fun _ i hi => g1 i (by simp at hl0; omega), f5 g2⟩

end
end Verif
