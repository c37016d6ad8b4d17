import Verif.Thm.OpSvd
import Verif.Thm.OpCanon

/-!
C85: the outer factors of the singular value decomposition of an operator site tensor are isometries.
-/

set_option linter.unusedSectionVars false

namespace Verif
open Tag
section
variable {Q K V : Type} [DecidableEq Q] [AddCommGroup Q]

theorem tag_left_det (l : BondInfo Q) (legs : List (BondInfo Q)) (r : BondInfo Q) (A : OpT Q K)
    (ho : Conforms (l :: legs ++ [r]) A.odd) (he : Conforms (l :: legs ++ [r]) A.even)
    (u1 : UniqueLabels A.odd) (u0 : UniqueLabels A.even) (c1 : HasCharge (legs.length + 2) A.odd) (c0 : HasCharge (legs.length + 2) A.even) :
    UniqueLabels (A.taggedBlocks.map block) ∧
      ∀ ql q q', ql ++ [q] ∈ (A.taggedBlocks.map block).map Prod.fst → ql ++ [q'] ∈ (A.taggedBlocks.map block).map Prod.fst → q = q' := by
  have hlo : ∀ qs ∈ A.odd.map Prod.fst, qs ≠ [] := by
    intro qs hqs h0
    obtain ⟨b, hb, rfl⟩ := List.mem_map.1 hqs
    have := (ho b hb).lengths.1
    rw [h0] at this
    simp at this
  have hle : ∀ qs ∈ A.even.map Prod.fst, qs ≠ [] := by
    intro qs hqs h0
    obtain ⟨b, hb, rfl⟩ := List.mem_map.1 hqs
    have := (he b hb).lengths.1
    rw [h0] at this
    simp at this
  have hlab : (A.taggedBlocks.map block).map Prod.fst = (A.odd.map Prod.fst).map (labels true) ++ (A.even.map Prod.fst).map (labels false) := by
    simp [OpT.taggedBlocks, block, Function.comp_def]
  have huniq : UniqueLabels (A.taggedBlocks.map block) := by
    unfold UniqueLabels
    rw [hlab]
    refine List.nodup_append.2 ⟨?_, ?_, ?_⟩
    · exact List.Nodup.map_on (fun x _ y hy h => ((labels_eq (hlo y hy)).1 h).2) u1
    · exact List.Nodup.map_on (fun x _ y hy h => ((labels_eq (hle y hy)).1 h).2) u0
    · intro a ha b hb hab
      obtain ⟨x, _, rfl⟩ := List.mem_map.1 ha
      obtain ⟨y, hy, rfl⟩ := List.mem_map.1 hb
      exact absurd ((labels_eq (hle y hy)).1 hab).1 (by simp)
  have hsplit : ∀ (t : Bool) (qs : List Q) ql q, 2 ≤ qs.length → ql ++ [q] = labels t qs → ∃ us u, qs = us ++ [u] ∧ us ≠ [] ∧ ql = labels t us ∧ q = inj u := by
    intro t qs ql q h2 h
    rcases List.eq_nil_or_concat qs with rfl | ⟨us, u, rfl⟩
    · simp at h2
    · cases us with
      | nil => simp at h2
      | cons a us =>
        rw [List.concat_eq_append] at h ⊢
        have h' : ql ++ [q] = labels t (a :: us) ++ [inj u] := by rw [h]; simp [labels]
        have := List.append_inj' h' rfl
        exact ⟨a :: us, u, rfl, by simp, this.1, by simpa using this.2⟩
  have hlen2 : ∀ (T : SpT Q K), Conforms (l :: legs ++ [r]) T → ∀ qs ∈ T.map Prod.fst, 2 ≤ qs.length := by
    intro T hC qs hqs
    obtain ⟨b, hb, rfl⟩ := List.mem_map.1 hqs
    rw [(hC b hb).lengths.1]
    simp
  have hdet : ∀ ql q q', ql ++ [q] ∈ (A.taggedBlocks.map block).map Prod.fst → ql ++ [q'] ∈ (A.taggedBlocks.map block).map Prod.fst → q = q' := by
    intro ql q q' h1 h2
    have key : ∀ q, ql ++ [q] ∈ (A.taggedBlocks.map block).map Prod.fst → ∃ t us u, us ++ [u] ∈ (cond t A.odd A.even).map Prod.fst ∧ us ≠ [] ∧ ql = labels t us ∧ q = inj u := by
      intro q h
      rw [hlab] at h
      rcases List.mem_append.1 h with h | h <;> obtain ⟨qs, hqs, e⟩ := List.mem_map.1 h
      · obtain ⟨us, u, rfl, h1, h2, h3⟩ := hsplit _ _ _ _ (hlen2 _ ho _ hqs) e.symm
        exact ⟨true, us, u, hqs, h1, h2, h3⟩
      · obtain ⟨us, u, rfl, h1, h2, h3⟩ := hsplit _ _ _ _ (hlen2 _ he _ hqs) e.symm
        exact ⟨false, us, u, hqs, h1, h2, h3⟩
    obtain ⟨t, us, u, k1, k2, k3, rfl⟩ := key q h1
    obtain ⟨t', us', u', k1', k2', k3', rfl⟩ := key q' h2
    obtain ⟨rfl, rfl⟩ := (labels_eq k2').1 (k3.symm.trans k3')
    have d1 := hasCharge_det (s := true) (legs := l :: legs) (r := r) ho c1
    have d0 := hasCharge_det (s := true) (legs := l :: legs) (r := r) he c0
    cases t
    · rw [d0 us u u' k1 k1']
    · rw [d1 us u u' k1 k1']
  exact ⟨huniq, hdet⟩

theorem tag_right_det (l k : BondInfo Q) (legs : List (BondInfo Q)) (A : OpT Q K)
    (ho : Conforms (l :: k :: legs) A.odd) (he : Conforms (l :: k :: legs) A.even)
    (u1 : UniqueLabels A.odd) (u0 : UniqueLabels A.even) (c1 : HasCharge (legs.length + 2) A.odd) (c0 : HasCharge (legs.length + 2) A.even) :
    UniqueLabels (A.taggedBlocks.map block2) ∧
      ∀ ql q q', q :: ql ∈ (A.taggedBlocks.map block2).map Prod.fst → q' :: ql ∈ (A.taggedBlocks.map block2).map Prod.fst → q = q' := by
  have hcons : ∀ (T : SpT Q K), Conforms (l :: k :: legs) T → ∀ qs ∈ T.map Prod.fst, ∃ q r, qs = q :: r ∧ r ≠ [] := by
    intro T hC qs hqs
    obtain ⟨b, hb, rfl⟩ := List.mem_map.1 hqs
    have := (hC b hb).lengths.1
    rcases h : b.1 with _ | ⟨q, _ | ⟨q', r⟩⟩
    · rw [h] at this; simp at this
    · rw [h] at this; simp at this
    · exact ⟨q, q' :: r, rfl, by simp⟩
  have hlab : (A.taggedBlocks.map block2).map Prod.fst = (A.odd.map Prod.fst).map (labels2 true) ++ (A.even.map Prod.fst).map (labels2 false) := by
    simp [OpT.taggedBlocks, block2, Function.comp_def]
  have hinj : ∀ (T : SpT Q K), Conforms (l :: k :: legs) T → ∀ t t' x, ∀ y ∈ T.map Prod.fst, labels2 t x = labels2 t' y → t = t' ∧ x = y := by
    intro T hC t t' x y hy h
    obtain ⟨q, r, rfl, hr⟩ := hcons T hC y hy
    exact (labels2_eq hr).1 h
  have huniq : UniqueLabels (A.taggedBlocks.map block2) := by
    unfold UniqueLabels
    rw [hlab]
    refine List.nodup_append.2 ⟨?_, ?_, ?_⟩
    · exact List.Nodup.map_on (fun x _ y hy h => (hinj _ ho _ _ x y hy h).2) u1
    · exact List.Nodup.map_on (fun x _ y hy h => (hinj _ he _ _ x y hy h).2) u0
    · intro a ha b hb hab
      obtain ⟨x, _, rfl⟩ := List.mem_map.1 ha
      obtain ⟨y, hy, rfl⟩ := List.mem_map.1 hb
      exact absurd (hinj _ he _ _ x y hy hab).1 (by simp)
  have hdet : ∀ ql q q', q :: ql ∈ (A.taggedBlocks.map block2).map Prod.fst → q' :: ql ∈ (A.taggedBlocks.map block2).map Prod.fst → q = q' := by
    intro ql q q' h1 h2
    have key : ∀ q, q :: ql ∈ (A.taggedBlocks.map block2).map Prod.fst → ∃ t u us, u :: us ∈ (cond t A.odd A.even).map Prod.fst ∧ us ≠ [] ∧ ql = labels t us ∧ q = inj u := by
      intro q h
      rw [hlab] at h
      rcases List.mem_append.1 h with h | h <;> obtain ⟨qs, hqs, e⟩ := List.mem_map.1 h
      · obtain ⟨u, us, rfl, hr⟩ := hcons _ ho _ hqs
        obtain ⟨e1, e2⟩ := List.cons.inj e
        exact ⟨true, u, us, hqs, hr, e2.symm, e1.symm⟩
      · obtain ⟨u, us, rfl, hr⟩ := hcons _ he _ hqs
        obtain ⟨e1, e2⟩ := List.cons.inj e
        exact ⟨false, u, us, hqs, hr, e2.symm, e1.symm⟩
    obtain ⟨t, u, us, k1, k2, k3, rfl⟩ := key q h1
    obtain ⟨t', u', us', k1', k2', k3', rfl⟩ := key q' h2
    obtain ⟨rfl, rfl⟩ := (labels_eq k2').1 (k3.symm.trans k3')
    have d1 := hasCharge_det (s := false) (legs := k :: legs) (r := l) ho c1
    have d0 := hasCharge_det (s := false) (legs := k :: legs) (r := l) he c0
    cases t
    · rw [d0 us u u' k1 k1']
    · rw [d1 us u u' k1 k1']
  exact ⟨huniq, hdet⟩

theorem injz_inj {z z' : Q × Nat} : (injz z = injz z') ↔ z = z' := by
  constructor
  · intro h
    have h1 := congrArg (fun p => p.1.2) h
    have h2 := congrArg Prod.snd h
    exact Prod.ext h1 h2
  · rintro rfl; rfl
end

section
variable {Q K V : Type} [DecidableEq Q] [AddCommGroup Q] [CommRing K] [StarRing K] [CommRing V] [LinearOrder V] [IsStrictOrderedRing V]

/-- **C85**, isometries: the two parts of the left factor of `left_svd` together. -/
theorem C85_left_isometric (c : V → K) (svd : Arr K → Arr K × Arr V × Arr K) (hsvd : IsSvd c svd) (hun : SvdUnitary svd) (l : BondInfo Q) (legs : List (BondInfo Q))
    (r : BondInfo Q) (A : OpT Q K)
    (ho : Conforms (l :: legs ++ [r]) A.odd) (he : Conforms (l :: legs ++ [r]) A.even) (hg : ∀ b ∈ l :: legs ++ [r], GoodBond b)
    (u1 : UniqueLabels A.odd) (u0 : UniqueLabels A.even) (c1 : HasCharge (legs.length + 2) A.odd) (c0 : HasCharge (legs.length + 2) A.even)
    (u : OpT Q K) (s : SpT Q V) (vh : SpT Q K) (hf : OpT.leftSvd svd A = (u, s, vh)) :
    ∀ z ∈ legBasis (valueBond s), ∀ z' ∈ legBasis (valueBond s),
      ((legIndices (l :: legs)).map fun x => star (entry u.odd (x ++ [z])) * entry u.odd (x ++ [z'])).sum +
      ((legIndices (l :: legs)).map fun x => star (entry u.even (x ++ [z])) * entry u.even (x ++ [z'])).sum = if z = z' then 1 else 0 := by
  have hmem : ∀ x ∈ A.taggedBlocks, IsCombination (l :: legs ++ [r]) x.2.1 x.2.2.shape := by
    intro x hx
    rcases List.mem_append.1 hx with hx | hx <;> obtain ⟨b, hb, rfl⟩ := List.mem_map.1 hx
    · exact ho b hb
    · exact he b hb
  have hlen : ∀ x ∈ A.taggedBlocks, 2 ≤ x.2.1.length := by
    intro x hx
    rw [(hmem x hx).lengths.1]
    simp
  have hT : Conforms ((both l :: legs.map bond) ++ [bond r]) (A.taggedBlocks.map block) := by
    intro b hb
    obtain ⟨x, hx, rfl⟩ := List.mem_map.1 hb
    have := (isCombination_tag (t := x.1)).2 (show IsCombination (l :: (legs ++ [r])) x.2.1 x.2.2.shape from hmem x hx)
    rw [List.map_append] at this
    exact this
  have hgl : ∀ b ∈ both l :: legs.map bond, GoodBond b := by
    intro b hb
    rcases List.mem_cons.1 hb with rfl | hb
    · exact good_both (hg l (by simp))
    · obtain ⟨c, hc, rfl⟩ := List.mem_map.1 hb
      exact good_bond.2 (hg c (by simp [hc]))
  have hgr : GoodBond (bond r) := good_bond.2 (hg r (by simp))
  obtain ⟨hu', hdet⟩ := tag_left_det l legs r A ho he u1 u0 c1 c0
  have hA := assembled_leftSvd c svd hsvd hT hgl hgr
  have hvb : valueBond (SpT.leftSvd svd (A.taggedBlocks.map block)).2.1 =
      newBond true (A.taggedBlocks.map block) (fun g => (svd (stackLeft (g.2.map Prod.snd))).2.1.shape.getD 0 0) := valueBond_groups _
  have hiso := hA.isometry (fun b hb => (hgl b hb).1) hu' hdet (by
    intro g hm t ht t' ht'
    obtain ⟨k, n, h0, h1, h2, h3, h4, h5, h6⟩ := leftSvd_shapes c svd hsvd hT hgl hgr hm
    rw [h1] at ht ht'
    simp only [List.getD_cons_zero, h6] at ht ht'
    exact hun.columns _ _ _ h3 h4 h5 t ht t' ht')
  rw [← hvb, svd_tag svd A hlen, hf] at hiso
  dsimp only at hiso
  rw [valueBond_tag] at hiso
  have hu : u = ⟨((OpT.svdRows svd A.rowGroups).filter fun x => x.1 = true).map Prod.snd, ((OpT.svdRows svd A.rowGroups).filter fun x => x.1 = false).map Prod.snd⟩ :=
    (congrArg Prod.fst hf).symm
  subst hu
  intro z hz z' hz'
  have h := hiso (injz z) (by rw [legBasis_bond]; exact List.mem_map.2 ⟨z, hz, rfl⟩) (injz z') (by rw [legBasis_bond]; exact List.mem_map.2 ⟨z', hz', rfl⟩)
  rw [legIndices_tag, List.map_append, List.sum_append, List.map_map, List.map_map] at h
  simp only [injz_inj] at h
  rw [← h]
  have hx : ∀ t, ((legIndices (l :: legs)).map fun x => star (entry (((OpT.svdRows svd A.rowGroups).filter fun s => s.1 = t).map Prod.snd) (x ++ [z])) *
      entry (((OpT.svdRows svd A.rowGroups).filter fun s => s.1 = t).map Prod.snd) (x ++ [z'])) =
      (legIndices (l :: legs)).map ((fun x => star (entry ((OpT.svdRows svd A.rowGroups).map block) (x ++ [injz z])) *
        entry ((OpT.svdRows svd A.rowGroups).map block) (x ++ [injz z'])) ∘ index t) := by
    intro t
    refine List.map_congr_left fun x hx => ?_
    have hne : x ≠ [] := by
      rintro rfl
      have := ((mem_cart _ _).1 hx).length_eq
      simp at this
    show _ = star (entry _ (index t x ++ [injz z])) * entry _ (index t x ++ [injz z'])
    rw [← index_append t hne, ← index_append t hne, entry_tag _ _ _ (by simp), entry_tag _ _ _ (by simp)]
  rw [hx true, hx false]
  rfl

/-- **C85**, isometries: the two parts of the right factor of `right_svd` together. -/
theorem C85_right_isometric (c : V → K) (svd : Arr K → Arr K × Arr V × Arr K) (hsvd : IsSvd c svd) (hun : SvdUnitary svd) (l k : BondInfo Q) (legs : List (BondInfo Q))
    (A : OpT Q K)
    (ho : Conforms (l :: k :: legs) A.odd) (he : Conforms (l :: k :: legs) A.even) (hg : ∀ b ∈ l :: k :: legs, GoodBond b)
    (u1 : UniqueLabels A.odd) (u0 : UniqueLabels A.even) (c1 : HasCharge (legs.length + 2) A.odd) (c0 : HasCharge (legs.length + 2) A.even)
    (u : SpT Q K) (s : SpT Q V) (vh : OpT Q K) (hf : OpT.rightSvd svd A = (u, s, vh)) :
    ∀ z ∈ legBasis (valueBond s), ∀ z' ∈ legBasis (valueBond s),
      ((legIndices (k :: legs)).map fun x => star (entry vh.odd (z :: x)) * entry vh.odd (z' :: x)).sum +
      ((legIndices (k :: legs)).map fun x => star (entry vh.even (z :: x)) * entry vh.even (z' :: x)).sum = if z = z' then 1 else 0 := by
  have hmem : ∀ x ∈ A.taggedBlocks, IsCombination (l :: k :: legs) x.2.1 x.2.2.shape := by
    intro x hx
    rcases List.mem_append.1 hx with hx | hx <;> obtain ⟨b, hb, rfl⟩ := List.mem_map.1 hx
    · exact ho b hb
    · exact he b hb
  have hlen : ∀ x ∈ A.taggedBlocks, 2 ≤ x.2.1.length := by
    intro x hx
    rw [(hmem x hx).lengths.1]
    simp
  have hT : Conforms (bond l :: (both k :: legs.map bond)) (A.taggedBlocks.map block2) := by
    intro b hb
    obtain ⟨x, hx, rfl⟩ := List.mem_map.1 hb
    exact (isCombination_tag2 (t := x.1)).2 (hmem x hx)
  have hgl : ∀ b ∈ both k :: legs.map bond, GoodBond b := by
    intro b hb
    rcases List.mem_cons.1 hb with rfl | hb
    · exact good_both (hg k (by simp))
    · obtain ⟨c, hc, rfl⟩ := List.mem_map.1 hb
      exact good_bond.2 (hg c (by simp [hc]))
  have hgr : GoodBond (bond l) := good_bond.2 (hg l (by simp))
  obtain ⟨hu', hdet⟩ := tag_right_det l k legs A ho he u1 u0 c1 c0
  have hA := assembled_rightSvd c svd hsvd hT hgl hgr
  have hvb : valueBond (SpT.rightSvd svd (A.taggedBlocks.map block2)).2.1 =
      newBond false (A.taggedBlocks.map block2) (fun g => (svd (stackRight (g.2.map Prod.snd))).2.1.shape.getD 0 0) := valueBond_groups _
  have hiso := hA.isometry (fun b hb => (hgl b hb).1) hu' hdet (by
    intro g hm t ht t' ht'
    obtain ⟨k, n, h0, h1, h2, h3, h4, h5, h6⟩ := rightSvd_shapes c svd hsvd hT hgl hgr hm
    rw [h1] at ht ht'
    simp only [List.getD_cons_zero, h6] at ht ht'
    exact hun.rows _ _ _ h3 h5 h4 t ht t' ht')
  rw [← hvb, svd_tag2 svd A hlen, hf] at hiso
  dsimp only at hiso
  rw [valueBond_tag] at hiso
  have hu : vh = ⟨((OpT.svdCols svd A.colGroups).filter fun x => x.1 = true).map Prod.snd, ((OpT.svdCols svd A.colGroups).filter fun x => x.1 = false).map Prod.snd⟩ :=
    (congrArg (fun p => p.2.2) hf).symm
  subst hu
  intro z hz z' hz'
  have h := hiso (injz z) (by rw [legBasis_bond]; exact List.mem_map.2 ⟨z, hz, rfl⟩) (injz z') (by rw [legBasis_bond]; exact List.mem_map.2 ⟨z', hz', rfl⟩)
  rw [legIndices_tag, List.map_append, List.sum_append, List.map_map, List.map_map] at h
  simp only [injz_inj] at h
  rw [← h]
  have hx : ∀ t, ((legIndices (k :: legs)).map fun x => star (entry (((OpT.svdCols svd A.colGroups).filter fun s => s.1 = t).map Prod.snd) (z :: x)) *
      entry (((OpT.svdCols svd A.colGroups).filter fun s => s.1 = t).map Prod.snd) (z' :: x)) =
      (legIndices (k :: legs)).map ((fun x => star (entry ((OpT.svdCols svd A.colGroups).map block2) (injz z :: x)) *
        entry ((OpT.svdCols svd A.colGroups).map block2) (injz z' :: x)) ∘ index t) := by
    intro t
    refine List.map_congr_left fun x hx => ?_
    have hne : x ≠ [] := by
      rintro rfl
      have := ((mem_cart _ _).1 hx).length_eq
      simp at this
    show _ = star (entry _ (injz z :: index t x)) * entry _ (injz z' :: index t x)
    rw [entry_tag2 _ _ _ _ hne, entry_tag2 _ _ _ _ hne]
  rw [hx true, hx false]
  rfl

/-- **C85**, isometries: the right factor of `left_svd`. -/
theorem C85_left_matrix (c : V → K) (svd : Arr K → Arr K × Arr V × Arr K) (hsvd : IsSvd c svd) (hun : SvdUnitary svd) (l : BondInfo Q) (legs : List (BondInfo Q))
    (r : BondInfo Q) (A : OpT Q K)
    (ho : Conforms (l :: legs ++ [r]) A.odd) (he : Conforms (l :: legs ++ [r]) A.even) (hg : ∀ b ∈ l :: legs ++ [r], GoodBond b)
    (u : OpT Q K) (s : SpT Q V) (vh : SpT Q K) (hf : OpT.leftSvd svd A = (u, s, vh)) : RightIsometric (valueBond s) [r] vh := by
  have hmem : ∀ x ∈ A.taggedBlocks, IsCombination (l :: legs ++ [r]) x.2.1 x.2.2.shape := by
    intro x hx
    rcases List.mem_append.1 hx with hx | hx <;> obtain ⟨b, hb, rfl⟩ := List.mem_map.1 hx
    · exact ho b hb
    · exact he b hb
  have hlen : ∀ x ∈ A.taggedBlocks, 2 ≤ x.2.1.length := by
    intro x hx
    rw [(hmem x hx).lengths.1]
    simp
  have hT : Conforms ((both l :: legs.map bond) ++ [bond r]) (A.taggedBlocks.map block) := by
    intro b hb
    obtain ⟨x, hx, rfl⟩ := List.mem_map.1 hb
    have := (isCombination_tag (t := x.1)).2 (show IsCombination (l :: (legs ++ [r])) x.2.1 x.2.2.shape from hmem x hx)
    rw [List.map_append] at this
    exact this
  have hgl : ∀ b ∈ both l :: legs.map bond, GoodBond b := by
    intro b hb
    rcases List.mem_cons.1 hb with rfl | hb
    · exact good_both (hg l (by simp))
    · obtain ⟨c, hc, rfl⟩ := List.mem_map.1 hb
      exact good_bond.2 (hg c (by simp [hc]))
  have hgr : GoodBond (bond r) := good_bond.2 (hg r (by simp))
  have hsh := fun {g} hm => leftSvd_shapes c svd hsvd hT hgl hgr (g := g) hm
  have hvb : valueBond (SpT.leftSvd svd (A.taggedBlocks.map block)).2.1 =
      newBond true (A.taggedBlocks.map block) (fun g => (svd (stackLeft (g.2.map Prod.snd))).2.1.shape.getD 0 0) := valueBond_groups _
  have hiso : RightIsometric (valueBond (SpT.leftSvd svd (A.taggedBlocks.map block)).2.1) [bond r] (SpT.leftSvd svd (A.taggedBlocks.map block)).2.2 := by
    rw [hvb]
    intro z hz z' hz'
    rw [legIndices_one_sum]
    refine blockDiag_rows (wf_groupBy (keyOf true) _) (fun g => (svd (stackLeft (g.2.map Prod.snd))).2.2) _ hgr.1 ?_ ?_ hz hz'
    · intro g hm
      obtain ⟨k, n, h0, h1, h2, -⟩ := hsh hm
      rw [h1, h2]; simp [Counter.count, h0]
    · intro g hm t ht t' ht'
      obtain ⟨k, n, h0, h1, h2, h3, h4, h5, h6⟩ := hsh hm
      rw [h1] at ht ht'
      simp only [List.getD_cons_zero, h6] at ht ht'
      have : Counter.count (bond r) g.1 = n := by simp [Counter.count, h0]
      rw [this]
      exact hun.rows _ _ _ h3 h4 h5 t ht t' ht'
  rw [svd_tag svd A hlen, hf] at hiso
  dsimp only at hiso
  rw [valueBond_tag] at hiso
  intro z hz z' hz'
  have h := hiso (injz z) (by rw [legBasis_bond]; exact List.mem_map.2 ⟨z, hz, rfl⟩) (injz z') (by rw [legBasis_bond]; exact List.mem_map.2 ⟨z', hz', rfl⟩)
  rw [show [bond r] = [r].map bond from rfl, legIndices_bond, List.map_map] at h
  simp only [injz_inj] at h
  rw [← h]
  refine congrArg List.sum (List.map_congr_left fun x _ => ?_)
  have e1 := entry_inj vh (z :: x)
  have e2 := entry_inj vh (z' :: x)
  rw [← e1, ← e2]
  rfl

/-- **C85**, isometries: the left factor of `right_svd`. -/
theorem C85_right_matrix (c : V → K) (svd : Arr K → Arr K × Arr V × Arr K) (hsvd : IsSvd c svd) (hun : SvdUnitary svd) (l k : BondInfo Q) (legs : List (BondInfo Q))
    (A : OpT Q K)
    (ho : Conforms (l :: k :: legs) A.odd) (he : Conforms (l :: k :: legs) A.even) (hg : ∀ b ∈ l :: k :: legs, GoodBond b)
    (u : SpT Q K) (s : SpT Q V) (vh : OpT Q K) (hf : OpT.rightSvd svd A = (u, s, vh)) : LeftIsometric [l] (valueBond s) u := by
  have hmem : ∀ x ∈ A.taggedBlocks, IsCombination (l :: k :: legs) x.2.1 x.2.2.shape := by
    intro x hx
    rcases List.mem_append.1 hx with hx | hx <;> obtain ⟨b, hb, rfl⟩ := List.mem_map.1 hx
    · exact ho b hb
    · exact he b hb
  have hlen : ∀ x ∈ A.taggedBlocks, 2 ≤ x.2.1.length := by
    intro x hx
    rw [(hmem x hx).lengths.1]
    simp
  have hT : Conforms (bond l :: (both k :: legs.map bond)) (A.taggedBlocks.map block2) := by
    intro b hb
    obtain ⟨x, hx, rfl⟩ := List.mem_map.1 hb
    exact (isCombination_tag2 (t := x.1)).2 (hmem x hx)
  have hgl : ∀ b ∈ both k :: legs.map bond, GoodBond b := by
    intro b hb
    rcases List.mem_cons.1 hb with rfl | hb
    · exact good_both (hg k (by simp))
    · obtain ⟨c, hc, rfl⟩ := List.mem_map.1 hb
      exact good_bond.2 (hg c (by simp [hc]))
  have hgr : GoodBond (bond l) := good_bond.2 (hg l (by simp))
  have hsh := fun {g} hm => rightSvd_shapes c svd hsvd hT hgl hgr (g := g) hm
  have hvb : valueBond (SpT.rightSvd svd (A.taggedBlocks.map block2)).2.1 =
      newBond false (A.taggedBlocks.map block2) (fun g => (svd (stackRight (g.2.map Prod.snd))).2.1.shape.getD 0 0) := valueBond_groups _
  have hiso : LeftIsometric [bond l] (valueBond (SpT.rightSvd svd (A.taggedBlocks.map block2)).2.1) (SpT.rightSvd svd (A.taggedBlocks.map block2)).1 := by
    rw [hvb]
    intro z hz z' hz'
    rw [legIndices_one_sum]
    refine blockDiag_columns (wf_groupBy (keyOf false) _) (fun g => (svd (stackRight (g.2.map Prod.snd))).1) _ hgr.1 ?_ ?_ hz hz'
    · intro g hm
      obtain ⟨k, n, h0, h1, h2, -⟩ := hsh hm
      rw [h1, h2]; simp [Counter.count, h0]
    · intro g hm t ht t' ht'
      obtain ⟨k, n, h0, h1, h2, h3, h4, h5, h6⟩ := hsh hm
      rw [h1] at ht ht'
      simp only [List.getD_cons_zero, h6] at ht ht'
      have : Counter.count (bond l) g.1 = n := by simp [Counter.count, h0]
      rw [this]
      exact hun.columns _ _ _ h3 h5 h4 t ht t' ht'
  rw [svd_tag2 svd A hlen, hf] at hiso
  dsimp only at hiso
  rw [valueBond_tag] at hiso
  intro z hz z' hz'
  have h := hiso (injz z) (by rw [legBasis_bond]; exact List.mem_map.2 ⟨z, hz, rfl⟩) (injz z') (by rw [legBasis_bond]; exact List.mem_map.2 ⟨z', hz', rfl⟩)
  rw [show [bond l] = [l].map bond from rfl, legIndices_bond, List.map_map] at h
  simp only [injz_inj] at h
  rw [← h]
  refine congrArg List.sum (List.map_congr_left fun x _ => ?_)
  have e1 := entry_inj u (x ++ [z])
  have e2 := entry_inj u (x ++ [z'])
  rw [List.map_append] at e1 e2
  rw [← e1, ← e2]
  rfl

end

/-- The hypotheses hold together for an odd and an even block in the same group. -/
example : ∃ (svd : Arr ℝ → Arr ℝ × Arr ℝ × Arr ℝ) (A : OpT Int ℝ), IsSvd (algebraMap ℝ ℝ) svd ∧ SvdUnitary svd ∧
    Conforms ([(1, 2)] :: [[(0, 1)]] ++ [[(1, 2)]]) A.odd ∧ Conforms ([(1, 2)] :: [[(0, 1)]] ++ [[(1, 2)]]) A.even ∧
    (∀ b ∈ [(1, 2)] :: [[(0, 1)]] ++ [[((1 : Int), 2)]], GoodBond b) ∧
    UniqueLabels A.odd ∧ UniqueLabels A.even ∧ HasCharge 3 A.odd ∧ HasCharge 3 A.even ∧
    (A.rowGroups.map fun g => g.2.length) = [2] ∧ (A.colGroups.map fun g => g.2.length) = [2] := by
  obtain ⟨svd, h1, h2⟩ := C50_contract ℝ
  refine ⟨svd, ⟨[([1, 0, 1], ⟨[2, 1, 2], fun _ => 1⟩)], [([1, 0, 1], ⟨[2, 1, 2], fun _ => 2⟩)]⟩, h1, h2, ?_, ?_, ?_, ?_, ?_, ?_, ?_, rfl, rfl⟩
  · intro b hb
    obtain rfl := List.mem_singleton.1 hb
    exact .cons rfl (.cons rfl (.cons rfl .nil))
  · intro b hb
    obtain rfl := List.mem_singleton.1 hb
    exact .cons rfl (.cons rfl (.cons rfl .nil))
  · unfold GoodBond Dict.WF
    decide
  · simp [UniqueLabels]
  · simp [UniqueLabels]
  · refine ⟨[true, true, false], 0, rfl, ?_⟩
    intro b hb
    obtain rfl := List.mem_singleton.1 hb
    decide
  · refine ⟨[true, true, false], 0, rfl, ?_⟩
    intro b hb
    obtain rfl := List.mem_singleton.1 hb
    decide

end Verif
