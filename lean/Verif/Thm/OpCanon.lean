import Verif.Proof.OpCanonRight
import Verif.Thm.CanonQR

/-!
C84: the QR factorisation of an operator site tensor.
-/

set_option linter.unusedSectionVars false

namespace Verif
open Tag
section
variable {Q K : Type} [DecidableEq Q] [AddCommGroup Q] [CommSemiring K]

/-- One step of C21 for a tensor whose last label is fixed by the other ones. -/
theorem left_isometric_det [StarRing K] (qr : Arr K → Arr K × Arr K) (hqr : Factorises qr) (ho : OrthonormalColumns qr) {legs : List (BondInfo Q)} {r : BondInfo Q} {T : SpT Q K}
    (hT : Conforms (legs ++ [r]) T) (hlegs : ∀ b ∈ legs, GoodBond b) (hr : GoodBond r) (hu : UniqueLabels T)
    (hdet : ∀ ql q q', ql ++ [q] ∈ T.map Prod.fst → ql ++ [q'] ∈ T.map Prod.fst → q = q') :
    LeftIsometric legs (newBond true T fun g => (qr (stackLeft (g.2.map Prod.snd))).2.shape.getD 0 0) (SpT.leftCanonicalize qr T).1 := by
  have hA := assembled_left qr hqr hT hlegs hr
  refine hA.isometry (fun b hb => (hlegs b hb).1) hu hdet ?_
  intro g hm t ht t' ht'
  obtain ⟨n, hn, hin, hok⟩ := hA.group hm
  obtain ⟨hs, hne⟩ := group_shapes hA.conf hlegs hm hn
  have hnp : 0 < n := hr.2 _ (Dict.mem_of_get? hn)
  have hsh := stackLeft_shape hs hne
  have hp := height_pos hne hs.pos
  have h2 := hqr.right _ _ _ hsh hp hnp
  rw [h2] at ht ht'
  exact ho _ _ _ hsh hp hnp t ht t' ht'

/-- **C84.** `left_canonicalize` of an operator site tensor: both parts are their first factor times the one second factor, on a new bond that is not larger than
the old one; and the two parts of the first factor together are an isometry. -/
theorem C84_left (qr : Arr K → Arr K × Arr K) (hqr : Factorises qr) (l : BondInfo Q) (legs : List (BondInfo Q)) (r : BondInfo Q) (A : OpT Q K)
    (ho : Conforms (l :: legs ++ [r]) A.odd) (he : Conforms (l :: legs ++ [r]) A.even) (hg : ∀ b ∈ l :: legs ++ [r], GoodBond b) :
    ∃ m, GoodBond m ∧ (∀ q, Counter.count m q ≤ Counter.count r q) ∧
      Conforms (l :: legs ++ [m]) (OpT.leftCanonicalize qr A).1.odd ∧ Conforms (l :: legs ++ [m]) (OpT.leftCanonicalize qr A).1.even ∧
      Conforms [m, r] (OpT.leftCanonicalize qr A).2 ∧
      (∀ x y, x.length = legs.length + 1 →
        ((legBasis m).map fun z => entry (OpT.leftCanonicalize qr A).1.odd (x ++ [z]) * entry (OpT.leftCanonicalize qr A).2 [z, y]).sum = entry A.odd (x ++ [y]) ∧
        ((legBasis m).map fun z => entry (OpT.leftCanonicalize qr A).1.even (x ++ [z]) * entry (OpT.leftCanonicalize qr A).2 [z, y]).sum = entry A.even (x ++ [y])) ∧
      ∀ [StarRing K], OrthonormalColumns qr → UniqueLabels A.odd → UniqueLabels A.even → HasCharge (legs.length + 2) A.odd → HasCharge (legs.length + 2) A.even →
        ∀ z ∈ legBasis m, ∀ z' ∈ legBasis m,
          ((legIndices (l :: legs)).map fun x => star (entry (OpT.leftCanonicalize qr A).1.odd (x ++ [z])) * entry (OpT.leftCanonicalize qr A).1.odd (x ++ [z'])).sum +
          ((legIndices (l :: legs)).map fun x => star (entry (OpT.leftCanonicalize qr A).1.even (x ++ [z])) * entry (OpT.leftCanonicalize qr A).1.even (x ++ [z'])).sum =
            if z = z' then 1 else 0 := by
  have hmem : ∀ x ∈ A.taggedBlocks, IsCombination (l :: legs ++ [r]) x.2.1 x.2.2.shape := by
    intro x hx
    rcases List.mem_append.1 hx with hx | hx <;> obtain ⟨b, hb, rfl⟩ := List.mem_map.1 hx
    · exact ho b hb
    · exact he b hb
  have hlen : ∀ x ∈ A.taggedBlocks, 2 ≤ x.2.1.length := by
    intro x hx
    rw [(hmem x hx).lengths.1]
    simp
  have hcan := canon_tag qr A hlen
  have hT : Conforms ((both l :: legs.map bond) ++ [bond r]) (A.taggedBlocks.map block) := by
    intro b hb
    obtain ⟨x, hx, rfl⟩ := List.mem_map.1 hb
    have := (isCombination_tag (t := x.1)).2 (show IsCombination (l :: (legs ++ [r])) x.2.1 x.2.2.shape from hmem x hx)
    rw [List.map_append] at this
    exact this
  have hgl : ∀ b ∈ both l :: legs.map bond, GoodBond b := by
    intro b hb
    rcases List.mem_cons.1 hb with rfl | hb
    · exact good_both (hg l (by simp))
    · obtain ⟨c, hc, rfl⟩ := List.mem_map.1 hb
      exact good_bond.2 (hg c (by simp [hc]))
  have hgr : GoodBond (bond r) := good_bond.2 (hg r (by simp))
  have hA := assembled_left qr hqr hT hgl hgr
  have hiso := fun (_ : StarRing K) (h1 : OrthonormalColumns qr) h2 h3 => left_isometric_det qr hqr h1 hT hgl hgr h2 h3
  have f1 := hA.good
  have f2 := hA.le
  have f3 := hA.conf_q
  have f4 := hA.conf_r
  have f5 := fun x y hx => hA.product x hx y
  clear hA
  generalize newBond true (A.taggedBlocks.map block) (fun g => (qr (stackLeft (g.2.map Prod.snd))).2.shape.getD 0 0) = m' at f1 f2 f3 f4 f5 hiso
  rw [hcan] at f3 f4 f5 hiso
  have hm' : bond (m'.map fun p => (p.1.2, p.2)) = m' := by
    unfold bond
    rw [List.map_map]
    conv_rhs => rw [← List.map_id m']
    refine List.map_congr_left fun p hp => ?_
    have h1 := f2 p.1
    rw [Counter.count_of_mem f1.1 hp] at h1
    have h2 := f1.2 p hp
    have h3 : Dict.get? (bond r) p.1 = some (Counter.count (bond r) p.1) := get_of_count (by omega)
    obtain ⟨c, _, e⟩ := List.mem_map.1 (Dict.mem_of_get? h3)
    have e1 : inj c.1 = p.1 := congrArg Prod.fst e
    have e2 : p.1.1 = 0 := by rw [← e1]; rfl
    refine Prod.ext (Prod.ext e2.symm rfl) rfl
  generalize (m'.map fun p => (p.1.2, p.2)) = m at hm'
  subst hm'
  have hq1 : (OpT.leftCanonicalize qr A).1.odd = ((OpT.rowFactors qr A.rowGroups).filter fun x => x.1 = true).map Prod.snd := rfl
  have hq0 : (OpT.leftCanonicalize qr A).1.even = ((OpT.rowFactors qr A.rowGroups).filter fun x => x.1 = false).map Prod.snd := rfl
  have hA1 : (A.taggedBlocks.filter fun x => x.1 = true).map Prod.snd = A.odd := by
    simp [OpT.taggedBlocks, List.filter_map, Function.comp_def]
  have hA0 : (A.taggedBlocks.filter fun x => x.1 = false).map Prod.snd = A.even := by
    simp [OpT.taggedBlocks, List.filter_map, Function.comp_def]
  have hconf : ∀ t, Conforms (l :: legs ++ [m]) (((OpT.rowFactors qr A.rowGroups).filter fun x => x.1 = t).map Prod.snd) := by
    intro t b hb
    obtain ⟨x, hx, rfl⟩ := List.mem_map.1 hb
    have h1 := f3 (block x) (List.mem_map.2 ⟨x, (List.mem_filter.1 hx).1, rfl⟩)
    refine (isCombination_tag (t := x.1) (legs := legs ++ [m])).1 ?_
    rw [List.map_append]
    exact h1
  have hprod : ∀ t (x : List (Q × Nat)) y, x.length = legs.length + 1 →
      ((legBasis m).map fun z => entry (((OpT.rowFactors qr A.rowGroups).filter fun s => s.1 = t).map Prod.snd) (x ++ [z]) * entry (OpT.leftCanonicalize qr A).2 [z, y]).sum =
        entry ((A.taggedBlocks.filter fun s => s.1 = t).map Prod.snd) (x ++ [y]) := by
    intro t x y hx
    have hne : x ≠ [] := by rintro rfl; simp at hx
    have hxl : (index t x).length = (both l :: legs.map bond).length := by
      have := congrArg List.length (index_snd t x)
      simpa [hx] using this
    have h := f5 (index t x) (injz y) hxl
    simp only [join, if_true] at h
    rw [legBasis_bond, List.map_map, ← index_append t hne, entry_tag _ _ _ (by simp)] at h
    rw [← h]
    refine congrArg List.sum (List.map_congr_left fun z _ => ?_)
    show _ = entry _ (index t x ++ [injz z]) * entry _ [injz z, injz y]
    rw [← index_append t hne, entry_tag _ _ _ (by simp)]
    congr 1
    exact (entry_inj _ [z, y]).symm
  refine ⟨m, good_bond.1 f1, fun q => ?_, hconf true, hconf false, ?_, fun x y hx => ⟨?_, ?_⟩, ?_⟩
  · have := f2 (inj q)
    unfold Counter.count at this ⊢
    rw [get_bond, get_bond] at this
    exact this
  · intro b hb
    have := f4 _ (List.mem_map.2 ⟨b, hb, rfl⟩)
    exact (isCombination_bond (legs := [m, r])).1 this
  · have := hprod true x y hx
    rw [hA1] at this
    exact this
  · have := hprod false x y hx
    rw [hA0] at this
    exact this
  · intro _ hq u1 u0 c1 c0 z hz z' hz'
    have hlo : ∀ qs ∈ A.odd.map Prod.fst, qs ≠ [] := by
      intro qs hqs h0
      obtain ⟨b, hb, rfl⟩ := List.mem_map.1 hqs
      have := (ho b hb).lengths.1
      rw [h0] at this
      simp at this
    have hle : ∀ qs ∈ A.even.map Prod.fst, qs ≠ [] := by
      intro qs hqs h0
      obtain ⟨b, hb, rfl⟩ := List.mem_map.1 hqs
      have := (he b hb).lengths.1
      rw [h0] at this
      simp at this
    have hlab : (A.taggedBlocks.map block).map Prod.fst = (A.odd.map Prod.fst).map (labels true) ++ (A.even.map Prod.fst).map (labels false) := by
      simp [OpT.taggedBlocks, block, Function.comp_def]
    have huniq : UniqueLabels (A.taggedBlocks.map block) := by
      unfold UniqueLabels
      rw [hlab]
      refine List.nodup_append.2 ⟨?_, ?_, ?_⟩
      · exact List.Nodup.map_on (fun x _ y hy h => ((labels_eq (hlo y hy)).1 h).2) u1
      · exact List.Nodup.map_on (fun x _ y hy h => ((labels_eq (hle y hy)).1 h).2) u0
      · intro a ha b hb hab
        obtain ⟨x, _, rfl⟩ := List.mem_map.1 ha
        obtain ⟨y, hy, rfl⟩ := List.mem_map.1 hb
        exact absurd ((labels_eq (hle y hy)).1 hab).1 (by simp)
    have hsplit : ∀ (t : Bool) (qs : List Q) ql q, 2 ≤ qs.length → ql ++ [q] = labels t qs → ∃ us u, qs = us ++ [u] ∧ us ≠ [] ∧ ql = labels t us ∧ q = inj u := by
      intro t qs ql q h2 h
      rcases List.eq_nil_or_concat qs with rfl | ⟨us, u, rfl⟩
      · simp at h2
      · cases us with
        | nil => simp at h2
        | cons a us =>
          rw [List.concat_eq_append] at h ⊢
          have h' : ql ++ [q] = labels t (a :: us) ++ [inj u] := by rw [h]; simp [labels]
          have := List.append_inj' h' rfl
          exact ⟨a :: us, u, rfl, by simp, this.1, by simpa using this.2⟩
    have hlen2 : ∀ (T : SpT Q K), Conforms (l :: legs ++ [r]) T → ∀ qs ∈ T.map Prod.fst, 2 ≤ qs.length := by
      intro T hC qs hqs
      obtain ⟨b, hb, rfl⟩ := List.mem_map.1 hqs
      rw [(hC b hb).lengths.1]
      simp
    have hdet : ∀ ql q q', ql ++ [q] ∈ (A.taggedBlocks.map block).map Prod.fst → ql ++ [q'] ∈ (A.taggedBlocks.map block).map Prod.fst → q = q' := by
      intro ql q q' h1 h2
      have key : ∀ q, ql ++ [q] ∈ (A.taggedBlocks.map block).map Prod.fst → ∃ t us u, us ++ [u] ∈ (cond t A.odd A.even).map Prod.fst ∧ us ≠ [] ∧ ql = labels t us ∧ q = inj u := by
        intro q h
        rw [hlab] at h
        rcases List.mem_append.1 h with h | h <;> obtain ⟨qs, hqs, e⟩ := List.mem_map.1 h
        · obtain ⟨us, u, rfl, h1, h2, h3⟩ := hsplit _ _ _ _ (hlen2 _ ho _ hqs) e.symm
          exact ⟨true, us, u, hqs, h1, h2, h3⟩
        · obtain ⟨us, u, rfl, h1, h2, h3⟩ := hsplit _ _ _ _ (hlen2 _ he _ hqs) e.symm
          exact ⟨false, us, u, hqs, h1, h2, h3⟩
      obtain ⟨t, us, u, k1, k2, k3, rfl⟩ := key q h1
      obtain ⟨t', us', u', k1', k2', k3', rfl⟩ := key q' h2
      obtain ⟨rfl, rfl⟩ := (labels_eq k2').1 (k3.symm.trans k3')
      have d1 := hasCharge_det (s := true) (legs := l :: legs) (r := r) ho c1
      have d0 := hasCharge_det (s := true) (legs := l :: legs) (r := r) he c0
      cases t
      · rw [d0 us u u' k1 k1']
      · rw [d1 us u u' k1 k1']
    have h := hiso _ hq huniq hdet (injz z) (by rw [legBasis_bond]; exact List.mem_map.2 ⟨z, hz, rfl⟩) (injz z') (by rw [legBasis_bond]; exact List.mem_map.2 ⟨z', hz', rfl⟩)
    rw [legIndices_tag, List.map_append, List.sum_append, List.map_map, List.map_map] at h
    have hz2 : (injz z = injz z') ↔ z = z' := by
      constructor
      · intro h
        have h1 := congrArg (fun p => p.1.2) h
        have h2 := congrArg Prod.snd h
        exact Prod.ext h1 h2
      · rintro rfl; rfl
    simp only [hz2] at h
    rw [← h, hq1, hq0]
    have hx : ∀ t, ((legIndices (l :: legs)).map fun x => star (entry (((OpT.rowFactors qr A.rowGroups).filter fun s => s.1 = t).map Prod.snd) (x ++ [z])) *
        entry (((OpT.rowFactors qr A.rowGroups).filter fun s => s.1 = t).map Prod.snd) (x ++ [z'])) =
        (legIndices (l :: legs)).map ((fun x => star (entry ((OpT.rowFactors qr A.rowGroups).map block) (x ++ [injz z])) *
          entry ((OpT.rowFactors qr A.rowGroups).map block) (x ++ [injz z'])) ∘ index t) := by
      intro t
      refine List.map_congr_left fun x hx => ?_
      have hne : x ≠ [] := by
        rintro rfl
        have := ((mem_cart _ _).1 hx).length_eq
        simp at this
      show _ = star (entry _ (index t x ++ [injz z])) * entry _ (index t x ++ [injz z'])
      rw [← index_append t hne, ← index_append t hne, entry_tag _ _ _ (by simp), entry_tag _ _ _ (by simp)]
    rw [hx true, hx false]

/-- One step of C21 to the left for a tensor whose first label is fixed by the other ones. -/
theorem right_isometric_det [StarRing K] (qr : Arr K → Arr K × Arr K) (hqr : Factorises qr) (ho : OrthonormalColumns qr) {legs : List (BondInfo Q)} {l : BondInfo Q} {T : SpT Q K}
    (hT : Conforms (l :: legs) T) (hlegs : ∀ b ∈ legs, GoodBond b) (hl : GoodBond l) (hu : UniqueLabels T)
    (hdet : ∀ ql q q', q :: ql ∈ T.map Prod.fst → q' :: ql ∈ T.map Prod.fst → q = q') :
    RightIsometric (newBond false T fun g => (qr (stackRightT (g.2.map Prod.snd))).2.shape.getD 0 0) legs (SpT.rightCanonicalize qr T).2 := by
  have hA := assembled_right qr hqr hT hlegs hl
  refine hA.isometry (fun b hb => (hlegs b hb).1) hu hdet ?_
  intro g hm t ht t' ht'
  obtain ⟨n, hn, hin, hok⟩ := hA.group hm
  obtain ⟨hs, hne⟩ := group_shapes hA.conf hlegs hm hn
  have hnp : 0 < n := hl.2 _ (Dict.mem_of_get? hn)
  have hsh := stackRightT_shape hs hne
  have hp := height_pos hne hs.pos
  have h2 := hqr.right _ _ _ hsh hp hnp
  rw [h2] at ht ht'
  exact ho _ _ _ hsh hp hnp t ht t' ht'

/-- **C84**, to the left: `right_canonicalize` of an operator site tensor with at least two legs. -/
theorem C84_right (qr : Arr K → Arr K × Arr K) (hqr : Factorises qr) (l k : BondInfo Q) (legs : List (BondInfo Q)) (A : OpT Q K)
    (ho : Conforms (l :: k :: legs) A.odd) (he : Conforms (l :: k :: legs) A.even) (hg : ∀ b ∈ l :: k :: legs, GoodBond b) :
    ∃ m, GoodBond m ∧ (∀ q, Counter.count m q ≤ Counter.count l q) ∧
      Conforms (m :: k :: legs) (OpT.rightCanonicalize qr A).2.odd ∧ Conforms (m :: k :: legs) (OpT.rightCanonicalize qr A).2.even ∧
      Conforms [l, m] (OpT.rightCanonicalize qr A).1 ∧
      (∀ x y, x.length = legs.length + 1 →
        ((legBasis m).map fun z => entry (OpT.rightCanonicalize qr A).1 [y, z] * entry (OpT.rightCanonicalize qr A).2.odd (z :: x)).sum = entry A.odd (y :: x) ∧
        ((legBasis m).map fun z => entry (OpT.rightCanonicalize qr A).1 [y, z] * entry (OpT.rightCanonicalize qr A).2.even (z :: x)).sum = entry A.even (y :: x)) ∧
      ∀ [StarRing K], OrthonormalColumns qr → UniqueLabels A.odd → UniqueLabels A.even → HasCharge (legs.length + 2) A.odd → HasCharge (legs.length + 2) A.even →
        ∀ z ∈ legBasis m, ∀ z' ∈ legBasis m,
          ((legIndices (k :: legs)).map fun x => star (entry (OpT.rightCanonicalize qr A).2.odd (z :: x)) * entry (OpT.rightCanonicalize qr A).2.odd (z' :: x)).sum +
          ((legIndices (k :: legs)).map fun x => star (entry (OpT.rightCanonicalize qr A).2.even (z :: x)) * entry (OpT.rightCanonicalize qr A).2.even (z' :: x)).sum =
            if z = z' then 1 else 0 := by
  have hmem : ∀ x ∈ A.taggedBlocks, IsCombination (l :: k :: legs) x.2.1 x.2.2.shape := by
    intro x hx
    rcases List.mem_append.1 hx with hx | hx <;> obtain ⟨b, hb, rfl⟩ := List.mem_map.1 hx
    · exact ho b hb
    · exact he b hb
  have hlen : ∀ x ∈ A.taggedBlocks, 2 ≤ x.2.1.length := by
    intro x hx
    rw [(hmem x hx).lengths.1]
    simp
  have hcan := canon_tag2 qr A hlen
  have hT : Conforms (bond l :: (both k :: legs.map bond)) (A.taggedBlocks.map block2) := by
    intro b hb
    obtain ⟨x, hx, rfl⟩ := List.mem_map.1 hb
    exact (isCombination_tag2 (t := x.1)).2 (hmem x hx)
  have hgl : ∀ b ∈ both k :: legs.map bond, GoodBond b := by
    intro b hb
    rcases List.mem_cons.1 hb with rfl | hb
    · exact good_both (hg k (by simp))
    · obtain ⟨c, hc, rfl⟩ := List.mem_map.1 hb
      exact good_bond.2 (hg c (by simp [hc]))
  have hgr : GoodBond (bond l) := good_bond.2 (hg l (by simp))
  have hA := assembled_right qr hqr hT hgl hgr
  have hiso := fun (_ : StarRing K) (h1 : OrthonormalColumns qr) h2 h3 => right_isometric_det qr hqr h1 hT hgl hgr h2 h3
  have f1 := hA.good
  have f2 := hA.le
  have f3 := hA.conf_q
  have f4 := hA.conf_r
  have f5 := fun x y hx => hA.product x hx y
  clear hA
  generalize newBond false (A.taggedBlocks.map block2) (fun g => (qr (stackRightT (g.2.map Prod.snd))).2.shape.getD 0 0) = m' at f1 f2 f3 f4 f5 hiso
  rw [hcan] at f3 f4 f5 hiso
  have hm' : bond (m'.map fun p => (p.1.2, p.2)) = m' := by
    unfold bond
    rw [List.map_map]
    conv_rhs => rw [← List.map_id m']
    refine List.map_congr_left fun p hp => ?_
    have h1 := f2 p.1
    rw [Counter.count_of_mem f1.1 hp] at h1
    have h2 := f1.2 p hp
    have h3 : Dict.get? (bond l) p.1 = some (Counter.count (bond l) p.1) := get_of_count (by omega)
    obtain ⟨c, _, e⟩ := List.mem_map.1 (Dict.mem_of_get? h3)
    have e1 : inj c.1 = p.1 := congrArg Prod.fst e
    have e2 : p.1.1 = 0 := by rw [← e1]; rfl
    refine Prod.ext (Prod.ext e2.symm rfl) rfl
  generalize (m'.map fun p => (p.1.2, p.2)) = m at hm'
  subst hm'
  have hq1 : (OpT.rightCanonicalize qr A).2.odd = ((OpT.colFactors qr A.colGroups).filter fun x => x.1 = true).map Prod.snd := rfl
  have hq0 : (OpT.rightCanonicalize qr A).2.even = ((OpT.colFactors qr A.colGroups).filter fun x => x.1 = false).map Prod.snd := rfl
  have hA1 : (A.taggedBlocks.filter fun x => x.1 = true).map Prod.snd = A.odd := by
    simp [OpT.taggedBlocks, List.filter_map, Function.comp_def]
  have hA0 : (A.taggedBlocks.filter fun x => x.1 = false).map Prod.snd = A.even := by
    simp [OpT.taggedBlocks, List.filter_map, Function.comp_def]
  have hconf : ∀ t, Conforms (m :: k :: legs) (((OpT.colFactors qr A.colGroups).filter fun x => x.1 = t).map Prod.snd) := by
    intro t b hb
    obtain ⟨x, hx, rfl⟩ := List.mem_map.1 hb
    exact (isCombination_tag2 (t := x.1)).1 (f3 (block2 x) (List.mem_map.2 ⟨x, (List.mem_filter.1 hx).1, rfl⟩))
  have hprod : ∀ t (x : List (Q × Nat)) y, x.length = legs.length + 1 →
      ((legBasis m).map fun z => entry (OpT.rightCanonicalize qr A).1 [y, z] * entry (((OpT.colFactors qr A.colGroups).filter fun s => s.1 = t).map Prod.snd) (z :: x)).sum =
        entry ((A.taggedBlocks.filter fun s => s.1 = t).map Prod.snd) (y :: x) := by
    intro t x y hx
    have hne : x ≠ [] := by rintro rfl; simp at hx
    have hxl : (index t x).length = (both k :: legs.map bond).length := by
      have := congrArg List.length (index_snd t x)
      simpa [hx] using this
    have h := f5 (index t x) (injz y) hxl
    rw [legBasis_bond, List.map_map] at h
    rw [← entry_tag2 _ _ _ _ hne]
    refine Eq.trans ?_ h
    refine congrArg List.sum (List.map_congr_left fun z _ => ?_)
    show _ = entry _ (injz z :: index t x) * entry _ [injz y, injz z]
    rw [entry_tag2 _ _ _ _ hne, mul_comm]
    congr 1
    exact (entry_inj _ [y, z]).symm
  refine ⟨m, good_bond.1 f1, fun q => ?_, hconf true, hconf false, ?_, fun x y hx => ⟨?_, ?_⟩, ?_⟩
  · have := f2 (inj q)
    unfold Counter.count at this ⊢
    rw [get_bond, get_bond] at this
    exact this
  · intro b hb
    have := f4 _ (List.mem_map.2 ⟨b, hb, rfl⟩)
    exact (isCombination_bond (legs := [l, m])).1 this
  · have := hprod true x y hx
    rw [hA1] at this
    exact this
  · have := hprod false x y hx
    rw [hA0] at this
    exact this
  · intro _ hq u1 u0 c1 c0 z hz z' hz'
    have hcons : ∀ (T : SpT Q K), Conforms (l :: k :: legs) T → ∀ qs ∈ T.map Prod.fst, ∃ q r, qs = q :: r ∧ r ≠ [] := by
      intro T hC qs hqs
      obtain ⟨b, hb, rfl⟩ := List.mem_map.1 hqs
      have := (hC b hb).lengths.1
      rcases h : b.1 with _ | ⟨q, _ | ⟨q', r⟩⟩
      · rw [h] at this; simp at this
      · rw [h] at this; simp at this
      · exact ⟨q, q' :: r, rfl, by simp⟩
    have hlab : (A.taggedBlocks.map block2).map Prod.fst = (A.odd.map Prod.fst).map (labels2 true) ++ (A.even.map Prod.fst).map (labels2 false) := by
      simp [OpT.taggedBlocks, block2, Function.comp_def]
    have hinj : ∀ (T : SpT Q K), Conforms (l :: k :: legs) T → ∀ t t' x, ∀ y ∈ T.map Prod.fst, labels2 t x = labels2 t' y → t = t' ∧ x = y := by
      intro T hC t t' x y hy h
      obtain ⟨q, r, rfl, hr⟩ := hcons T hC y hy
      exact (labels2_eq hr).1 h
    have huniq : UniqueLabels (A.taggedBlocks.map block2) := by
      unfold UniqueLabels
      rw [hlab]
      refine List.nodup_append.2 ⟨?_, ?_, ?_⟩
      · exact List.Nodup.map_on (fun x _ y hy h => (hinj _ ho _ _ x y hy h).2) u1
      · exact List.Nodup.map_on (fun x _ y hy h => (hinj _ he _ _ x y hy h).2) u0
      · intro a ha b hb hab
        obtain ⟨x, _, rfl⟩ := List.mem_map.1 ha
        obtain ⟨y, hy, rfl⟩ := List.mem_map.1 hb
        exact absurd (hinj _ he _ _ x y hy hab).1 (by simp)
    have hdet : ∀ ql q q', q :: ql ∈ (A.taggedBlocks.map block2).map Prod.fst → q' :: ql ∈ (A.taggedBlocks.map block2).map Prod.fst → q = q' := by
      intro ql q q' h1 h2
      have key : ∀ q, q :: ql ∈ (A.taggedBlocks.map block2).map Prod.fst → ∃ t u us, u :: us ∈ (cond t A.odd A.even).map Prod.fst ∧ us ≠ [] ∧ ql = labels t us ∧ q = inj u := by
        intro q h
        rw [hlab] at h
        rcases List.mem_append.1 h with h | h <;> obtain ⟨qs, hqs, e⟩ := List.mem_map.1 h
        · obtain ⟨u, us, rfl, hr⟩ := hcons _ ho _ hqs
          obtain ⟨e1, e2⟩ := List.cons.inj e
          exact ⟨true, u, us, hqs, hr, e2.symm, e1.symm⟩
        · obtain ⟨u, us, rfl, hr⟩ := hcons _ he _ hqs
          obtain ⟨e1, e2⟩ := List.cons.inj e
          exact ⟨false, u, us, hqs, hr, e2.symm, e1.symm⟩
      obtain ⟨t, u, us, k1, k2, k3, rfl⟩ := key q h1
      obtain ⟨t', u', us', k1', k2', k3', rfl⟩ := key q' h2
      obtain ⟨rfl, rfl⟩ := (labels_eq k2').1 (k3.symm.trans k3')
      have d1 := hasCharge_det (s := false) (legs := k :: legs) (r := l) ho c1
      have d0 := hasCharge_det (s := false) (legs := k :: legs) (r := l) he c0
      cases t
      · rw [d0 us u u' k1 k1']
      · rw [d1 us u u' k1 k1']
    have h := hiso _ hq huniq hdet (injz z) (by rw [legBasis_bond]; exact List.mem_map.2 ⟨z, hz, rfl⟩) (injz z') (by rw [legBasis_bond]; exact List.mem_map.2 ⟨z', hz', rfl⟩)
    rw [legIndices_tag, List.map_append, List.sum_append, List.map_map, List.map_map] at h
    have hz2 : (injz z = injz z') ↔ z = z' := by
      constructor
      · intro h
        have h1 := congrArg (fun p => p.1.2) h
        have h2 := congrArg Prod.snd h
        exact Prod.ext h1 h2
      · rintro rfl; rfl
    simp only [hz2] at h
    rw [← h, hq1, hq0]
    have hx : ∀ t, ((legIndices (k :: legs)).map fun x => star (entry (((OpT.colFactors qr A.colGroups).filter fun s => s.1 = t).map Prod.snd) (z :: x)) *
        entry (((OpT.colFactors qr A.colGroups).filter fun s => s.1 = t).map Prod.snd) (z' :: x)) =
        (legIndices (k :: legs)).map ((fun x => star (entry ((OpT.colFactors qr A.colGroups).map block2) (injz z :: x)) *
          entry ((OpT.colFactors qr A.colGroups).map block2) (injz z' :: x)) ∘ index t) := by
      intro t
      refine List.map_congr_left fun x hx => ?_
      have hne : x ≠ [] := by
        rintro rfl
        have := ((mem_cart _ _).1 hx).length_eq
        simp at this
      show _ = star (entry _ (injz z :: index t x)) * entry _ (injz z' :: index t x)
      rw [entry_tag2 _ _ _ _ hne, entry_tag2 _ _ _ _ hne]
    rw [hx true, hx false]

end

/-- An operator tensor with an odd and an even block in the same group, and a routine that meets the contract. -/
example : ∃ (qr : Arr ℝ → Arr ℝ × Arr ℝ) (A : OpT Int ℝ), Factorises qr ∧ OrthonormalColumns qr ∧
    Conforms ([(0, 1), (1, 2)] :: [[(0, 1), (1, 1)]] ++ [[(1, 2)]]) A.odd ∧ Conforms ([(0, 1), (1, 2)] :: [[(0, 1), (1, 1)]] ++ [[(1, 2)]]) A.even ∧
    (∀ b ∈ [(0, 1), (1, 2)] :: [[(0, 1), (1, 1)]] ++ [[((1 : Int), 2)]], GoodBond b) ∧
    UniqueLabels A.odd ∧ UniqueLabels A.even ∧ HasCharge 3 A.odd ∧ HasCharge 3 A.even ∧ (A.rowGroups.map fun g => g.2.length) = [2] := by
  obtain ⟨qr, h1, h2⟩ := C21_contract ℝ
  refine ⟨qr, ⟨[([0, 1, 1], ⟨[1, 1, 2], fun _ => 1⟩)], [([1, 0, 1], ⟨[2, 1, 2], fun _ => 2⟩)]⟩, h1, h2, ?_, ?_, ?_, ?_, ?_, ?_, ?_, ?_⟩
  · intro b hb
    obtain rfl := List.mem_singleton.1 hb
    exact .cons rfl (.cons rfl (.cons rfl .nil))
  · intro b hb
    obtain rfl := List.mem_singleton.1 hb
    exact .cons rfl (.cons rfl (.cons rfl .nil))
  · unfold GoodBond Dict.WF
    decide
  · simp [UniqueLabels]
  · simp [UniqueLabels]
  · refine ⟨[true, true, false], 0, rfl, ?_⟩
    intro b hb
    obtain rfl := List.mem_singleton.1 hb
    decide
  · refine ⟨[true, true, false], 0, rfl, ?_⟩
    intro b hb
    obtain rfl := List.mem_singleton.1 hb
    decide
  · rfl

/-- The same for `right_canonicalize`. -/
example : ∃ (qr : Arr ℝ → Arr ℝ × Arr ℝ) (A : OpT Int ℝ), Factorises qr ∧ OrthonormalColumns qr ∧
    Conforms [[(1, 2)], [(0, 1), (1, 1)], [(1, 2), (2, 1)]] A.odd ∧ Conforms [[(1, 2)], [(0, 1), (1, 1)], [(1, 2), (2, 1)]] A.even ∧
    (∀ b ∈ [[((1 : Int), 2)], [(0, 1), (1, 1)], [(1, 2), (2, 1)]], GoodBond b) ∧
    UniqueLabels A.odd ∧ UniqueLabels A.even ∧ HasCharge 3 A.odd ∧ HasCharge 3 A.even ∧ (A.colGroups.map fun g => g.2.length) = [2] := by
  obtain ⟨qr, h1, h2⟩ := C21_contract ℝ
  refine ⟨qr, ⟨[([1, 1, 2], ⟨[2, 1, 1], fun _ => 1⟩)], [([1, 0, 1], ⟨[2, 1, 2], fun _ => 2⟩)]⟩, h1, h2, ?_, ?_, ?_, ?_, ?_, ?_, ?_, ?_⟩
  · intro b hb
    obtain rfl := List.mem_singleton.1 hb
    exact .cons rfl (.cons rfl (.cons rfl .nil))
  · intro b hb
    obtain rfl := List.mem_singleton.1 hb
    exact .cons rfl (.cons rfl (.cons rfl .nil))
  · unfold GoodBond Dict.WF
    decide
  · simp [UniqueLabels]
  · simp [UniqueLabels]
  · refine ⟨[true, true, false], 0, rfl, ?_⟩
    intro b hb
    obtain rfl := List.mem_singleton.1 hb
    decide
  · refine ⟨[true, true, false], 0, rfl, ?_⟩
    intro b hb
    obtain rfl := List.mem_singleton.1 hb
    decide
  · rfl

end Verif
