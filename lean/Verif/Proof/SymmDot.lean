import Verif.Proof.SymmFuse
import Verif.Thm.Fermion
import Verif.Thm.OpT

/-! Contraction after the change to a lower symmetry. -/

set_option linter.unusedSectionVars false

namespace Verif
section
variable {H L K : Type} [DecidableEq H] [DecidableEq L] [Zero H] [Zero L]
variable {f : H → L} {lower : BondInfo H → BondInfo L} {ψ : BondInfo H → H × Nat → L × Nat}

theorem Relabels.perm {b : BondInfo H} (hb : Dict.WF b) {b' : BondInfo L} {φ : H × Nat → L × Nat} (h : Relabels f b b' φ) : ((legBasis b).map φ).Perm (legBasis b') := by
  rw [List.perm_ext_iff_of_nodup]
  · intro y
    rw [h.onto y, List.mem_map]
  · exact (List.nodup_map_iff_inj_on (legBasis_nodup hb)).2 fun z hz z' hz' e => h.inj z hz z' hz' e
  · exact legBasis_nodup h.wf

theorem relabel_perm (hψ : ∀ b, Dict.WF b → Relabels f b (lower b) (ψ b)) {legs : List (BondInfo H)} (hw : ∀ b ∈ legs, Dict.WF b) :
    ((legIndices legs).map (relabelAll ψ legs)).Perm (legIndices (legs.map lower)) := by
  induction legs with
  | nil => simp [legIndices, cart, relabelAll]
  | cons b bs ih =>
    have ih := ih fun c hc => hw c (List.mem_cons_of_mem _ hc)
    have hb := hw b List.mem_cons_self
    have e : (legIndices (b :: bs)).map (relabelAll ψ (b :: bs)) = ((legBasis b).map (ψ b)).flatMap fun y => ((legIndices bs).map (relabelAll ψ bs)).map fun ys => y :: ys := by
      simp only [legIndices, List.map_cons, cart, List.map_flatMap, List.flatMap_map, List.map_map]
      rfl
    rw [e]
    have e' : legIndices ((b :: bs).map lower) = (legBasis (lower b)).flatMap fun y => (legIndices (bs.map lower)).map fun ys => y :: ys := rfl
    rw [e']
    exact ((hψ b hb).perm hb).flatMap fun y _ => ih.map _

theorem relabel_mem (hψ : ∀ b, Dict.WF b → Relabels f b (lower b) (ψ b)) {legs : List (BondInfo H)} (hw : ∀ b ∈ legs, Dict.WF b) {y : List (L × Nat)} :
    y ∈ legIndices (legs.map lower) ↔ ∃ x ∈ legIndices legs, relabelAll ψ legs x = y := by
  rw [← (relabel_perm hψ hw).mem_iff, List.mem_map]

theorem comb_mem {legs : List (BondInfo L)} (hw : ∀ b ∈ legs, Dict.WF b) {qs : List L} {sh : List Nat} (h : IsCombination legs qs sh) {x : List (L × Nat)}
    (hq : qs = x.map Prod.fst) (hb : inBox sh (x.map Prod.snd) = true) : x ∈ legIndices legs := by
  induction h generalizing x with
  | nil =>
    rcases x with _ | ⟨z, x⟩
    · simp [legIndices, cart]
    · simp at hq
  | @cons b bs q qs s sh h1 h2 ih =>
    rcases x with _ | ⟨z, x⟩
    · simp at hq
    · simp only [List.map_cons, List.cons.injEq] at hq
      simp only [List.map_cons, inBox, Bool.and_eq_true, decide_eq_true_eq] at hb
      rw [legIndices, List.map_cons, cart, List.mem_flatMap]
      refine ⟨z, (mem_legBasis (hw _ List.mem_cons_self)).2 ?_, List.mem_map.2 ⟨x, ih (fun c hc => hw c (List.mem_cons_of_mem _ hc)) hq.2 hb.2, rfl⟩⟩
      rw [← hq.1, count_of_get h1]
      exact hb.1

theorem forall₂_cut {α β : Type} {r : α → β → Prop} {a1 a2 : List α} {b : List β} (h : List.Forall₂ r (a1 ++ a2) b) :
    ∃ u v, List.Forall₂ r a1 u ∧ List.Forall₂ r a2 v ∧ b = u ++ v := by
  induction a1 generalizing b with
  | nil => exact ⟨[], b, .nil, h, rfl⟩
  | cons x a1 ih =>
    rcases b with _ | ⟨y, b⟩
    · cases h
    · cases h with
      | cons h1 h2 =>
        obtain ⟨u, v, e1, e2, rfl⟩ := ih h2
        exact ⟨y :: u, v, .cons h1 e1, e2, rfl⟩

theorem relabelAll_append (l1 l2 : List (BondInfo H)) (x1 x2 : List (H × Nat)) (h : l1.length = x1.length) :
    relabelAll ψ (l1 ++ l2) (x1 ++ x2) = relabelAll ψ l1 x1 ++ relabelAll ψ l2 x2 := by
  unfold relabelAll
  exact List.zipWith_append h

theorem relabel_pick {legs : List (BondInfo H)} {x : List (H × Nat)} (h : x.length = legs.length) {π : List Nat} (hπ : ∀ i ∈ π, i < legs.length) :
    pick π (relabelAll ψ legs x) = relabelAll ψ (π.map fun i => legs.getD i []) (pick π x) := by
  induction π with
  | nil => rfl
  | cons i π ih =>
    have hi := hπ i List.mem_cons_self
    have hi' : i < x.length := h ▸ hi
    have := ih fun j hj => hπ j (List.mem_cons_of_mem _ hj)
    unfold pick relabelAll at this ⊢
    rw [List.map_cons, this]
    simp only [List.map_cons, List.zipWith_cons_cons, List.cons.injEq, and_true]
    simp [List.getD_eq_getElem?_getD, List.getElem?_zipWith, List.getElem?_eq_getElem hi, List.getElem?_eq_getElem hi']

/-- The multi-index with given basis vectors on the contracted and on the free legs, before and after. -/
theorem relabel_unpick {legs : List (BondInfo H)} (hw : ∀ b ∈ legs, Dict.WF b) {idx : List Nat} (hnd : idx.Nodup) (hlt : ∀ i ∈ idx, i < legs.length)
    {c g : List (H × Nat)} (hc : c ∈ legIndices (idx.map fun i => legs.getD i [])) (hg : g ∈ legIndices ((freeAxes legs.length idx).map fun i => legs.getD i [])) :
    unpick (idx ++ SpT.outAxes legs.length idx) (c ++ g) ∈ legIndices legs ∧
      unpick (idx ++ SpT.outAxes legs.length idx) (relabelAll ψ (idx.map fun i => legs.getD i []) c ++ relabelAll ψ ((freeAxes legs.length idx).map fun i => legs.getD i []) g) =
        relabelAll ψ legs (unpick (idx ++ SpT.outAxes legs.length idx) (c ++ g)) := by
  have hp := idx_out_perm hnd hlt
  have hn := perm_range_length hp
  rw [freeAxes_eq] at hg ⊢
  have hcl := legIndices_length hc
  have hgl := legIndices_length hg
  have hm : c ++ g ∈ legIndices ((idx ++ SpT.outAxes legs.length idx).map fun i => legs.getD i []) := by
    rw [List.map_append]
    unfold legIndices at hc hg ⊢
    rw [List.map_append, mem_cart]
    exact List.rel_append ((mem_cart _ _).1 hc) ((mem_cart _ _).1 hg)
  rw [(legIndices_pick hw hp).mem_iff] at hm
  obtain ⟨y, hy, e⟩ := List.mem_map.1 hm
  have hyl := legIndices_length hy
  have hlen : (c ++ g).length = (idx ++ SpT.outAxes legs.length idx).length := by rw [← e]; simp [pick]
  have e1 : y = unpick (idx ++ SpT.outAxes legs.length idx) (c ++ g) := (eq_unpick_iff hp y _ hyl (hlen.trans hn)).2 e
  refine ⟨e1 ▸ hy, ?_⟩
  rw [← e1]
  symm
  have hrl : (relabelAll ψ legs y).length = legs.length := by simp [relabelAll, hyl]
  refine (eq_unpick_iff hp _ _ hrl ?_).2 ?_
  · rw [List.length_append]
    simp only [relabelAll, List.length_zipWith, List.length_map, hcl, hgl]
    rw [List.length_append] at hn
    simp [hn]
  · rw [relabel_pick hyl (fun i hi => by simpa using hp.mem_iff.1 hi), e, List.map_append, relabelAll_append]
    exact hcl.symm

theorem sameTensor_outside [AddCommMonoid K] (hψ : ∀ b, Dict.WF b → Relabels f b (lower b) (ψ b)) {legs : List (BondInfo H)} (hw : ∀ b ∈ legs, Dict.WF b) {R : SpT L K}
    (hR : Conforms (legs.map lower) R) {y : List (L × Nat)} (h : y ∉ legIndices (legs.map lower)) : entry R y = 0 := by
  refine sum_map_zero' _ _ fun b hb => ?_
  unfold blockEntry
  rw [if_neg]
  rintro ⟨h1, h2⟩
  refine h (comb_mem ?_ (hR b hb) h1 h2)
  intro b hb
  obtain ⟨c, hc, rfl⟩ := List.mem_map.1 hb
  exact (hψ c (hw c hc)).wf

/-- Contraction and change of symmetry can be exchanged. -/
theorem contract_same [CommSemiring K] (hψ : ∀ b, Dict.WF b → Relabels f b (lower b) (ψ b)) {A B R : SpT H K} {A' B' R' : SpT L K} {axesA axesB : List Int}
    {legsA legsB legs : List (BondInfo H)} {idxa idxb : List Nat} (hA : Conforms legsA A) (hB : Conforms legsB B)
    (ha : List.Forall₂ (NamesAxis legsA.length) axesA idxa) (hb : List.Forall₂ (NamesAxis legsB.length) axesB idxb) (hnda : idxa.Nodup) (hndb : idxb.Nodup)
    (hla : idxa.map (fun i => legsA.getD i []) = legs) (hlb : idxb.map (fun i => legsB.getD i []) = legs)
    (hwA : ∀ b ∈ legsA, Dict.WF b) (hwB : ∀ b ∈ legsB, Dict.WF b) (sA : SameTensor ψ lower legsA A A') (sB : SameTensor ψ lower legsB B B')
    (hR : SpT.tensordot A B axesA axesB = some R) (hR' : SpT.tensordot A' B' axesA axesB = some R') :
    SameTensor ψ lower ((freeAxes legsA.length idxa).map (fun i => legsA.getD i []) ++ (freeAxes legsB.length idxb).map (fun i => legsB.getD i [])) R R' := by
  have hlta : ∀ i ∈ idxa, i < legsA.length := by
    intro i hi
    obtain ⟨j, hj, rfl⟩ := List.getElem_of_mem hi
    exact ((List.forall₂_iff_get.1 ha).2 j (by rw [ha.length_eq]; exact hj) hj).1
  have hltb : ∀ i ∈ idxb, i < legsB.length := by
    intro i hi
    obtain ⟨j, hj, rfl⟩ := List.getElem_of_mem hi
    exact ((List.forall₂_iff_get.1 hb).2 j (by rw [hb.length_eq]; exact hj) hj).1
  have hwl : ∀ b ∈ legs, Dict.WF b := by
    intro b hb'
    rw [← hla] at hb'
    obtain ⟨i, hi, rfl⟩ := List.mem_map.1 hb'
    have hi' := hlta i hi
    rw [List.getD_eq_getElem?_getD, List.getElem?_eq_getElem hi']
    exact hwA _ (List.getElem_mem hi')
  have glow : ∀ (l : List (BondInfo H)) (i : Nat), i < l.length → (l.map lower).getD i [] = lower (l.getD i []) := by
    intro l i hi
    simp [List.getD_eq_getElem?_getD, List.getElem?_eq_getElem hi]
  have mlow : ∀ (l : List (BondInfo H)) (is : List Nat), (∀ i ∈ is, i < l.length) → is.map (fun i => (l.map lower).getD i []) = (is.map fun i => l.getD i []).map lower := by
    intro l is h
    rw [List.map_map]
    exact List.map_congr_left fun i hi => glow l i (h i hi)
  have hfree : ∀ (n : Nat) (is : List Nat), ∀ i ∈ freeAxes n is, i < n := by
    intro n is i hi
    exact List.mem_range.1 (List.mem_filter.1 hi).1
  obtain ⟨S, hS, s1, s2, s3⟩ := C12_tensordot A B axesA axesB legsA legsB legs idxa idxb hA hB ha hb hnda hndb hla hlb hwl
  rw [hR, Option.some.injEq] at hS
  subst hS
  obtain ⟨S', hS', t1, t2, t3⟩ := C12_tensordot A' B' axesA axesB (legsA.map lower) (legsB.map lower) (legs.map lower) idxa idxb sA.1 sB.1
    (by rw [List.length_map]; exact ha) (by rw [List.length_map]; exact hb) hnda hndb (by rw [mlow _ _ hlta, hla]) (by rw [mlow _ _ hltb, hlb])
    (by
      intro b hb'
      obtain ⟨c, hc, rfl⟩ := List.mem_map.1 hb'
      exact (hψ c (hwl c hc)).wf)
  rw [hR', Option.some.injEq] at hS'
  subst hS'
  simp only [List.length_map] at t1 t3
  rw [mlow _ _ (hfree _ _), mlow _ _ (hfree _ _), ← List.map_append] at t1
  refine ⟨t1, t2, ?_⟩
  intro x hx
  obtain ⟨fa, fb, rfl, hfa, hfb⟩ : ∃ fa fb, x = fa ++ fb ∧ fa ∈ legIndices ((freeAxes legsA.length idxa).map fun i => legsA.getD i []) ∧
      fb ∈ legIndices ((freeAxes legsB.length idxb).map fun i => legsB.getD i []) := by
    unfold legIndices at hx ⊢
    rw [List.map_append, mem_cart] at hx
    obtain ⟨u, v, h1, h2, h3⟩ := forall₂_cut hx
    exact ⟨u, v, h3, (mem_cart _ _).2 h1, (mem_cart _ _).2 h2⟩
  have hfal := legIndices_length hfa
  have hfbl := legIndices_length hfb
  rw [List.length_map] at hfal hfbl
  have hcl : ∀ c ∈ legIndices legs, c.length = idxa.length ∧ c.length = idxb.length := by
    intro c hc
    have h := legIndices_length hc
    exact ⟨by rw [h, ← hla, List.length_map], by rw [h, ← hlb, List.length_map]⟩
  rw [relabelAll_append _ _ _ _ (by rw [List.length_map]; exact hfal.symm)]
  rw [s3 fa fb hfal hfbl (fun c => unpick (idxa ++ SpT.outAxes legsA.length idxa) (c ++ fa)) (fun c => unpick (idxb ++ SpT.outAxes legsB.length idxb) (c ++ fb))
    (fun c hc => (hasIndices_iff hnda hlta (hcl c hc).1 hfal).2 rfl) (fun c hc => (hasIndices_iff hndb hltb (hcl c hc).2 hfbl).2 rfl)]
  have hrl : ∀ (l : List (BondInfo H)) (z : List (H × Nat)), z.length = l.length → (relabelAll ψ l z).length = l.length := by
    intro l z h; simp [relabelAll, h]
  have hcl' : ∀ c ∈ legIndices (legs.map lower), c.length = idxa.length ∧ c.length = idxb.length := by
    intro c hc
    have h := legIndices_length hc
    rw [List.length_map] at h
    exact ⟨by rw [h, ← hla, List.length_map], by rw [h, ← hlb, List.length_map]⟩
  have la : (relabelAll ψ ((freeAxes legsA.length idxa).map fun i => legsA.getD i []) fa).length = (freeAxes legsA.length idxa).length := by
    rw [hrl _ _ (by rw [List.length_map]; exact hfal), List.length_map]
  have lb : (relabelAll ψ ((freeAxes legsB.length idxb).map fun i => legsB.getD i []) fb).length = (freeAxes legsB.length idxb).length := by
    rw [hrl _ _ (by rw [List.length_map]; exact hfbl), List.length_map]
  rw [t3 _ _ la lb
    (fun c => unpick (idxa ++ SpT.outAxes legsA.length idxa) (c ++ relabelAll ψ ((freeAxes legsA.length idxa).map fun i => legsA.getD i []) fa))
    (fun c => unpick (idxb ++ SpT.outAxes legsB.length idxb) (c ++ relabelAll ψ ((freeAxes legsB.length idxb).map fun i => legsB.getD i []) fb))
    (fun c hc => (hasIndices_iff hnda hlta (hcl' c hc).1 la).2 rfl) (fun c hc => (hasIndices_iff hndb hltb (hcl' c hc).2 lb).2 rfl)]
  rw [← (((relabel_perm hψ hwl).map (fun c =>
    entry A' (unpick (idxa ++ SpT.outAxes legsA.length idxa) (c ++ relabelAll ψ ((freeAxes legsA.length idxa).map fun i => legsA.getD i []) fa)) *
    entry B' (unpick (idxb ++ SpT.outAxes legsB.length idxb) (c ++ relabelAll ψ ((freeAxes legsB.length idxb).map fun i => legsB.getD i []) fb)))).sum_eq), List.map_map]
  congr 1
  refine List.map_congr_left fun c hc => ?_
  simp only [Function.comp]
  obtain ⟨u1, u2⟩ := relabel_unpick (ψ := ψ) hwA hnda hlta (hla ▸ hc : c ∈ legIndices (idxa.map fun i => legsA.getD i [])) hfa
  obtain ⟨v1, v2⟩ := relabel_unpick (ψ := ψ) hwB hndb hltb (hlb ▸ hc : c ∈ legIndices (idxb.map fun i => legsB.getD i [])) hfb
  rw [hla] at u2
  rw [hlb] at v2
  rw [u2, v2, sA.2.2 _ u1, sB.2.2 _ v1]

end
end Verif
