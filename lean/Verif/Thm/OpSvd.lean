import Verif.Model.OpSvd
import Verif.Proof.OpCanonRight
import Verif.Thm.Compress
import Verif.Thm.CompressSvd

/-!
C85: the singular value decomposition of an operator site tensor.
-/

set_option linter.unusedSectionVars false

namespace Verif
open Tag
namespace Tag
section
variable {Q K V : Type} [DecidableEq Q] [AddCommGroup Q]

theorem valueBond_tag (s : SpT Q V) : valueBond (s.map fun b => (b.1.map inj, b.2)) = bond (valueBond s) := by
  unfold valueBond bond
  rw [List.map_map, List.map_map]
  refine List.map_congr_left fun b _ => ?_
  obtain ⟨qs, a⟩ := b
  cases qs <;> rfl

theorem svd_tag [Zero K] (svd : Arr K → Arr K × Arr V × Arr K) (A : OpT Q K) (h : ∀ x ∈ A.taggedBlocks, 2 ≤ x.2.1.length) :
    SpT.leftSvd svd (A.taggedBlocks.map block) =
      ((OpT.svdRows svd A.rowGroups).map block, (OpT.leftSvd svd A).2.1.map (fun b => (b.1.map inj, b.2)), (OpT.leftSvd svd A).2.2.map fun b => (b.1.map inj, b.2)) := by
  have hg := groupBy_map (fun x : Bool × (List Q × Arr K) => x.2.1.getLastD 0) (fun b : List (Int × Q) × Arr K => b.1.getLastD 0) block inj
    (fun _ _ => inj_inj) A.taggedBlocks (fun x hx => labels_last (h x hx))
  have hs : ∀ l : List (Bool × (List Q × Arr K)), (l.map block).map Prod.snd = l.map fun x => x.2.2 := by
    intro l; rw [List.map_map]; rfl
  unfold SpT.leftSvd
  rw [hg]
  refine Prod.ext ?_ (Prod.ext ?_ ?_)
  · show List.flatMap _ _ = _
    unfold OpT.svdRows OpT.rowGroups
    rw [List.flatMap_map, List.map_flatMap]
    refine congrArg (fun f => List.flatMap f _) (funext fun g => ?_)
    dsimp only
    rw [hs, zip_tag]
  · show List.map _ _ = _
    unfold OpT.leftSvd OpT.rowGroups
    dsimp only
    rw [List.map_map, List.map_map]
    refine List.map_congr_left fun g _ => ?_
    show ([inj g.1], (svd (stackLeft ((g.2.map block).map Prod.snd))).2.1) = _
    rw [hs]
    rfl
  · show List.map _ _ = _
    unfold OpT.leftSvd OpT.rowGroups
    dsimp only
    rw [List.map_map, List.map_map]
    refine List.map_congr_left fun g _ => ?_
    show ([inj g.1, inj g.1], (svd (stackLeft ((g.2.map block).map Prod.snd))).2.2) = _
    rw [hs]
    rfl

theorem svd_tag2 [Zero K] (svd : Arr K → Arr K × Arr V × Arr K) (A : OpT Q K) (h : ∀ x ∈ A.taggedBlocks, 2 ≤ x.2.1.length) :
    SpT.rightSvd svd (A.taggedBlocks.map block2) =
      ((OpT.rightSvd svd A).1.map (fun b => (b.1.map inj, b.2)), (OpT.rightSvd svd A).2.1.map (fun b => (b.1.map inj, b.2)), (OpT.svdCols svd A.colGroups).map block2) := by
  have hg := groupBy_map (fun x : Bool × (List Q × Arr K) => x.2.1.getD 0 0) (fun b : List (Int × Q) × Arr K => b.1.getD 0 0) block2 inj
    (fun _ _ => inj_inj) A.taggedBlocks (fun x hx => by
      have := h x hx
      obtain ⟨t, qs, a⟩ := x
      cases qs with
      | nil => simp at this
      | cons q qs => rfl)
  have hs : ∀ l : List (Bool × (List Q × Arr K)), (l.map block2).map Prod.snd = l.map fun x => x.2.2 := by
    intro l; rw [List.map_map]; rfl
  unfold SpT.rightSvd
  rw [hg]
  refine Prod.ext ?_ (Prod.ext ?_ ?_)
  · show List.map _ _ = _
    unfold OpT.rightSvd OpT.colGroups
    dsimp only
    rw [List.map_map, List.map_map]
    refine List.map_congr_left fun g _ => ?_
    show ([inj g.1, inj g.1], (svd (stackRight ((g.2.map block2).map Prod.snd))).1) = _
    rw [hs]
    rfl
  · show List.map _ _ = _
    unfold OpT.rightSvd OpT.colGroups
    dsimp only
    rw [List.map_map, List.map_map]
    refine List.map_congr_left fun g _ => ?_
    show ([inj g.1], (svd (stackRight ((g.2.map block2).map Prod.snd))).2.1) = _
    rw [hs]
    rfl
  · show List.flatMap _ _ = _
    unfold OpT.svdCols OpT.colGroups
    rw [List.flatMap_map, List.map_flatMap]
    refine congrArg (fun f => List.flatMap f _) (funext fun g => ?_)
    rw [hs, zip_tag2]

end
end Tag

section
variable {Q K V : Type} [DecidableEq Q] [AddCommGroup Q] [CommRing K] [CommRing V] [LinearOrder V] [IsStrictOrderedRing V]

/-- **C85.** `left_svd` of an operator site tensor: both parts are their left factor times the one vector of values times the one right factor. -/
theorem C85_left (c : V → K) (svd : Arr K → Arr K × Arr V × Arr K) (hsvd : IsSvd c svd) (l : BondInfo Q) (legs : List (BondInfo Q)) (r : BondInfo Q) (A : OpT Q K)
    (ho : Conforms (l :: legs ++ [r]) A.odd) (he : Conforms (l :: legs ++ [r]) A.even) (hg : ∀ b ∈ l :: legs ++ [r], GoodBond b)
    (u : OpT Q K) (s : SpT Q V) (vh : SpT Q K) (hf : OpT.leftSvd svd A = (u, s, vh)) :
    (∀ q, Counter.count (valueBond s) q ≤ Counter.count r q) ∧
      Conforms (l :: legs ++ [valueBond s]) u.odd ∧ Conforms (l :: legs ++ [valueBond s]) u.even ∧ Conforms [valueBond s, r] vh ∧
      ∀ x y, x.length = legs.length + 1 →
        ((legBasis (valueBond s)).map fun z => entry u.odd (x ++ [z]) * c (entry s [z]) * entry vh [z, y]).sum = entry A.odd (x ++ [y]) ∧
        ((legBasis (valueBond s)).map fun z => entry u.even (x ++ [z]) * c (entry s [z]) * entry vh [z, y]).sum = entry A.even (x ++ [y]) := by
  have hmem : ∀ x ∈ A.taggedBlocks, IsCombination (l :: legs ++ [r]) x.2.1 x.2.2.shape := by
    intro x hx
    rcases List.mem_append.1 hx with hx | hx <;> obtain ⟨b, hb, rfl⟩ := List.mem_map.1 hx
    · exact ho b hb
    · exact he b hb
  have hlen : ∀ x ∈ A.taggedBlocks, 2 ≤ x.2.1.length := by
    intro x hx
    rw [(hmem x hx).lengths.1]
    simp
  have hT : Conforms ((both l :: legs.map bond) ++ [bond r]) (A.taggedBlocks.map block) := by
    intro b hb
    obtain ⟨x, hx, rfl⟩ := List.mem_map.1 hb
    have := (isCombination_tag (t := x.1)).2 (show IsCombination (l :: (legs ++ [r])) x.2.1 x.2.2.shape from hmem x hx)
    rw [List.map_append] at this
    exact this
  have hgl : ∀ b ∈ both l :: legs.map bond, GoodBond b := by
    intro b hb
    rcases List.mem_cons.1 hb with rfl | hb
    · exact good_both (hg l (by simp))
    · obtain ⟨c, hc, rfl⟩ := List.mem_map.1 hb
      exact good_bond.2 (hg c (by simp [hc]))
  obtain ⟨hB, hle, -⟩ := C50_left_svd c svd hsvd _ _ _ hT hgl (good_bond.2 (hg r (by simp)))
  rw [svd_tag svd A hlen, hf] at hB hle
  have f3 := hB.left
  have f4 := hB.right
  have f5 := hB.product
  dsimp only at hle f3 f4 f5
  rw [valueBond_tag] at hle f3 f4 f5
  have hu : u = ⟨((OpT.svdRows svd A.rowGroups).filter fun x => x.1 = true).map Prod.snd, ((OpT.svdRows svd A.rowGroups).filter fun x => x.1 = false).map Prod.snd⟩ :=
    (congrArg Prod.fst hf).symm
  have hA1 : (A.taggedBlocks.filter fun x => x.1 = true).map Prod.snd = A.odd := by
    simp [OpT.taggedBlocks, List.filter_map, Function.comp_def]
  have hA0 : (A.taggedBlocks.filter fun x => x.1 = false).map Prod.snd = A.even := by
    simp [OpT.taggedBlocks, List.filter_map, Function.comp_def]
  have hconf : ∀ t, Conforms (l :: legs ++ [valueBond s]) (((OpT.svdRows svd A.rowGroups).filter fun x => x.1 = t).map Prod.snd) := by
    intro t b hb
    obtain ⟨x, hx, rfl⟩ := List.mem_map.1 hb
    have h1 := f3 (block x) (List.mem_map.2 ⟨x, (List.mem_filter.1 hx).1, rfl⟩)
    refine (isCombination_tag (t := x.1) (legs := legs ++ [valueBond s])).1 ?_
    rw [List.map_append]
    exact h1
  have hprod : ∀ t (x : List (Q × Nat)) y, x.length = legs.length + 1 →
      ((legBasis (valueBond s)).map fun z => entry (((OpT.svdRows svd A.rowGroups).filter fun s => s.1 = t).map Prod.snd) (x ++ [z]) * c (entry s [z]) * entry vh [z, y]).sum =
        entry ((A.taggedBlocks.filter fun s => s.1 = t).map Prod.snd) (x ++ [y]) := by
    intro t x y hx
    have hne : x ≠ [] := by rintro rfl; simp at hx
    have hxl : (index t x).length = (both l :: legs.map bond).length := by
      have := congrArg List.length (index_snd t x)
      simpa [hx] using this
    have h := f5 (index t x) [injz y] hxl rfl
    rw [legBasis_bond, List.map_map, ← index_append t hne, entry_tag _ _ _ (by simp)] at h
    rw [← h]
    refine congrArg List.sum (List.map_congr_left fun z _ => ?_)
    show _ = entry _ (index t x ++ [injz z]) * c (entry _ [injz z]) * entry _ [injz z, injz y]
    rw [← index_append t hne, entry_tag _ _ _ (by simp)]
    have e1 := entry_inj s [z]
    have e2 := entry_inj vh [z, y]
    simp only [List.map_cons, List.map_nil] at e1 e2
    rw [e1, e2]
  subst hu
  refine ⟨fun q => ?_, hconf true, hconf false, ?_, fun x y hx => ⟨?_, ?_⟩⟩
  · have := hle (inj q)
    unfold Counter.count at this ⊢
    rw [get_bond, get_bond] at this
    exact this
  · intro b hb
    have := f4 _ (List.mem_map.2 ⟨b, hb, rfl⟩)
    exact (isCombination_bond (legs := [valueBond s, r])).1 this
  · have := hprod true x y hx
    rw [hA1] at this
    exact this
  · have := hprod false x y hx
    rw [hA0] at this
    exact this

/-- **C85**, to the left: `right_svd` of an operator site tensor with at least two legs. -/
theorem C85_right (c : V → K) (svd : Arr K → Arr K × Arr V × Arr K) (hsvd : IsSvd c svd) (l k : BondInfo Q) (legs : List (BondInfo Q)) (A : OpT Q K)
    (ho : Conforms (l :: k :: legs) A.odd) (he : Conforms (l :: k :: legs) A.even) (hg : ∀ b ∈ l :: k :: legs, GoodBond b)
    (u : SpT Q K) (s : SpT Q V) (vh : OpT Q K) (hf : OpT.rightSvd svd A = (u, s, vh)) :
    (∀ q, Counter.count (valueBond s) q ≤ Counter.count l q) ∧
      Conforms [l, valueBond s] u ∧ Conforms (valueBond s :: k :: legs) vh.odd ∧ Conforms (valueBond s :: k :: legs) vh.even ∧
      ∀ x y, x.length = legs.length + 1 →
        ((legBasis (valueBond s)).map fun z => entry u [y, z] * c (entry s [z]) * entry vh.odd (z :: x)).sum = entry A.odd (y :: x) ∧
        ((legBasis (valueBond s)).map fun z => entry u [y, z] * c (entry s [z]) * entry vh.even (z :: x)).sum = entry A.even (y :: x) := by
  have hmem : ∀ x ∈ A.taggedBlocks, IsCombination (l :: k :: legs) x.2.1 x.2.2.shape := by
    intro x hx
    rcases List.mem_append.1 hx with hx | hx <;> obtain ⟨b, hb, rfl⟩ := List.mem_map.1 hx
    · exact ho b hb
    · exact he b hb
  have hlen : ∀ x ∈ A.taggedBlocks, 2 ≤ x.2.1.length := by
    intro x hx
    rw [(hmem x hx).lengths.1]
    simp
  have hT : Conforms (bond l :: (both k :: legs.map bond)) (A.taggedBlocks.map block2) := by
    intro b hb
    obtain ⟨x, hx, rfl⟩ := List.mem_map.1 hb
    exact (isCombination_tag2 (t := x.1)).2 (hmem x hx)
  have hgl : ∀ b ∈ both k :: legs.map bond, GoodBond b := by
    intro b hb
    rcases List.mem_cons.1 hb with rfl | hb
    · exact good_both (hg k (by simp))
    · obtain ⟨c, hc, rfl⟩ := List.mem_map.1 hb
      exact good_bond.2 (hg c (by simp [hc]))
  obtain ⟨hB, hle, -⟩ := C50_right_svd c svd hsvd _ _ _ hT hgl (good_bond.2 (hg l (by simp)))
  rw [svd_tag2 svd A hlen, hf] at hB hle
  have f3 := hB.right
  have f4 := hB.left
  have f5 := hB.product
  dsimp only at hle f3 f4 f5
  rw [valueBond_tag] at hle f3 f4 f5
  have hu : vh = ⟨((OpT.svdCols svd A.colGroups).filter fun x => x.1 = true).map Prod.snd, ((OpT.svdCols svd A.colGroups).filter fun x => x.1 = false).map Prod.snd⟩ :=
    (congrArg (fun p => p.2.2) hf).symm
  have hA1 : (A.taggedBlocks.filter fun x => x.1 = true).map Prod.snd = A.odd := by
    simp [OpT.taggedBlocks, List.filter_map, Function.comp_def]
  have hA0 : (A.taggedBlocks.filter fun x => x.1 = false).map Prod.snd = A.even := by
    simp [OpT.taggedBlocks, List.filter_map, Function.comp_def]
  have hconf : ∀ t, Conforms (valueBond s :: k :: legs) (((OpT.svdCols svd A.colGroups).filter fun x => x.1 = t).map Prod.snd) := by
    intro t b hb
    obtain ⟨x, hx, rfl⟩ := List.mem_map.1 hb
    exact (isCombination_tag2 (t := x.1)).1 (f3 (block2 x) (List.mem_map.2 ⟨x, (List.mem_filter.1 hx).1, rfl⟩))
  have hprod : ∀ t (x : List (Q × Nat)) y, x.length = legs.length + 1 →
      ((legBasis (valueBond s)).map fun z => entry u [y, z] * c (entry s [z]) * entry (((OpT.svdCols svd A.colGroups).filter fun s => s.1 = t).map Prod.snd) (z :: x)).sum =
        entry ((A.taggedBlocks.filter fun s => s.1 = t).map Prod.snd) (y :: x) := by
    intro t x y hx
    have hne : x ≠ [] := by rintro rfl; simp at hx
    have hxl : (index t x).length = (both k :: legs.map bond).length := by
      have := congrArg List.length (index_snd t x)
      simpa [hx] using this
    have h := f5 [injz y] (index t x) rfl hxl
    rw [legBasis_bond, List.map_map] at h
    rw [← entry_tag2 _ _ _ _ hne]
    refine Eq.trans ?_ h
    refine congrArg List.sum (List.map_congr_left fun z _ => ?_)
    show _ = entry _ [injz y, injz z] * c (entry _ [injz z]) * entry _ (injz z :: index t x)
    rw [entry_tag2 _ _ _ _ hne]
    have e1 := entry_inj s [z]
    have e2 := entry_inj u [y, z]
    simp only [List.map_cons, List.map_nil] at e1 e2
    rw [e1, e2]
  subst hu
  refine ⟨fun q => ?_, ?_, hconf true, hconf false, fun x y hx => ⟨?_, ?_⟩⟩
  · have := hle (inj q)
    unfold Counter.count at this ⊢
    rw [get_bond, get_bond] at this
    exact this
  · intro b hb
    have := f4 _ (List.mem_map.2 ⟨b, hb, rfl⟩)
    exact (isCombination_bond (legs := [l, valueBond s])).1 this
  · have := hprod true x y hx
    rw [hA1] at this
    exact this
  · have := hprod false x y hx
    rw [hA0] at this
    exact this

end

/-- A tensor with an odd and an even block in the same group, for both directions, and a routine that meets the contract. -/
example : ∃ (svd : Arr ℝ → Arr ℝ × Arr ℝ × Arr ℝ) (A : OpT Int ℝ), IsSvd (algebraMap ℝ ℝ) svd ∧
    Conforms ([(1, 2)] :: [[(0, 1)]] ++ [[(1, 2)]]) A.odd ∧ Conforms ([(1, 2)] :: [[(0, 1)]] ++ [[(1, 2)]]) A.even ∧
    (∀ b ∈ [(1, 2)] :: [[(0, 1)]] ++ [[((1 : Int), 2)]], GoodBond b) ∧
    (A.rowGroups.map fun g => g.2.length) = [2] ∧ (A.colGroups.map fun g => g.2.length) = [2] := by
  obtain ⟨svd, h1, _⟩ := C50_contract ℝ
  refine ⟨svd, ⟨[([1, 0, 1], ⟨[2, 1, 2], fun _ => 1⟩)], [([1, 0, 1], ⟨[2, 1, 2], fun _ => 2⟩)]⟩, h1, ?_, ?_, ?_, rfl, rfl⟩
  · intro b hb
    obtain rfl := List.mem_singleton.1 hb
    exact .cons rfl (.cons rfl (.cons rfl .nil))
  · intro b hb
    obtain rfl := List.mem_singleton.1 hb
    exact .cons rfl (.cons rfl (.cons rfl .nil))
  · unfold GoodBond Dict.WF
    decide

end Verif
