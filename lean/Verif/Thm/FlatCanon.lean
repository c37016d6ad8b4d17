import Verif.Proof.FlatFactor
import Verif.Proof.FunctorProd
import Verif.Thm.Flat
import Verif.Thm.CanonQR

/-!
Property C69: factorisations of flat tensors are those of block tensors.
-/

set_option linter.unusedSectionVars false

namespace Verif
open Flat
variable {C Q K V : Type} [DecidableEq C] [Zero C] [DecidableEq Q] [AddCommGroup Q] [CommRing K]

/-- C69: the two factors of the left QR factorisation of a flat tensor are the ones of the block tensor.  The blocks of the orthogonal
factor keep the order of the tensor. -/
theorem C69_left_qr (dec : C → Q) (qr : Arr K → Arr K × Arr K) (hq : Factorises qr) (F : Flat C K) (hF : F.WellFormed)
    (hp : F.ProperBlocks) (hd : F.DistinctCodes dec) :
    (F.leftCanonicalize qr).1.WellFormed ∧ (F.leftCanonicalize qr).2.WellFormed ∧
    SameUpToOrder (toSparse dec (F.leftCanonicalize qr).1) (SpT.leftCanonicalize qr (toSparse dec F)).1 ∧
    SameBlocks (toSparse dec (F.leftCanonicalize qr).2) (SpT.leftCanonicalize qr (toSparse dec F)).2 := by
  obtain ⟨l, hch, rfl⟩ := exists_pack hF
  have hsh : ∀ g ∈ collectLast (pack l).qs, ∃ k, (qr ((pack l).matRows g.2)).1.shape =
      [(g.2.map fun i => ((pack l).shs.getD i []).dropLast.prod).sum, k] ∧ (qr ((pack l).matRows g.2)).2.shape.getD 0 0 = k := by
    intro g hg
    obtain ⟨hne, hv⟩ := collectLast_spec hg
    obtain ⟨c, hc, hm, hs⟩ := matRows_shape hch hp hne hv
    exact ⟨_, hq.left _ _ _ hs hm hc, by rw [hq.right _ _ _ hs hm hc]; rfl⟩
  have hps : ∀ g ∈ collectLast (pack l).qs, ((pack l).splitRows g.2 (qr ((pack l).matRows g.2)).1).map Arr.shape =
      g.2.map fun i => [((pack l).shs.getD i []).dropLast.prod, (qr ((pack l).matRows g.2)).2.shape.getD 0 0] := by
    intro g hg
    obtain ⟨k, h1, h2⟩ := hsh g hg
    rw [h2]
    exact splitRows_shapes (collectLast_spec hg).1 _ k h1
  obtain ⟨-, s2, s3, s4⟩ := scattered_same (nf := fun k x => x.dropLast ++ [k]) (k := fun g => (qr ((pack l).matRows g.2)).2.shape.getD 0 0)
    (ps := fun g => (pack l).splitRows g.2 (qr ((pack l).matRows g.2)).1) dec (collectLast_perm (l := l))
    (fun g hg => by simpa using congrArg List.length (hps g hg))
    (fun g hg p hp' => by
      rw [zip_map_eq (hps g hg) p hp', pack_shs_getD]
      simp)
  obtain ⟨r1, r2⟩ := sameBlocks_list dec (collectLast (pack l).qs) (fun g => [g.1, g.1]) (fun g => (qr ((pack l).matRows g.2)).2)
    (fun g => (qr ((pack l).matRows g.2)).2.shape) (fun g _ => rfl)
  have hm : ∀ g ∈ collectLast (pack l).qs, (pack l).matRows g.2 = stackLeft ((g.2.map (blk dec l)).map Prod.snd) := by
    intro g hg
    rw [matRows_eq (dec := dec) hch hp (collectLast_spec hg).2, List.map_map]
    rfl
  refine ⟨s3, r1, ⟨_, s4, ?_⟩, ?_⟩
  · unfold SpT.leftCanonicalize
    simp only
    rw [groups_last hch hp hd, List.flatMap_map]
    refine SameBlocks.of_eq s2 ?_
    apply List.flatMap_congr
    intro g hg
    simp only
    rw [← hm g hg]
    unfold leftPieces splitRows
    simp only [List.map_map, Function.comp_def, blk, Arr.ofList, pack_shs_getD]
  · unfold SpT.leftCanonicalize
    simp only
    rw [groups_last hch hp hd, List.map_map]
    refine SameBlocks.of_eq r2 ?_
    apply List.map_congr_left
    intro g hg
    simp only [Function.comp]
    rw [← hm g hg]
    rfl

/-- C69: the same for the right QR factorisation. -/
theorem C69_right_qr (dec : C → Q) (qr : Arr K → Arr K × Arr K) (hq : Factorises qr) (F : Flat C K) (hF : F.WellFormed)
    (hp : F.ProperBlocks) (hd : F.DistinctCodes dec) :
    (F.rightCanonicalize qr).1.WellFormed ∧ (F.rightCanonicalize qr).2.WellFormed ∧
    SameBlocks (toSparse dec (F.rightCanonicalize qr).1) (SpT.rightCanonicalize qr (toSparse dec F)).1 ∧
    SameUpToOrder (toSparse dec (F.rightCanonicalize qr).2) (SpT.rightCanonicalize qr (toSparse dec F)).2 := by
  obtain ⟨l, hch, rfl⟩ := exists_pack hF
  have hsh : ∀ g ∈ collectFirst (pack l).qs, ∃ k c, (qr ((pack l).matRowsT g.2)).1.shape =
      [(g.2.map fun i => ((pack l).shs.getD i []).tail.prod).sum, k] ∧ (qr ((pack l).matRowsT g.2)).2.shape = [k, c] := by
    intro g hg
    obtain ⟨hne, hv⟩ := collectFirst_spec hg
    obtain ⟨c, hc, hm, hs⟩ := matRowsT_shape hch hp hne hv
    exact ⟨_, _, hq.left _ _ _ hs hm hc, hq.right _ _ _ hs hm hc⟩
  have hps : ∀ g ∈ collectFirst (pack l).qs,
      (((pack l).splitTail 0 g.2 (qr ((pack l).matRowsT g.2)).1).map fun p => p.transpose [1, 0]).map Arr.shape =
      g.2.map fun i => [(qr ((pack l).matRowsT g.2)).2.shape.getD 0 0, ((pack l).shs.getD i []).tail.prod] := by
    intro g hg
    obtain ⟨k, c, h1, h2⟩ := hsh g hg
    rw [h2]
    have := congrArg (List.map (pick [1, 0])) (splitTail0_shapes (collectFirst_spec hg).1 _ k h1)
    rw [List.map_map, List.map_map] at this
    rw [List.map_map]
    exact this
  obtain ⟨-, s2, s3, s4⟩ := scattered_same (nf := fun k x => k :: x.tail) (k := fun g => (qr ((pack l).matRowsT g.2)).2.shape.getD 0 0)
    (ps := fun g => ((pack l).splitTail 0 g.2 (qr ((pack l).matRowsT g.2)).1).map fun p => p.transpose [1, 0]) dec (collectFirst_perm (l := l))
    (fun g hg => by simpa using congrArg List.length (hps g hg))
    (fun g hg p hp' => by
      rw [zip_map_eq (hps g hg) p hp', pack_shs_getD]
      simp)
  obtain ⟨r1, r2⟩ := sameBlocks_list dec (collectFirst (pack l).qs) (fun g => [g.1, g.1])
    (fun g => (qr ((pack l).matRowsT g.2)).2.transpose [1, 0])
    (fun g => (qr ((pack l).matRowsT g.2)).2.shape.reverse) (fun g hg => by
      obtain ⟨k, c, -, h2⟩ := hsh g hg
      simp only [Arr.transpose]
      rw [h2]; rfl)
  have hm : ∀ g ∈ collectFirst (pack l).qs, (pack l).matRowsT g.2 = stackRightT ((g.2.map (blk dec l)).map Prod.snd) := by
    intro g hg
    rw [matRowsT_eq (dec := dec) hch hp (collectFirst_spec hg).2, List.map_map]
    rfl
  refine ⟨r1, s3, ?_, ⟨_, s4, ?_⟩⟩
  · unfold SpT.rightCanonicalize
    simp only
    rw [groups_first hch hp hd, List.map_map]
    refine SameBlocks.of_eq r2 ?_
    apply List.map_congr_left
    intro g hg
    simp only [Function.comp]
    rw [← hm g hg]
    rfl
  · unfold SpT.rightCanonicalize
    simp only
    rw [groups_first hch hp hd, List.flatMap_map]
    refine SameBlocks.of_eq s2 ?_
    apply List.flatMap_congr
    intro g hg
    simp only
    rw [← hm g hg]
    unfold rightPiecesT splitTail
    simp only [List.map_map, Function.comp_def, blk, Arr.ofList, pack_shs_getD, List.zipWith_map_left]

/-- C69: the three factors of the left singular value decomposition of a flat tensor are the ones of the block tensor, in the same order of
blocks, and the returned list says where the blocks come from. -/
theorem C69_left_svd [Zero V] (dec : C → Q) (c : V → K) (svd : Arr K → Arr K × Arr V × Arr K) (hq : IsSvd c svd) (F : Flat C K) (hF : F.WellFormed)
    (hp : F.ProperBlocks) (hd : F.DistinctCodes dec) :
    (F.leftSvd svd).1.WellFormed ∧ (F.leftSvd svd).2.1.WellFormed ∧ (F.leftSvd svd).2.2.1.WellFormed ∧
    SameBlocks (toSparse dec (F.leftSvd svd).1) (SpT.leftSvd svd (toSparse dec F)).1 ∧
    SameBlocks (toSparse dec (F.leftSvd svd).2.1) (SpT.leftSvd svd (toSparse dec F)).2.1 ∧
    SameBlocks (toSparse dec (F.leftSvd svd).2.2.1) (SpT.leftSvd svd (toSparse dec F)).2.2 ∧
    (F.leftSvd svd).2.2.2.Perm (List.range F.qs.length) ∧ (F.leftSvd svd).1.qs = (F.leftSvd svd).2.2.2.map fun i => F.qs.getD i [] := by
  obtain ⟨l, hch, rfl⟩ := exists_pack hF
  have hsh : ∀ g ∈ collectLast (pack l).qs, ∃ k, (svd ((pack l).matRows g.2)).1.shape =
      [(g.2.map fun i => ((pack l).shs.getD i []).dropLast.prod).sum, k] ∧ (svd ((pack l).matRows g.2)).2.1.shape = [k] := by
    intro g hg
    obtain ⟨hne, hv⟩ := collectLast_spec hg
    obtain ⟨c, hc, hm, hs⟩ := matRows_shape hch hp hne hv
    exact ⟨_, hq.left _ _ _ hs hm hc, hq.values _ _ _ hs hm hc⟩
  have hps : ∀ g ∈ collectLast (pack l).qs, ((pack l).splitRows g.2 (svd ((pack l).matRows g.2)).1).map Arr.shape =
      g.2.map fun i => [((pack l).shs.getD i []).dropLast.prod, (svd ((pack l).matRows g.2)).1.shape.getLastD 0] := by
    intro g hg
    obtain ⟨k, h1, h2⟩ := hsh g hg
    rw [show (svd ((pack l).matRows g.2)).1.shape.getLastD 0 = k by rw [h1]; rfl]
    exact splitRows_shapes (collectLast_spec hg).1 _ k h1
  obtain ⟨s1, s2, -, -⟩ := scattered_same (nf := fun k x => x.dropLast ++ [k]) (k := fun g => (svd ((pack l).matRows g.2)).1.shape.getLastD 0)
    (ps := fun g => (pack l).splitRows g.2 (svd ((pack l).matRows g.2)).1) dec (collectLast_perm (l := l))
    (fun g hg => by simpa using congrArg List.length (hps g hg))
    (fun g hg p hp' => by
      rw [zip_map_eq (hps g hg) p hp', pack_shs_getD]
      simp)
  obtain ⟨v1, v2⟩ := sameBlocks_list dec (collectLast (pack l).qs) (fun g => [g.1]) (fun g => (svd ((pack l).matRows g.2)).2.1)
    (fun g => [(svd ((pack l).matRows g.2)).2.1.shape.getD 0 0]) (fun g hg => by
      obtain ⟨k, -, h2⟩ := hsh g hg
      rw [h2]; rfl)
  obtain ⟨r1, r2⟩ := sameBlocks_list dec (collectLast (pack l).qs) (fun g => [g.1, g.1]) (fun g => (svd ((pack l).matRows g.2)).2.2)
    (fun g => (svd ((pack l).matRows g.2)).2.2.shape) (fun g _ => rfl)
  have hm : ∀ g ∈ collectLast (pack l).qs, (pack l).matRows g.2 = stackLeft ((g.2.map (blk dec l)).map Prod.snd) := by
    intro g hg
    rw [matRows_eq (dec := dec) hch hp (collectLast_spec hg).2, List.map_map]
    rfl
  refine ⟨s1, v1, r1, ?_, ?_, ?_, ?_, rfl⟩
  · unfold SpT.leftSvd
    simp only
    rw [groups_last hch hp hd, List.flatMap_map]
    refine SameBlocks.of_eq s2 ?_
    apply List.flatMap_congr
    intro g hg
    obtain ⟨k, h1, h2⟩ := hsh g hg
    have e : (svd ((pack l).matRows g.2)).2.1.shape.getD 0 0 = (svd ((pack l).matRows g.2)).1.shape.getLastD 0 := by rw [h1, h2]; rfl
    simp only
    rw [← hm g hg, e]
    unfold leftPieces splitRows
    simp only [List.map_map, Function.comp_def, blk, Arr.ofList, pack_shs_getD]
  · unfold SpT.leftSvd
    simp only
    rw [groups_last hch hp hd, List.map_map]
    refine SameBlocks.of_eq v2 ?_
    apply List.map_congr_left
    intro g hg
    simp only [Function.comp]
    rw [← hm g hg]
    rfl
  · unfold SpT.leftSvd
    simp only
    rw [groups_last hch hp hd, List.map_map]
    refine SameBlocks.of_eq r2 ?_
    apply List.map_congr_left
    intro g hg
    simp only [Function.comp]
    rw [← hm g hg]
    rfl
  · have := collectLast_perm (l := l)
    rwa [show l.length = (pack l).qs.length by simp [pack]] at this

/-- C69: the same for the right singular value decomposition. -/
theorem C69_right_svd [Zero V] (dec : C → Q) (c : V → K) (svd : Arr K → Arr K × Arr V × Arr K) (hq : IsSvd c svd) (F : Flat C K) (hF : F.WellFormed)
    (hp : F.ProperBlocks) (hd : F.DistinctCodes dec) :
    (F.rightSvd svd).1.WellFormed ∧ (F.rightSvd svd).2.1.WellFormed ∧ (F.rightSvd svd).2.2.1.WellFormed ∧
    SameBlocks (toSparse dec (F.rightSvd svd).1) (SpT.rightSvd svd (toSparse dec F)).1 ∧
    SameBlocks (toSparse dec (F.rightSvd svd).2.1) (SpT.rightSvd svd (toSparse dec F)).2.1 ∧
    SameBlocks (toSparse dec (F.rightSvd svd).2.2.1) (SpT.rightSvd svd (toSparse dec F)).2.2 ∧
    (F.rightSvd svd).2.2.2.Perm (List.range F.qs.length) ∧ (F.rightSvd svd).2.2.1.qs = (F.rightSvd svd).2.2.2.map fun i => F.qs.getD i [] := by
  obtain ⟨l, hch, rfl⟩ := exists_pack hF
  have hsh : ∀ g ∈ collectFirst (pack l).qs, ∃ k, (svd ((pack l).matCols g.2)).2.2.shape =
      [k, (g.2.map fun i => ((pack l).shs.getD i []).tail.prod).sum] ∧ (svd ((pack l).matCols g.2)).2.1.shape = [k] := by
    intro g hg
    obtain ⟨hne, hv⟩ := collectFirst_spec hg
    obtain ⟨c, hc, hm, hs⟩ := matCols_shape hch hp hne hv
    exact ⟨_, hq.right _ _ _ hs hc hm, hq.values _ _ _ hs hc hm⟩
  have hps : ∀ g ∈ collectFirst (pack l).qs, ((pack l).splitTail 1 g.2 (svd ((pack l).matCols g.2)).2.2).map Arr.shape =
      g.2.map fun i => [(svd ((pack l).matCols g.2)).2.2.shape.getD 0 0, ((pack l).shs.getD i []).tail.prod] := by
    intro g hg
    obtain ⟨k, h1, h2⟩ := hsh g hg
    rw [show (svd ((pack l).matCols g.2)).2.2.shape.getD 0 0 = k by rw [h1]; rfl]
    exact splitTail1_shapes (collectFirst_spec hg).1 _ k h1
  obtain ⟨s1, s2, -, -⟩ := scattered_same (nf := fun k x => k :: x.tail) (k := fun g => (svd ((pack l).matCols g.2)).2.2.shape.getD 0 0)
    (ps := fun g => (pack l).splitTail 1 g.2 (svd ((pack l).matCols g.2)).2.2) dec (collectFirst_perm (l := l))
    (fun g hg => by simpa using congrArg List.length (hps g hg))
    (fun g hg p hp' => by
      rw [zip_map_eq (hps g hg) p hp', pack_shs_getD]
      simp)
  obtain ⟨v1, v2⟩ := sameBlocks_list dec (collectFirst (pack l).qs) (fun g => [g.1]) (fun g => (svd ((pack l).matCols g.2)).2.1)
    (fun g => [(svd ((pack l).matCols g.2)).2.1.shape.getD 0 0]) (fun g hg => by
      obtain ⟨k, -, h2⟩ := hsh g hg
      rw [h2]; rfl)
  obtain ⟨r1, r2⟩ := sameBlocks_list dec (collectFirst (pack l).qs) (fun g => [g.1, g.1]) (fun g => (svd ((pack l).matCols g.2)).1)
    (fun g => (svd ((pack l).matCols g.2)).1.shape) (fun g _ => rfl)
  have hm : ∀ g ∈ collectFirst (pack l).qs, (pack l).matCols g.2 = stackRight ((g.2.map (blk dec l)).map Prod.snd) := by
    intro g hg
    rw [matCols_eq (dec := dec) hch hp (collectFirst_spec hg).2, List.map_map]
    rfl
  refine ⟨r1, v1, s1, ?_, ?_, ?_, ?_, rfl⟩
  · unfold SpT.rightSvd
    simp only
    rw [groups_first hch hp hd, List.map_map]
    refine SameBlocks.of_eq r2 ?_
    apply List.map_congr_left
    intro g hg
    simp only [Function.comp]
    rw [← hm g hg]
    rfl
  · unfold SpT.rightSvd
    simp only
    rw [groups_first hch hp hd, List.map_map]
    refine SameBlocks.of_eq v2 ?_
    apply List.map_congr_left
    intro g hg
    simp only [Function.comp]
    rw [← hm g hg]
    rfl
  · unfold SpT.rightSvd
    simp only
    rw [groups_first hch hp hd, List.flatMap_map]
    refine SameBlocks.of_eq s2 ?_
    apply List.flatMap_congr
    intro g hg
    simp only
    rw [← hm g hg]
    unfold rightPieces splitTail
    simp only [List.map_map, Function.comp_def, blk, Arr.ofList, pack_shs_getD]
  · have := collectFirst_perm (l := l)
    rwa [show l.length = (pack l).qs.length by simp [pack]] at this

/-- C69: tensors whose blocks agree up to order have the same entries. -/
theorem C69_same_entries {S T : SpT Q K} (h : SameUpToOrder S T) (x : List (Q × Nat)) : entry S x = entry T x := by
  obtain ⟨S', h1, h2⟩ := h
  rw [← sameBlocks_entry h2 x]
  exact ((h1.map _).sum_eq).symm

/-- C69: the factors of the left QR factorisation of a flat tensor multiply to the tensor, and the first one is an isometry. -/
theorem C69_left_product (dec : C → Q) (qr : Arr K → Arr K × Arr K) (hq : Factorises qr) (F : Flat C K) (hF : F.WellFormed)
    (hp : F.ProperBlocks) (hd : F.DistinctCodes dec) (legs : List (BondInfo Q)) (r : BondInfo Q)
    (hT : Conforms (legs ++ [r]) (toSparse dec F)) (hlegs : ∀ b ∈ legs, GoodBond b) (hr : GoodBond r) :
    ∃ m, GoodBond m ∧
      (∀ x y, x.length = legs.length → ((legBasis m).map fun z => entry (toSparse dec (F.leftCanonicalize qr).1) (x ++ [z]) *
        entry (toSparse dec (F.leftCanonicalize qr).2) [z, y]).sum = entry (toSparse dec F) (x ++ [y])) ∧
      ∀ [StarRing K], OrthonormalColumns qr → UniqueLabels (toSparse dec F) → HasCharge (legs.length + 1) (toSparse dec F) →
        LeftIsometric legs m (toSparse dec (F.leftCanonicalize qr).1) := by
  obtain ⟨-, -, h1, h2⟩ := C69_left_qr dec qr hq F hF hp hd
  obtain ⟨m, hm, -, -, -, -, -, h3, h4⟩ := C21_left qr hq legs r (toSparse dec F) hT hlegs hr
  refine ⟨m, hm, ?_, ?_⟩
  · intro x y hx
    simp only [C69_same_entries h1, sameBlocks_entry h2]
    exact h3 x y hx
  · intro _ ho hu hc z hz z' hz'
    simp only [C69_same_entries h1]
    exact h4 ho hu hc z hz z' hz'

/-- C69: the same on the right. -/
theorem C69_right_product (dec : C → Q) (qr : Arr K → Arr K × Arr K) (hq : Factorises qr) (F : Flat C K) (hF : F.WellFormed)
    (hp : F.ProperBlocks) (hd : F.DistinctCodes dec) (legs : List (BondInfo Q)) (l : BondInfo Q)
    (hT : Conforms (l :: legs) (toSparse dec F)) (hlegs : ∀ b ∈ legs, GoodBond b) (hl : GoodBond l) :
    ∃ m, GoodBond m ∧
      (∀ x y, x.length = legs.length → ((legBasis m).map fun z => entry (toSparse dec (F.rightCanonicalize qr).1) [y, z] *
        entry (toSparse dec (F.rightCanonicalize qr).2) (z :: x)).sum = entry (toSparse dec F) (y :: x)) ∧
      ∀ [StarRing K], OrthonormalColumns qr → UniqueLabels (toSparse dec F) → HasCharge (legs.length + 1) (toSparse dec F) →
        RightIsometric m legs (toSparse dec (F.rightCanonicalize qr).2) := by
  obtain ⟨-, -, h1, h2⟩ := C69_right_qr dec qr hq F hF hp hd
  obtain ⟨m, hm, -, -, -, -, -, h3, h4⟩ := C21_right qr hq legs l (toSparse dec F) hT hlegs hl
  refine ⟨m, hm, ?_, ?_⟩
  · intro x y hx
    simp only [sameBlocks_entry h1, C69_same_entries h2]
    exact h3 x y hx
  · intro _ ho hu hc z hz z' hz'
    simp only [C69_same_entries h2]
    exact h4 ho hu hc z hz z' hz'

/-! ### A concrete case -/

/-- Three blocks; the first and the last one share the last label. -/
def flatQr : Flat Nat Int := mk' [[1, 2, 7], [0, 1, 3], [2, 1, 7]] [[1, 2, 2], [2, 1, 1], [1, 1, 2]] [1, 2, 3, 4, 5, 6, 7, 8]

theorem flatQr_ok : flatQr.WellFormed ∧ flatQr.ProperBlocks ∧ flatQr.DistinctCodes (fun n : Nat => (n : Int)) := by
  refine ⟨by decide, ⟨by decide, by decide⟩, ?_⟩
  intro q _ q' _ c _ c' _ h
  simpa using h

/-- The hypotheses of `C69_left_qr` hold for these blocks, and the orthogonal factor keeps their order, while the block version
moves the last block to the second place. -/
example : SameUpToOrder (toSparse (fun n : Nat => (n : Int)) (flatQr.leftCanonicalize plainQR).1)
      (SpT.leftCanonicalize plainQR (toSparse (fun n : Nat => (n : Int)) flatQr)).1 ∧
    (flatQr.leftCanonicalize plainQR).1.qs = [[1, 2, 7], [0, 1, 3], [2, 1, 7]] ∧
    (flatQr.leftCanonicalize plainQR).1.shs = [[1, 2, 2], [2, 1, 1], [1, 1, 2]] ∧
    (SpT.leftCanonicalize plainQR (toSparse (fun n : Nat => (n : Int)) flatQr)).1.map Prod.fst = [[1, 2, 7], [2, 1, 7], [0, 1, 3]] :=
  ⟨(C69_left_qr _ plainQR plainQR_factorises flatQr flatQr_ok.1 flatQr_ok.2.1 flatQr_ok.2.2).2.2.1, by decide +kernel, by decide +kernel,
    by decide +kernel⟩

end Verif
