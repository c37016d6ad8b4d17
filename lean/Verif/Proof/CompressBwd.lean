import Verif.Proof.CompressFwd

/-! The compression from the last bond to the first one. -/

set_option linter.unusedSectionVars false

namespace Verif
section
variable {K α β : Type} [CommRing K] [StarRing K]

theorem ip_sum_right (J : List α) (W : List β) (f : α → K) (b : β → K) (B : β → α → K) :
    ip J f (fun j => (W.map fun w => b w * B w j).sum) = (W.map fun w => b w * ip J f (B w)).sum := by
  unfold ip
  rw [sum_map_congr' _ _ _ (fun j _ => by rw [← sum_map_mul_left'])]
  rw [sum_comm']
  apply sum_map_congr'
  intro w _
  rw [← sum_map_mul_left']
  apply sum_map_congr'
  intro j _
  ring

theorem ip_sum_left (J : List α) (W : List β) (g : α → K) (b : β → K) (B : β → α → K) :
    ip J (fun j => (W.map fun w => b w * B w j).sum) g = (W.map fun w => star (b w) * ip J (B w) g).sum := by
  rw [← ip_star, ip_sum_right, star_sum_list]
  apply sum_map_congr'
  intro w _
  rw [star_mul', ip_star]

theorem ip_add_left (J : List α) (f f' g : α → K) : ip J (fun j => f j + f' j) g = ip J f g + ip J f' g := by
  unfold ip
  rw [← sum_map_add']
  apply sum_map_congr'
  intro j _
  rw [star_add]
  ring

end

section
variable {Q K V : Type} [DecidableEq Q] [AddCommGroup Q] [CommRing K] [CommRing V] [LinearOrder V] [IsStrictOrderedRing V]

/-- Every site but the last one is an isometry to the right. -/
def LeftChain [StarRing K] : List (BondInfo Q) → List (List (BondInfo Q)) → List (SpT Q K) → Prop
  | l :: r :: bonds, ph :: phys, T :: T' :: ts => LeftIsometric (l :: ph) r T ∧ LeftChain (r :: bonds) phys (T' :: ts)
  | _, _, _ => True

theorem svdBackward_spec (c : V →+* K) (svd : Arr K → Arr K × Arr V × Arr K) (hsvd : IsSvd c svd) (o : TruncOpts V) (sqrt : V → V)
    (big : Arr K → Bool) (hbig : RemovesZeros big) {l r : BondInfo Q} {X : List (BondInfo Q)} {phys : List (List (BondInfo Q))} {T : SpT Q K}
    {ts : List (SpT Q K)} (h : OnBonds (l :: X ++ [r]) phys (T :: ts)) (hg : ∀ b ∈ l :: r :: X, GoodBond b)
    (hp : ∀ ph ∈ phys, ∀ b ∈ ph, GoodBond b) :
    ∃ X' N R errs, Mps.svdBackward c svd o sqrt big (T :: ts) = some (N :: R, errs) ∧ Compressed o l r phys (T :: ts) X (N :: R) X' errs ∧
      ∀ [StarRing K], (∀ v, star (c v) = c v) → SvdUnitary svd → (∀ V ∈ T :: ts, UniqueLabels V) →
        (∀ i < (T :: ts).length, HasCharge ((phys.getD i []).length + 2) ((T :: ts).getD i [])) → LeftChain (l :: X ++ [r]) phys (T :: ts) →
        UniqueLabels N ∧ HasCharge ((phys.getD 0 []).length + 2) N ∧ RightChain (X' ++ [r]) phys.tail R ∧
        (∀ z, ∀ p ∈ legIndices (phys.headD []), ∀ w ∈ legBasis ((X' ++ [r]).headD []), ip (cells phys.tail r)
          (fun j => chain (T :: ts) (X ++ [r]) z (p :: j.1) j.2 - chain (N :: R) (X' ++ [r]) z (p :: j.1) j.2)
          (fun j => chain R (X' ++ [r]).tail w j.1 j.2) = 0) ∧
        (o.eigenValues = false → chainDist l r phys (T :: ts) X (N :: R) X' = c errs.sum) := by
  induction ts generalizing l X phys T with
  | nil =>
    refine ⟨X, T, [], [], rfl, ⟨h, fun b hb => hg b (by simp [hb]), ?_, rfl, by simp, fun _ => ⟨by simp, fun _ _ _ _ => rfl⟩⟩, ?_⟩
    · intro _ b hb
      have := h.lengths.1
      have hX : X = [] := by
        cases X with
        | nil => rfl
        | cons => simp at this
      simp [hX] at hb
    · intro _ _ _ hu hq _
      refine ⟨hu T (by simp), hq 0 (by simp), ?_, ?_, ?_⟩
      · cases X with
        | nil => trivial
        | cons b X =>
          cases X <;> cases phys.tail <;> trivial
      · intro z p _ w _
        unfold ip
        simp
      · intro _
        unfold chainDist ip
        simp
  | cons T' ts ih =>
    obtain ⟨b, X1, ph, phys', rfl, rfl, hcT, hrest⟩ := onBonds_cons_inv h (by simp)
    have gb : GoodBond b := hg b (by simp)
    have gl : GoodBond l := hg l (by simp)
    have gr : GoodBond r := hg r (by simp)
    obtain ⟨X2, N, R, errs, hs, S, hiso⟩ := ih hrest (fun c hc => hg c (by simp at hc ⊢; tauto)) (fun c hc => hp c (by simp [hc]))
    obtain ⟨b2, X3, ph', phys2, e1, rfl, hcN, hrest2⟩ := onBonds_head S.on
    have gX : ∀ c ∈ X2 ++ [r], GoodBond c := by
      intro c hc
      rcases List.mem_append.1 hc with h | h
      · exact S.good c h
      · simp at h; subst h; exact gr
    have gb2 : GoodBond b2 := gX b2 (by rw [e1]; simp)
    have hlegs : ∀ c ∈ ph' ++ [b2], GoodBond c := by
      intro c hc
      rcases List.mem_append.1 hc with h | h
      · exact hp ph' (by simp) c h
      · simp at h; subst h; exact gb2
    have hB := blockSvd_right c svd hsvd (legs := ph' ++ [b2]) hcN hlegs gb
    obtain ⟨m, D, H⟩ := cut_ok c o sqrt big hbig hB
    generalize ht : SpT.truncateSvd o sqrt big (SpT.rightSvd svd N).1 (SpT.rightSvd svd N).2.1 (SpT.rightSvd svd N).2.2 = t at H
    obtain ⟨ls, hls⟩ := tensordotN_some t.l (SpT.diagOf c t.s) 1
    obtain ⟨cls, dls, els⟩ := values_right c H.values H.left (diagLabels_of (rightSvd_diag svd N) H.labelsL) H.good.1 hls
    obtain ⟨M, hM⟩ := tensordotN_some T ls 1
    obtain ⟨cM, uM, qM, eM⟩ := absorb_right (legs := l :: ph) dls cls hcT gb.1 hM
    have honQ : OnBonds (m :: X2 ++ [r]) (ph' :: phys2) (t.r :: R) := by
      rw [List.cons_append, e1]
      exact ⟨H.right, hrest2⟩
    -- the contribution of the dropped values
    let F : Q × Nat → List (List (Q × Nat)) × (Q × Nat) → K := fun z j => match j.1 with
      | p' :: ps => ((legBasis b2).map fun v => D [z] (p' ++ [v]) * chain R X3 v ps j.2).sum
      | [] => 0
    have hlN : ∀ x p p' ps y, p.length = ph.length → p'.length = ph'.length →
        chain (M :: t.r :: R) (m :: X2 ++ [r]) x (p :: p' :: ps) y =
          ((legBasis b).map fun z => entry T (x :: p ++ [z]) * (chain (N :: R) (X2 ++ [r]) z (p' :: ps) y - F z (p' :: ps, y))).sum := by
      intro x p p' ps y h1 h3
      have hz : ∀ z, ((legBasis m).map fun w => entry t.l [z, w] * c (entry t.s [w]) * chain (t.r :: R) (X2 ++ [r]) w (p' :: ps) y).sum =
          chain (N :: R) (X2 ++ [r]) z (p' :: ps) y - F z (p' :: ps, y) := by
        intro z
        rw [e1]
        simp only [chain, F]
        rw [sum_map_congr' _ _ _ (fun w _ => (sum_map_mul_left' (legBasis b2) _ _).symm), sum_comm' (legBasis m) (legBasis b2), eq_sub_iff_add_eq, ← sum_map_add']
        apply sum_map_congr'
        intro v _
        have := H.split [z] (p' ++ [v]) rfl (by simp [h3])
        rw [show z :: p' ++ [v] = [z] ++ (p' ++ [v]) from rfl, this, add_mul, ← sum_map_mul_right']
        congr 1
        apply sum_map_congr'
        intro w _
        simp only [List.nil_append, List.cons_append]
        ring
      show ((legBasis m).map fun w => entry M (x :: p ++ [w]) * chain (t.r :: R) (X2 ++ [r]) w (p' :: ps) y).sum = _
      rw [sum_map_congr' _ _ _ (fun w hw => by
        rw [show x :: p ++ [w] = (x :: p) ++ [w] from rfl, eM (x :: p) w (by simp [h1]), ← sum_map_mul_right'])]
      rw [sum_comm' (legBasis m) (legBasis b)]
      apply sum_map_congr'
      intro z _
      rw [← hz z, ← sum_map_mul_left']
      apply sum_map_congr'
      intro w hw
      rw [els w hw z, mul_assoc]
    refine ⟨m :: X2, M, t.r :: R, t.error :: errs, ?_, ⟨⟨cM, honQ⟩, ?_, ?_, by simpa using S.len, ?_, ?_⟩, ?_⟩
    · show ((Mps.svdBackward c svd o sqrt big (T' :: ts)).bind _) = _
      rw [hs]
      simp only [Option.bind_some, ht, hls, hM, Option.map_some]
    · intro c hc
      rcases List.mem_cons.1 hc with rfl | hc
      · exact H.good
      · exact S.good c hc
    · intro h0 c hc
      rcases List.mem_cons.1 hc with rfl | hc
      · exact H.dim h0
      · exact S.dims h0 c hc
    · intro h0 e he
      rcases List.mem_cons.1 he with rfl | he
      · exact H.nonneg h0
      · exact S.nonneg h0 e he
    · intro h0
      refine ⟨?_, ?_⟩
      · intro e he
        rcases List.mem_cons.1 he with rfl | he
        · exact (H.noCut h0).1
        · exact (S.noCut h0).1 e he
      · intro x ps y hps
        cases hps with
        | @cons p _ ps _ h1 h2 =>
          have h2' := h2
          cases h2 with
          | @cons p' _ ps _ h3 h4 =>
            rw [hlN x p p' ps y h1 h3]
            show _ = ((legBasis b).map fun z => entry T (x :: p ++ [z]) * chain (T' :: ts) (X1 ++ [r]) z (p' :: ps) y).sum
            apply sum_map_congr'
            intro z _
            rw [(S.noCut h0).2 z _ y h2']
            have : F z (p' :: ps, y) = 0 := sum_map_zero' _ _ (fun v _ => by rw [(H.noCut h0).2, zero_mul])
            rw [this, sub_zero]
    · intro _ hcs hun hu hq hlc
      obtain ⟨kN, kq, k1, k2, k3⟩ := hiso hcs hun (fun V hV => hu V (List.mem_cons_of_mem _ hV)) (by
        intro i hi
        have := hq (i + 1) (by simpa using hi)
        simpa using this) hlc.2
      have hqN : HasCharge ((ph' ++ [b2]).length + 1) N := by simpa using kq
      obtain ⟨iL, iR⟩ := rightSvd_isometries c svd hsvd hun (legs := ph' ++ [b2]) hcN hlegs gb kN hqN
      obtain ⟨j1, j2, j3, j4, j5⟩ := H.iso hcs iL iR
      have hR : RightChain (b2 :: X3) phys2 R := by
        rw [e1] at k1
        exact k1
      have hw2 : ∀ c ∈ b2 :: X3, Dict.WF c := by
        intro c hc
        rw [← e1] at hc
        exact (gX c hc).1
      have hlast : (b2 :: X3).getLast? = some r := by rw [← e1]; simp
      have hA : Ortho (cells phys2 r) (legBasis b2) fun z j => chain R X3 z j.1 j.2 := rightChain_ortho hlast hrest2 hw2 hR
      rw [e1] at k2
      simp only [List.headD_cons, List.tail_cons] at k2
      let E : Q × Nat → List (List (Q × Nat)) × (Q × Nat) → K := fun z j => chain (T' :: ts) (X1 ++ [r]) z j.1 j.2 - chain (N :: R) (X2 ++ [r]) z j.1 j.2
      have hEp : ∀ z, ∀ p' ∈ legIndices ph', ∀ w ∈ legBasis b2, ip (cells phys2 r) (fun j => E z (p' :: j.1, j.2)) (fun j => chain R X3 w j.1 j.2) = 0 := by
        intro z p' hp' w hw
        have := k2 z p' hp' w hw
        rw [← e1] at this
        exact this
      have hdiff : ∀ x p, p ∈ legIndices ph → ∀ j ∈ cells (ph' :: phys2) r, chain (T :: T' :: ts) (b :: X1 ++ [r]) x (p :: j.1) j.2 -
          chain (M :: t.r :: R) (m :: X2 ++ [r]) x (p :: j.1) j.2 = ((legBasis b).map fun z => entry T (x :: p ++ [z]) * (E z j + F z j)).sum := by
        intro x p hpm j hj
        obtain ⟨p', ps, ej, hpl⟩ := cells_len hj
        obtain ⟨j1, j2⟩ := j
        simp only at ej
        subst ej
        rw [hlN x p p' ps j2 (legIndices_len hpm) hpl]
        show ((legBasis b).map fun z => entry T (x :: p ++ [z]) * chain (T' :: ts) (X1 ++ [r]) z (p' :: ps) j2).sum - _ = _
        rw [sub_eq_iff_eq_add, ← sum_map_add']
        apply sum_map_congr'
        intro z _
        simp only [E]
        ring
      have horEF : ∀ z ∈ legBasis b, ip (cells (ph' :: phys2) r) (E z) (F z) = 0 := by
        intro z _
        rw [ip_cells_cons]
        apply sum_map_zero'
        intro p' hp'
        refine (ip_sum_right (cells phys2 r) (legBasis b2) (fun j => E z (p' :: j.1, j.2)) (fun v => D [z] (p' ++ [v])) (fun v j => chain R X3 v j.1 j.2)).trans ?_
        apply sum_map_zero'
        intro v hv
        rw [hEp z p' hp' v hv, mul_zero]
      refine ⟨uM, ?_, ?_, ?_, ?_⟩
      · have := qM (by simpa using hq 0 (by simp))
        simpa using this
      · show RightChain (m :: (X2 ++ [r])) (ph' :: phys2) (t.r :: R)
        rw [e1]
        exact ⟨j2, hR⟩
      · intro x p hpm w hw
        have hw : w ∈ legBasis m := hw
        have hpm : p ∈ legIndices ph := hpm
        show ip (cells (ph' :: phys2) r) _ (fun j => chain (t.r :: R) (X2 ++ [r]) w j.1 j.2) = 0
        refine (ip_congr (g' := fun j => chain (t.r :: R) (X2 ++ [r]) w j.1 j.2) (hdiff x p hpm) (fun _ _ => rfl)).trans ?_
        rw [ip_sum_left]
        apply sum_map_zero'
        intro z hz
        rw [ip_add_left]
        have g1 : ip (cells (ph' :: phys2) r) (E z) (fun j => chain (t.r :: R) (X2 ++ [r]) w j.1 j.2) = 0 := by
          rw [ip_cells_cons]
          apply sum_map_zero'
          intro p' hp'
          rw [e1]
          refine (ip_sum_right (cells phys2 r) (legBasis b2) (fun j => E z (p' :: j.1, j.2)) (fun v => entry t.r (w :: p' ++ [v])) (fun v j => chain R X3 v j.1 j.2)).trans ?_
          apply sum_map_zero'
          intro v hv
          rw [hEp z p' hp' v hv, mul_zero]
        have g2 : ip (cells (ph' :: phys2) r) (F z) (fun j => chain (t.r :: R) (X2 ++ [r]) w j.1 j.2) = 0 := by
          rw [ip_cells_cons, ← j4 [z] (by unfold legIndices; rw [mem_cart]; exact .cons hz .nil) w hw, legIndices_snoc_sum]
          apply sum_map_congr'
          intro p' _
          rw [e1]
          exact ip_ortho (legBasis_nodup gb2.1) hA (fun v => D [z] (p' ++ [v])) (fun v => entry t.r (w :: (p' ++ [v])))
        rw [g1, g2]
        simp
      · intro he
        have key := pythagoras_right (I := legIndices (l :: ph)) (J := cells (ph' :: phys2) r) (legBasis_nodup gb.1) (fun i z => entry T (i ++ [z])) E F
          hlc.1 horEF
        have e5 := j5 he
        have e6 := k3 he
        rw [List.sum_cons, map_add, ← e5, ← e6, add_comm]
        unfold chainDist
        rw [sum_map_congr' _ _ _ (fun x _ => ip_cells_cons ph (ph' :: phys2) r _ _)]
        refine Eq.trans ?_ (key.trans ?_)
        · rw [legIndices_cons_sum]
          apply sum_map_congr'
          intro x _
          apply sum_map_congr'
          intro p hpm
          exact ip_congr (hdiff x p hpm) (hdiff x p hpm)
        · congr 1
          rw [legIndices_one_sum]
          apply sum_map_congr'
          intro z _
          rw [ip_cells_cons, legIndices_snoc_sum]
          apply sum_map_congr'
          intro p' _
          exact ip_ortho (legBasis_nodup gb2.1) hA (fun v => D [z] (p' ++ [v])) (fun v => D [z] (p' ++ [v]))

end
end Verif
