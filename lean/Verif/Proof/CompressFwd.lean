import Verif.Proof.Compress
import Verif.Proof.ChainIp

/-! The compression from the first bond to the last one. -/

set_option linter.unusedSectionVars false

namespace Verif
section
variable {Q K V : Type} [DecidableEq Q] [AddCommGroup Q] [CommRing K] [CommRing V] [LinearOrder V] [IsStrictOrderedRing V]

/-- What both sweeps of the compression give: `ts` are the sites before, `ts'` those after it. -/
structure Compressed (o : TruncOpts V) (l r : BondInfo Q) (phys : List (List (BondInfo Q))) (ts : List (SpT Q K)) (X : List (BondInfo Q))
    (ts' : List (SpT Q K)) (X' : List (BondInfo Q)) (errs : List V) : Prop where
  on : OnBonds (l :: X' ++ [r]) phys ts'
  good : ∀ b ∈ X', GoodBond b
  dims : 0 ≤ o.maxBondDim → ∀ b ∈ X', (legBasis b).length ≤ o.maxBondDim.toNat
  len : errs.length + 1 = ts.length
  nonneg : o.eigenValues = false → ∀ e ∈ errs, 0 ≤ e
  noCut : NoCut o → (∀ e ∈ errs, e = 0) ∧ ∀ x ps y, List.Forall₂ (fun (p : List (Q × Nat)) ph => p.length = ph.length) ps phys →
    chain ts' (X' ++ [r]) x ps y = chain ts (X ++ [r]) x ps y

/-- The squared distance of two chains. -/
def chainDist [StarRing K] (l r : BondInfo Q) (phys : List (List (BondInfo Q))) (ts : List (SpT Q K)) (X : List (BondInfo Q))
    (ts' : List (SpT Q K)) (X' : List (BondInfo Q)) : K :=
  ((legBasis l).map fun x => ip (cells phys r) (fun j => chain ts (X ++ [r]) x j.1 j.2 - chain ts' (X' ++ [r]) x j.1 j.2)
    (fun j => chain ts (X ++ [r]) x j.1 j.2 - chain ts' (X' ++ [r]) x j.1 j.2)).sum

theorem diagLabels_of {l : SpT Q K} {t : SpT Q K} (hl : DiagLabels l) (h : ∀ x ∈ t, ∃ x0 ∈ l, x.1 = x0.1) : DiagLabels t := by
  intro x hx
  obtain ⟨x0, h0, e⟩ := h x hx
  rw [e]
  exact hl x0 h0

theorem leftSvd_diag (svd : Arr K → Arr K × Arr V × Arr K) (T : SpT Q K) : DiagLabels (SpT.leftSvd svd T).2.2 := by
  intro b hb
  obtain ⟨g, _, rfl⟩ := List.mem_map.1 hb
  exact ⟨g.1, rfl⟩

theorem rightSvd_diag (svd : Arr K → Arr K × Arr V × Arr K) (T : SpT Q K) : DiagLabels (SpT.rightSvd svd T).1 := by
  intro b hb
  obtain ⟨g, _, rfl⟩ := List.mem_map.1 hb
  exact ⟨g.1, rfl⟩

theorem cells_len {ph : List (BondInfo Q)} {phys : List (List (BondInfo Q))} {r : BondInfo Q} {j : List (List (Q × Nat)) × (Q × Nat)}
    (hj : j ∈ cells (ph :: phys) r) : ∃ p ps, j.1 = p :: ps ∧ p.length = ph.length := by
  have := (mem_cells hj).1
  generalize j.1 = ps at this
  cases this with
  | cons h _ => exact ⟨_, _, rfl, legIndices_len h⟩

theorem svdForward_spec (c : V →+* K) (svd : Arr K → Arr K × Arr V × Arr K) (hsvd : IsSvd c svd) (o : TruncOpts V) (sqrt : V → V)
    (big : Arr K → Bool) (hbig : RemovesZeros big) {l r : BondInfo Q} {X : List (BondInfo Q)} {phys : List (List (BondInfo Q))} {T : SpT Q K}
    {ts : List (SpT Q K)} (h : OnBonds (l :: X ++ [r]) phys (T :: ts)) (hg : ∀ b ∈ l :: r :: X, GoodBond b)
    (hp : ∀ ph ∈ phys, ∀ b ∈ ph, GoodBond b) :
    ∃ X' ts' errs, Mps.svdForward c svd o sqrt big ts T = some (ts', errs) ∧ Compressed o l r phys (T :: ts) X ts' X' errs ∧
      ∀ [StarRing K], (∀ v, star (c v) = c v) → SvdUnitary svd → UniqueLabels T →
        (∀ i < (T :: ts).length, HasCharge ((phys.getD i []).length + 2) ((T :: ts).getD i [])) → RightChain (X ++ [r]) phys.tail ts →
        (∀ i < ts.length, LeftIsometric ((l :: X').getD i [] :: phys.getD i []) (X'.getD i []) (ts'.getD i [])) ∧
        (o.eigenValues = false → chainDist l r phys (T :: ts) X ts' X' = c errs.sum) := by
  induction ts generalizing l X phys T with
  | nil =>
    refine ⟨X, [T], [], rfl, ⟨h, fun b hb => hg b (by simp [hb]), ?_, rfl, by simp, fun _ => ⟨by simp, fun _ _ _ _ => rfl⟩⟩, ?_⟩
    · intro _ b hb
      have := h.lengths.1
      have hX : X = [] := by
        cases X with
        | nil => rfl
        | cons => simp at this
      simp [hX] at hb
    · intro _ _ _ _ _ _
      refine ⟨by simp, fun _ => ?_⟩
      unfold chainDist ip
      simp
  | cons T' ts ih =>
    obtain ⟨b, X1, ph, phys', rfl, rfl, hcT, hrest⟩ := onBonds_cons_inv h (by simp)
    have gb : GoodBond b := hg b (by simp)
    have gl : GoodBond l := hg l (by simp)
    have gr : GoodBond r := hg r (by simp)
    have hlegs : ∀ c ∈ l :: ph, GoodBond c := by
      intro c hc
      rcases List.mem_cons.1 hc with h | h
      · subst h; exact gl
      · exact hp ph (by simp) c h
    have hB := blockSvd_left c svd hsvd (legs := l :: ph) hcT hlegs gb
    obtain ⟨m, D, H⟩ := cut_ok c o sqrt big hbig hB
    generalize ht : SpT.truncateSvd o sqrt big (SpT.leftSvd svd T).1 (SpT.leftSvd svd T).2.1 (SpT.leftSvd svd T).2.2 = t at H
    obtain ⟨sr, hsr⟩ := tensordotN_some (SpT.diagOf c t.s) t.r 1
    obtain ⟨csr, dsr, esr⟩ := values_left c H.values H.right (diagLabels_of (leftSvd_diag svd T) H.labelsR) H.good.1 hsr
    obtain ⟨N, hN⟩ := tensordotN_some sr T' 1
    have hab := fun {legs : List (BondInfo Q)} (hc : Conforms (b :: legs) T') => absorb_left dsr csr hc gb.1 hN
    have honN : OnBonds (m :: X1 ++ [r]) phys' (N :: ts) := onBonds_rehead hrest fun legs hc => (hab hc).1
    obtain ⟨X', ts', errs, hs, S, hiso⟩ := ih honN
      (by intro c hc
          simp at hc
          rcases hc with rfl | hc | hc
          · exact H.good
          · exact hg c (by simp [hc])
          · exact hg c (by simp [hc]))
      (fun c hc => hp c (by simp [hc]))
    obtain ⟨b2, X2, ph', phys2, e1, rfl, hcT', hrest2⟩ := onBonds_head hrest
    obtain ⟨cN, uN, qN, eN⟩ := hab hcT'
    have hNa : ∀ w ∈ legBasis m, ∀ p' ps y, p'.length = ph'.length → chain (N :: ts) (X1 ++ [r]) w (p' :: ps) y =
        ((legBasis b).map fun z => c (entry t.s [w]) * entry t.r [w, z] * chain (T' :: ts) (X1 ++ [r]) z (p' :: ps) y).sum := by
      intro w hw p' ps y hp'
      refine chain_head (ph := ph') w (fun z => c (entry t.s [w]) * entry t.r [w, z]) ?_ ts hp' ps y
      intro p v hpl
      rw [show w :: p ++ [v] = w :: (p ++ [v]) from rfl, eN w (p ++ [v]) (by simp [hpl])]
      apply sum_map_congr'
      intro z _
      rw [esr w hw z]
      rfl
    have hlN : ∀ x p p' ps y, p.length = ph.length → p'.length = ph'.length →
        ((legBasis m).map fun w => entry t.l (x :: p ++ [w]) * chain (N :: ts) (X1 ++ [r]) w (p' :: ps) y).sum +
          ((legBasis b).map fun z => D (x :: p) [z] * chain (T' :: ts) (X1 ++ [r]) z (p' :: ps) y).sum =
        chain (T :: T' :: ts) (b :: X1 ++ [r]) x (p :: p' :: ps) y := by
      intro x p p' ps y h1 h3
      rw [sum_map_congr' _ _ _ (fun w hw => by rw [hNa w hw p' ps y h3, ← sum_map_mul_left'])]
      rw [sum_comm' (legBasis m) (legBasis b), ← sum_map_add']
      show _ = ((legBasis b).map fun z => entry T (x :: p ++ [z]) * chain (T' :: ts) (X1 ++ [r]) z (p' :: ps) y).sum
      apply sum_map_congr'
      intro z _
      rw [H.split (x :: p) [z] (by simp [h1]) rfl, add_mul, ← sum_map_mul_right']
      congr 1
      apply sum_map_congr'
      intro w _
      ring
    refine ⟨m :: X', t.l :: ts', t.error :: errs, ?_, ⟨⟨H.left, S.on⟩, ?_, ?_, by simpa using S.len, ?_, ?_⟩, ?_⟩
    · simp only [Mps.svdForward, ht, hsr, Option.bind_some, hN, hs, Option.map_some]
    · intro c hc
      rcases List.mem_cons.1 hc with rfl | hc
      · exact H.good
      · exact S.good c hc
    · intro h0 c hc
      rcases List.mem_cons.1 hc with rfl | hc
      · exact H.dim h0
      · exact S.dims h0 c hc
    · intro h0 e he
      rcases List.mem_cons.1 he with rfl | he
      · exact H.nonneg h0
      · exact S.nonneg h0 e he
    · intro h0
      refine ⟨?_, ?_⟩
      · intro e he
        rcases List.mem_cons.1 he with rfl | he
        · exact (H.noCut h0).1
        · exact (S.noCut h0).1 e he
      · intro x ps y hps
        cases hps with
        | @cons p _ ps _ h1 h2 =>
          have h2' := h2
          cases h2 with
          | @cons p' _ ps _ h3 h4 =>
            rw [← hlN x p p' ps y h1 h3]
            rw [show ((legBasis b).map fun z => D (x :: p) [z] * chain (T' :: ts) (X1 ++ [r]) z (p' :: ps) y).sum = 0 from
              sum_map_zero' _ _ (fun z _ => by rw [(H.noCut h0).2, zero_mul]), add_zero]
            show ((legBasis m).map fun w => entry t.l (x :: p ++ [w]) * chain ts' (X' ++ [r]) w (p' :: ps) y).sum = _
            apply sum_map_congr'
            intro w _
            rw [(S.noCut h0).2 w _ y h2']
    · intro _ hcs hun huT hq hrc
      have hqT : HasCharge ((l :: ph).length + 1) T := by simpa using hq 0 (by simp)
      obtain ⟨iL, iR⟩ := leftSvd_isometries c svd hsvd hun (legs := l :: ph) hcT hlegs gb huT hqT
      obtain ⟨j1, j2, j3, j4, j5⟩ := H.iso hcs iL iR
      have hrc1 : RightChain (b :: (X1 ++ [r])) (ph' :: phys2) (T' :: ts) := hrc
      have hrc2 : RightChain (X1 ++ [r]) phys2 ts := by
        rw [e1] at hrc1 ⊢
        exact hrc1.2
      obtain ⟨k1, k2⟩ := hiso hcs hun uN (by
        intro i hi
        cases i with
        | zero =>
          have := qN (by simpa using hq 1 (by simp))
          simpa using this
        | succ i =>
          have := hq (i + 2) (by simpa using hi)
          simpa using this) hrc2
      refine ⟨?_, ?_⟩
      · intro i hi
        cases i with
        | zero => simpa using j1
        | succ i =>
          have := k1 i (by simpa using hi)
          simpa using this
      · intro he
        have hA : Ortho (cells (ph' :: phys2) r) (legBasis b) fun z j => chain (T' :: ts) (X1 ++ [r]) z j.1 j.2 := by
          refine rightChain_ortho (B := X1 ++ [r]) ?_ hrest ?_ hrc1
          · rw [← List.cons_append, List.getLast?_append]; simp
          · intro c hc
            rcases List.mem_cons.1 hc with rfl | hc
            · exact gb.1
            · exact (hg c (by simp at hc ⊢; tauto)).1
        have key := pythagoras_left (I := legIndices (l :: ph)) (J := cells (ph' :: phys2) r) (legBasis_nodup gb.1) (legBasis_nodup H.good.1)
          (fun i z => D i [z]) (fun z j => chain (T' :: ts) (X1 ++ [r]) z j.1 j.2) (fun i w => entry t.l (i ++ [w]))
          (fun w j => chain (N :: ts) (X1 ++ [r]) w j.1 j.2 - chain ts' (X' ++ [r]) w j.1 j.2) hA j1
          (by intro z hz w hw
              exact j3 [z] (by unfold legIndices; rw [mem_cart]; exact .cons hz .nil) w hw)
        have e5 := j5 he
        have e6 := k2 he
        rw [List.sum_cons, map_add, ← e5, ← e6]
        unfold chainDist
        rw [sum_map_congr' _ _ _ (fun x _ => ip_cells_cons ph (ph' :: phys2) r _ _)]
        refine Eq.trans ?_ (key.trans ?_)
        · rw [legIndices_cons_sum]
          apply sum_map_congr'
          intro x _
          apply sum_map_congr'
          intro p hpm
          have hd : ∀ j ∈ cells (ph' :: phys2) r, chain (T :: T' :: ts) (b :: X1 ++ [r]) x (p :: j.1) j.2 -
              chain (t.l :: ts') (m :: X' ++ [r]) x (p :: j.1) j.2 =
              ((legBasis b).map fun z => D (x :: p) [z] * chain (T' :: ts) (X1 ++ [r]) z j.1 j.2).sum +
              ((legBasis m).map fun w => entry t.l (x :: p ++ [w]) * (chain (N :: ts) (X1 ++ [r]) w j.1 j.2 - chain ts' (X' ++ [r]) w j.1 j.2)).sum := by
            intro j hj
            obtain ⟨p', ps, ej, hpl⟩ := cells_len hj
            rw [ej, ← hlN x p p' ps j.2 (legIndices_len hpm) hpl]
            show _ - ((legBasis m).map fun w => entry t.l (x :: p ++ [w]) * chain ts' (X' ++ [r]) w (p' :: ps) j.2).sum = _
            rw [sum_map_congr' (legBasis m) (fun w => entry t.l (x :: p ++ [w]) * (chain (N :: ts) (X1 ++ [r]) w (p' :: ps) j.2 - chain ts' (X' ++ [r]) w (p' :: ps) j.2))
              (fun w => entry t.l (x :: p ++ [w]) * chain (N :: ts) (X1 ++ [r]) w (p' :: ps) j.2 + (-1) * (entry t.l (x :: p ++ [w]) * chain ts' (X' ++ [r]) w (p' :: ps) j.2))
              (fun w _ => by ring), sum_map_add', sum_map_mul_left']
            ring
          exact ip_congr hd hd
        · congr 1
          apply sum_map_congr'
          intro i _
          rw [legIndices_one_sum]
          rfl

end
end Verif
