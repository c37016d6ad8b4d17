import Verif.Model.Entangle
import Verif.Proof.Schmidt
import Verif.Proof.CompressFwd

/-! The singular values of the sweep are the Schmidt values of the state. -/

set_option linter.unusedSectionVars false

namespace Verif
section
variable {Q K : Type} [DecidableEq Q] [AddCommGroup Q] [CommRing K]

theorem tails_eq (phys : List (List (BondInfo Q))) (r : BondInfo Q) : tails phys r = cells phys r := rfl

theorem heads_sum (l : BondInfo Q) (phys : List (List (BondInfo Q))) (f : (Q × Nat) × List (List (Q × Nat)) → K) :
    ((heads l phys).map f).sum = ((legBasis l).map fun x => ((cart (phys.map legIndices)).map fun ps => f (x, ps)).sum).sum := by
  unfold heads
  rw [sum_flatMap']
  simp only [List.map_map]
  rfl

theorem heads_cons_sum (l : BondInfo Q) (ph : List (BondInfo Q)) (phys : List (List (BondInfo Q))) (f : (Q × Nat) × List (List (Q × Nat)) → K) :
    ((heads l (ph :: phys)).map f).sum =
      ((legBasis l).map fun x => ((legIndices ph).map fun p => ((cart (phys.map legIndices)).map fun ps => f (x, p :: ps)).sum).sum).sum := by
  rw [heads_sum]
  apply sum_map_congr'
  intro x _
  rw [List.map_cons, cart, sum_flatMap']
  simp only [List.map_map]
  rfl

theorem mem_heads_cons {l : BondInfo Q} {ph : List (BondInfo Q)} {phys : List (List (BondInfo Q))} {i : (Q × Nat) × List (List (Q × Nat))}
    (h : i ∈ heads l (ph :: phys)) : ∃ x p ps, i = (x, p :: ps) ∧ x ∈ legBasis l ∧ p ∈ legIndices ph ∧ ps ∈ cart (phys.map legIndices) := by
  unfold heads at h
  simp only [List.mem_flatMap, List.mem_map, List.map_cons, cart] at h
  obtain ⟨x, hx, _, ⟨p, hp, ps, hps, rfl⟩, rfl⟩ := h
  exact ⟨x, p, ps, rfl, hx, hp, hps⟩

theorem mem_heads {l : BondInfo Q} {phys : List (List (BondInfo Q))} {x : Q × Nat} {ps : List (List (Q × Nat))} :
    (x, ps) ∈ heads l phys ↔ x ∈ legBasis l ∧ ps ∈ cart (phys.map legIndices) := by
  unfold heads
  simp only [List.mem_flatMap, List.mem_map]
  constructor
  · rintro ⟨x', hx, ps', hps, e⟩
    cases e
    exact ⟨hx, hps⟩
  · rintro ⟨h1, h2⟩
    exact ⟨x, h1, ps, h2, rfl⟩

theorem cart_len {phys : List (List (BondInfo Q))} {ps : List (List (Q × Nat))} (h : ps ∈ cart (phys.map legIndices)) :
    List.Forall₂ (fun (p : List (Q × Nat)) ph => p.length = ph.length) ps phys := by
  have := (mem_cart _ _).1 h
  rw [List.forall₂_map_left_iff] at this
  exact (this.imp fun _ _ h => legIndices_len h).flip

variable [StarRing K]

/-- A decomposition of the matrix `A` with rows `I` and columns `J` into orthonormal vectors on both sides. -/
def Schmidt {α β γ V : Type} [DecidableEq γ] (c : V → K) (I : List α) (J : List β) (A : α → β → K) (Z : List γ) (σ : γ → V) : Prop :=
  ∃ (u : α → γ → K) (v : γ → β → K), Ortho I Z (fun z i => u i z) ∧ Ortho J Z v ∧
    ∀ i ∈ I, ∀ j ∈ J, A i j = (Z.map fun z => u i z * c (σ z) * v z j).sum

/-- An isometric site in front of orthonormal vectors gives orthonormal vectors. -/
theorem ortho_site {γ : Type} [DecidableEq γ] {l m : BondInfo Q} {ph : List (BondInfo Q)} {phys : List (List (BondInfo Q))} {U : SpT Q K} {Z : List γ}
    {u : (Q × Nat) × List (List (Q × Nat)) → γ → K} (hm : Dict.WF m) (hU : LeftIsometric (l :: ph) m U) (hu : Ortho (heads m phys) Z fun z i => u i z)
    (u' : (Q × Nat) × List (List (Q × Nat)) → γ → K)
    (h : ∀ x p ps z, u' (x, p :: ps) z = ((legBasis m).map fun w => u (w, ps) z * entry U (x :: p ++ [w])).sum) :
    Ortho (heads l (ph :: phys)) Z fun z i => u' i z := by
  intro z hz z' hz'
  rw [← hu z hz z' hz']
  unfold ip
  rw [heads_cons_sum, heads_sum]
  have e1 := legIndices_cons_sum l ph (fun i => ((cart (phys.map legIndices)).map fun ps =>
    star (((legBasis m).map fun w => u (w, ps) z * entry U (i ++ [w])).sum) * ((legBasis m).map fun w => u (w, ps) z' * entry U (i ++ [w])).sum).sum)
  rw [sum_comm' (legIndices (l :: ph))] at e1
  simp only [h]
  rw [← e1, sum_comm' (legBasis m)]
  apply sum_map_congr'
  intro ps _
  exact ip_ortho (legBasis_nodup hm) hU (fun w => u (w, ps) z) fun w => u (w, ps) z'

end

section
variable {Q K V : Type} [DecidableEq Q] [AddCommGroup Q] [CommRing K] [CommRing V] [LinearOrder V] [IsStrictOrderedRing V]

theorem values_conforms {s : SpT Q V} (h : ValueBlocks s) : Conforms [valueBond s] s := by
  intro b hb
  obtain ⟨q, hq⟩ := List.length_eq_one_iff.1 (h.label b hb)
  obtain ⟨n, hn⟩ := List.length_eq_one_iff.1 (h.axis b hb)
  rw [hq, hn]
  have : (q, n) ∈ valueBond s := List.mem_map.2 ⟨b, hb, by simp [hq, hn]⟩
  exact .cons (Dict.get?_of_mem h.good.1 this) .nil

theorem valueData_eq {s : SpT Q V} (h : ValueBlocks s) : SpT.valueData s = (legBasis (valueBond s)).map fun z => entry s [z] := by
  have key : ∀ t : SpT Q V, (∀ b ∈ t, b ∈ s) → SpT.valueData t = (legBasis (valueBond t)).map fun z => entry s [z] := by
    intro t ht
    induction t with
    | nil => rfl
    | cons b t ih =>
      have hb := ht b (by simp)
      obtain ⟨q, hq⟩ := List.length_eq_one_iff.1 (h.label b hb)
      obtain ⟨n, hn⟩ := List.length_eq_one_iff.1 (h.axis b hb)
      have hi := ih fun b hb => ht b (by simp [hb])
      unfold SpT.valueData valueBond legBasis at hi ⊢
      rw [List.map_cons, List.flatMap_cons, List.flatMap_cons, List.map_append, hi]
      congr 1
      rw [List.map_map]
      apply List.map_congr_left
      intro j hj
      have hj' : j < n := by simpa [hn] using hj
      show _ = entry s [(b.1.headD 0, j)]
      rw [entry_of_mem h.unique hb (by simp [hq])]
      simp [blockEntry, hq, hn, inBox, hj']
  exact key s fun _ h => h

theorem bondValues_spec [StarRing K] (c : V →+* K) (svd : Arr K → Arr K × Arr V × Arr K) (hsvd : IsSvd c svd) (hun : SvdUnitary svd)
    {l r : BondInfo Q} {X : List (BondInfo Q)} {phys : List (List (BondInfo Q))} {T : SpT Q K}
    {ts : List (SpT Q K)} (h : OnBonds (l :: X ++ [r]) phys (T :: ts)) (hg : ∀ b ∈ l :: r :: X, GoodBond b)
    (hp : ∀ ph ∈ phys, ∀ b ∈ ph, GoodBond b) (huT : UniqueLabels T)
    (hq : ∀ i < (T :: ts).length, HasCharge ((phys.getD i []).length + 2) ((T :: ts).getD i [])) (hrc : RightChain (X ++ [r]) phys.tail ts) :
    ∃ vals, Mps.bondValues c svd ts T = some vals ∧ vals.length = ts.length ∧ ∀ k < ts.length, ∃ s, vals[k]? = some s ∧ ValueBlocks s ∧
      Schmidt c (heads l (phys.take (k + 1))) (tails (phys.drop (k + 1)) r)
        (fun i j => chain (T :: ts) (X ++ [r]) i.1 (i.2 ++ j.1) j.2) (legBasis (valueBond s)) (fun z => entry s [z]) := by
  induction ts generalizing l X phys T with
  | nil => exact ⟨[], rfl, rfl, by simp⟩
  | cons T' ts ih =>
    obtain ⟨b, X1, ph, phys', rfl, rfl, hcT, hrest⟩ := onBonds_cons_inv h (by simp)
    have gb : GoodBond b := hg b (by simp)
    have gl : GoodBond l := hg l (by simp)
    have gr : GoodBond r := hg r (by simp)
    have hlegs : ∀ c ∈ l :: ph, GoodBond c := by
      intro c hc
      rcases List.mem_cons.1 hc with h | h
      · subst h; exact gl
      · exact hp ph (by simp) c h
    have hqT : HasCharge ((l :: ph).length + 1) T := by simpa using hq 0 (by simp)
    have H := blockSvd_left c svd hsvd (legs := l :: ph) hcT hlegs gb
    obtain ⟨iL, iR⟩ := leftSvd_isometries c svd hsvd hun (legs := l :: ph) hcT hlegs gb huT hqT
    have hdl := leftSvd_diag svd T
    generalize hf : SpT.leftSvd svd T = f at H iL iR hdl
    obtain ⟨U, s, R⟩ := f
    simp only at H iL iR hdl
    have hgm := H.values.good
    obtain ⟨sr, hsr⟩ := tensordotN_some (SpT.diagOf c s) R 1
    obtain ⟨csr, dsr, esr⟩ := values_left c (values_conforms H.values) H.right hdl hgm.1 hsr
    obtain ⟨N, hN⟩ := tensordotN_some sr T' 1
    have hab := fun {legs : List (BondInfo Q)} (hc : Conforms (b :: legs) T') => absorb_left dsr csr hc gb.1 hN
    have honN : OnBonds (valueBond s :: X1 ++ [r]) phys' (N :: ts) := onBonds_rehead hrest fun legs hc => (hab hc).1
    obtain ⟨b2, X2, ph', phys2, e1, rfl, hcT', hrest2⟩ := onBonds_head hrest
    obtain ⟨cN, uN, qN, eN⟩ := hab hcT'
    have hrc1 : RightChain (b :: (X1 ++ [r])) (ph' :: phys2) (T' :: ts) := hrc
    have hrc2 : RightChain (X1 ++ [r]) phys2 ts := by
      rw [e1] at hrc1 ⊢
      exact hrc1.2
    obtain ⟨vals, hv, hvl, hS⟩ := ih honN
      (by intro c hc
          simp at hc
          rcases hc with rfl | hc | hc
          · exact hgm
          · exact hg c (by simp [hc])
          · exact hg c (by simp [hc]))
      (fun c hc => hp c (by simp [hc])) uN (by
        intro i hi
        cases i with
        | zero =>
          have := qN (by simpa using hq 1 (by simp))
          simpa using this
        | succ i =>
          have := hq (i + 2) (by simpa using hi)
          simpa using this) hrc2
    have hNa : ∀ w ∈ legBasis (valueBond s), ∀ p' ps y, p'.length = ph'.length → chain (N :: ts) (X1 ++ [r]) w (p' :: ps) y =
        ((legBasis b).map fun z => c (entry s [w]) * entry R [w, z] * chain (T' :: ts) (X1 ++ [r]) z (p' :: ps) y).sum := by
      intro w hw p' ps y hp'
      refine chain_head (ph := ph') w (fun z => c (entry s [w]) * entry R [w, z]) ?_ ts hp' ps y
      intro p v hpl
      rw [show w :: p ++ [v] = w :: (p ++ [v]) from rfl, eN w (p ++ [v]) (by simp [hpl])]
      apply sum_map_congr'
      intro z _
      rw [esr w hw z]
      rfl
    have hlN : ∀ x p p' ps y, p.length = ph.length → p'.length = ph'.length →
        chain (T :: T' :: ts) (b :: X1 ++ [r]) x (p :: p' :: ps) y =
        ((legBasis (valueBond s)).map fun w => entry U (x :: p ++ [w]) * chain (N :: ts) (X1 ++ [r]) w (p' :: ps) y).sum := by
      intro x p p' ps y h1 h3
      rw [sum_map_congr' _ _ _ (fun w hw => by rw [hNa w hw p' ps y h3, ← sum_map_mul_left'])]
      rw [sum_comm' (legBasis (valueBond s)) (legBasis b)]
      show ((legBasis b).map fun z => entry T (x :: p ++ [z]) * chain (T' :: ts) (X1 ++ [r]) z (p' :: ps) y).sum = _
      apply sum_map_congr'
      intro z _
      rw [← H.product (x :: p) [z] (by simp [h1]) rfl, ← sum_map_mul_right']
      apply sum_map_congr'
      intro w _
      ring
    refine ⟨s :: vals, ?_, by simp [hvl], ?_⟩
    · simp only [Mps.bondValues, hf, hsr, Option.bind_some, hN, hv, Option.map_some]
    · intro k hk
      cases k with
      | zero =>
        refine ⟨s, rfl, H.values, ?_⟩
        have hA : Ortho (cells (ph' :: phys2) r) (legBasis b) fun z j => chain (T' :: ts) (X1 ++ [r]) z j.1 j.2 := by
          refine rightChain_ortho (B := X1 ++ [r]) ?_ hrest ?_ hrc1
          · rw [← List.cons_append, List.getLast?_append]; simp
          · intro c hc
            rcases List.mem_cons.1 hc with rfl | hc
            · exact gb.1
            · exact (hg c (by simp at hc ⊢; tauto)).1
        refine ⟨fun i w => match i.2 with
            | p :: _ => entry U (i.1 :: p ++ [w])
            | [] => 0, fun w j => ((legBasis b).map fun z => entry R [w, z] * chain (T' :: ts) (X1 ++ [r]) z j.1 j.2).sum, ?_, ?_, ?_⟩
        · intro z hz z' hz'
          rw [← iL z hz z' hz', legIndices_cons_sum]
          unfold ip
          simp only [Nat.zero_add, List.take_succ_cons, List.take_zero]
          rw [heads_cons_sum]
          simp [cart]
        · intro z hz z' hz'
          rw [← iR z hz z' hz', legIndices_one_sum]
          exact ip_ortho (legBasis_nodup gb.1) hA (fun w => entry R [z, w]) fun w => entry R [z', w]
        · intro i hi j hj
          obtain ⟨x, p, ps, rfl, hx, hpm, hps⟩ := mem_heads_cons hi
          simp [cart] at hps
          subst hps
          obtain ⟨p', ps', ej, hpl⟩ := cells_len (ph := ph') (phys := phys2) (r := r) hj
          show chain (T :: T' :: ts) (b :: X1 ++ [r]) x (p :: j.1) j.2 = _
          rw [ej, hlN x p p' ps' j.2 (legIndices_len hpm) hpl]
          apply sum_map_congr'
          intro w hw
          rw [hNa w hw p' ps' j.2 hpl]
          show _ = entry U (x :: p ++ [w]) * c (entry s [w]) * ((legBasis b).map fun z => entry R [w, z] * chain (T' :: ts) (X1 ++ [r]) z j.1 j.2).sum
          rw [ej, ← sum_map_mul_left', ← sum_map_mul_left']
          apply sum_map_congr'
          intro z _
          ring
      | succ k =>
        obtain ⟨s', hs1, hs2, u, v, hu, hvv, hA⟩ := hS k (by simpa using hk)
        refine ⟨s', by simpa using hs1, hs2, fun i z => match i.2 with
            | p :: ps => ((legBasis (valueBond s)).map fun w => u (w, ps) z * entry U (i.1 :: p ++ [w])).sum
            | [] => 0, v, ?_, hvv, ?_⟩
        · exact ortho_site hgm.1 iL hu _ fun x p ps z => rfl
        · intro i hi j hj
          obtain ⟨x, p, ps, rfl, hx, hpm, hps⟩ := mem_heads_cons hi
          obtain ⟨p', ps', rfl⟩ : ∃ p' ps', ps = p' :: ps' := by
            have := (cart_len hps).length_eq
            cases ps with
            | nil => simp at this
            | cons p' ps' => exact ⟨p', ps', rfl⟩
          have hpl : p'.length = ph'.length := by
            have := cart_len hps
            simp only [List.take_succ_cons] at this
            cases this with
            | cons h _ => exact h
          show chain (T :: T' :: ts) (b :: X1 ++ [r]) x (p :: p' :: (ps' ++ j.1)) j.2 = _
          rw [hlN x p p' _ j.2 (legIndices_len hpm) hpl]
          rw [sum_map_congr' _ _ _ (fun w hw => by rw [show chain (N :: ts) (X1 ++ [r]) w (p' :: (ps' ++ j.1)) j.2 = _ from
            hA (w, p' :: ps') (mem_heads.2 ⟨hw, hps⟩) j hj, ← sum_map_mul_left'])]
          rw [sum_comm']
          apply sum_map_congr'
          intro z _
          rw [← sum_map_mul_right', ← sum_map_mul_right']
          apply sum_map_congr'
          intro w _
          ring

end
end Verif
