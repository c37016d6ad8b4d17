import Verif.Spec.Mpo
import Verif.Proof.Merge

/-! One site of the product of an operator and a state. -/

set_option linter.unusedSectionVars false

namespace Verif
section
variable {Q K : Type} [DecidableEq Q] [AddCommGroup Q] [CommRing K]

theorem physLabels_mid (a : Q) (p : List Q) (b : Q) : physLabels (a :: p ++ [b]) = p := by
  unfold physLabels
  simp

theorem addAliased_unique (A B : SpT Q K) (hu : UniqueLabels (A ++ B)) (f g : List Q → Bool) : UniqueLabels (OpT.addAliased A B f g) := by
  unfold OpT.addAliased
  rw [add_eq_append A B hu]
  unfold UniqueLabels at hu ⊢
  rw [List.map_map]
  refine Eq.mpr (congrArg List.Nodup ?_) hu
  apply List.map_congr_left
  intro b _
  simp only [Function.comp]
  split_ifs <;> rfl

theorem pick_inj {α : Type} [Zero α] {σ : List Nat} {xs ys : List α} (h : σ.Perm (List.range xs.length)) (hl : xs.length = ys.length)
    (he : pick σ xs = pick σ ys) : xs = ys := by
  apply List.ext_getElem hl
  intro i h1 h2
  have hi : i ∈ σ := h.mem_iff.2 (List.mem_range.2 h1)
  have : xs.getD i 0 = ys.getD i 0 := List.map_inj_left.1 he i hi
  simpa [List.getD_eq_getElem?_getD, List.getElem?_eq_getElem h1, List.getElem?_eq_getElem h2] using this

theorem transpose_unique {legs : List (BondInfo Q)} {T : SpT Q K} (hT : Conforms legs T) (hu : UniqueLabels T) {axes : List Nat}
    (hax : axes.Perm (List.range legs.length)) : UniqueLabels (T.transpose (some axes)) := by
  unfold UniqueLabels SpT.transpose at *
  rw [List.map_map]
  have e : (Prod.fst ∘ fun b : List Q × Arr K => (pick axes b.1, b.2.transpose axes)) = fun b => pick axes b.1 := rfl
  show (T.map fun b => pick axes b.1).Nodup
  have : (T.map fun b => pick axes b.1) = (T.map Prod.fst).map (pick axes) := by rw [List.map_map]; rfl
  rw [this]
  refine (List.nodup_map_iff_inj_on hu).2 ?_
  intro q hq q' hq' he
  obtain ⟨b, hb, rfl⟩ := List.mem_map.1 hq
  obtain ⟨b', hb', rfl⟩ := List.mem_map.1 hq'
  refine pick_inj (σ := axes) ?_ ?_ he
  · rw [(hT b hb).lengths.1]; exact hax
  · rw [(hT b hb).lengths.1, (hT b' hb').lengths.1]

/-- core.py:1885 the order of the legs of the site product. -/
def stAxes (n : Nat) : List Nat := [0, n + 2] ++ List.range' 1 n ++ [n + 1, n + 3]

theorem stAxes_perm (n : Nat) : (stAxes n).Perm (List.range (n + 4)) := by
  have e : List.range (n + 4) = [0] ++ (List.range' 1 n ++ ([n + 1] ++ ([n + 2] ++ [n + 3]))) := by
    have h0 : List.range (n + 4) = List.range' 0 (1 + (n + 3)) := by rw [List.range_eq_range']; congr 1; omega
    have h1 : List.range' 0 (1 + (n + 3)) = List.range' 0 1 ++ List.range' 1 (n + 3) := by rw [← List.range'_append_1]
    have h2 : List.range' 1 (n + 3) = List.range' 1 n ++ List.range' (1 + n) 3 := by rw [← List.range'_append_1]
    rw [h0, h1, h2]
    simp [List.range', Nat.add_comm]
    omega
  rw [e]
  unfold stAxes
  rw [List.append_assoc]
  show ([0] ++ ([n + 2] ++ (List.range' 1 n ++ [n + 1, n + 3]))).Perm _
  refine List.Perm.append_left _ ?_
  refine (List.perm_append_comm_assoc _ _ _).trans ?_
  refine List.Perm.append_left _ ?_
  exact List.perm_append_comm_assoc [n + 2] [n + 1] [n + 3]

theorem pick_stAxes {α : Type} [Zero α] (w : α) (u : List α) (w' x x' : α) :
    pick (stAxes u.length) (w :: u ++ [w', x, x']) = [w, x] ++ u ++ [w', x'] := by
  unfold stAxes
  rw [pick_append_idx, pick_append_idx]
  have e1 : pick (List.range' 1 u.length) (w :: u ++ [w', x, x']) = u := pick_range' [w] u [w', x, x']
  rw [e1]
  have g : ∀ k, (w :: u ++ [w', x, x']).getD (u.length + 1 + k) 0 = [w', x, x'].getD k 0 := by
    intro k
    rw [List.getD_eq_getElem?_getD, List.getElem?_append_right (by simp)]
    simp [List.getD_eq_getElem?_getD]
  have g0 := g 0
  have g1 := g 1
  have g2 := g 2
  unfold pick
  simp only [List.map_cons, List.map_nil]
  rw [show u.length + 1 = u.length + 1 + 0 from rfl, show u.length + 2 = u.length + 1 + 1 from rfl, show u.length + 3 = u.length + 1 + 2 from rfl, g0, g1, g2]
  rfl

theorem OpT.ndim_of {legs : List (BondInfo Q)} {W : OpT Q K} (ho : Conforms legs W.odd) (he : Conforms legs W.even) (hne : W.noBlocks = false) :
    W.ndim = legs.length := by
  unfold OpT.noBlocks at hne
  unfold OpT.ndim
  rcases Wo : W.odd with _ | ⟨o, os⟩
  · rcases We : W.even with _ | ⟨e, es⟩
    · rw [Wo, We] at hne; simp at hne
    · rw [We] at he
      rw [ndim_of_conforms he (by simp)]
      simp [SpT.ndim]
  · rw [Wo] at ho
    rcases We : W.even with _ | ⟨e, es⟩
    · rw [ndim_of_conforms ho (by simp)]
      simp [SpT.ndim]
    · rw [We] at he
      rw [ndim_of_conforms ho (by simp), ndim_of_conforms he (by simp)]
      simp

theorem axesAt_eq (k n : Nat) : axesAt k n = (List.range' k n).map Int.ofNat := rfl

theorem norm_axesAt (n k m : Nat) : (((axesAt k m).map (SpT.normAxis n)).map Int.ofNat) = axesAt k m := by
  unfold axesAt
  rw [normAxes_ofNat]

theorem min_range' (k n : Nat) (h : 0 < n) : ((List.range' k n).min?.getD 0) = k := by
  obtain ⟨n, rfl⟩ : ∃ m, n = m + 1 := ⟨n - 1, by omega⟩
  have : (List.range' k (n + 1)).min? = some k := by
    rw [List.min?_eq_some_iff]
    simp
    intro a h1 h2
    exact h1
  rw [this]; rfl

theorem fermParity_cons (isF : Q → Bool) (q : Q) (l : List Q) : fermParity isF (q :: l) = xor (isF q) (fermParity isF l) := by
  have := fermParity_append isF [q] l
  rw [List.singleton_append] at this
  rw [this]
  congr 1
  unfold fermParity
  cases h : isF q <;> simp [h]

theorem xor_even : ∀ a b c d p : Bool, xor (xor c b) d = p → xor a (xor c d) = xor (xor a b) p := by decide

theorem EvenInside.of_even {isF : Q → Bool} {ts : List (SpT Q K)} (h : ∀ T ∈ ts, EvenBlocks isF T) : EvenInside isF ts :=
  ⟨fun T hT => h T (List.mem_of_mem_dropLast hT), fun T hT => ⟨false, h T hT⟩⟩

theorem unique_append_par {A B : SpT Q K} (hA : UniqueLabels A) (hB : UniqueLabels B) (t : List Q → Bool) (p : Bool)
    (h1 : ∀ b ∈ A, t b.1 = xor true p) (h2 : ∀ b ∈ B, t b.1 = xor false p) : UniqueLabels (A ++ B) :=
  unique_append hA hB (fun q => xor (t q) p) (fun b hb => by simp [h1 b hb]) (fun b hb => by simp [h2 b hb])

/-- One site of the product of an operator and a state. -/
theorem pdotState_spec (isF : Q → Bool) {wl wr l r : BondInfo Q} {ups downs : List (BondInfo Q)} {W : OpT Q K} {B : SpT Q K}
    (hW : OpSite isF wl ups downs wr W) (hB : Conforms (l :: downs ++ [r]) B) (hp : SameParity isF B) (hneW : W.noBlocks = false) (hneB : B ≠ [])
    (hups : ups ≠ []) (hdowns : downs ≠ []) (hw : ∀ b ∈ downs, Dict.WF b) :
    ∃ R, W.pdotState isF B = some R ∧ Conforms ([wl, l] ++ ups ++ [wr, r]) R ∧ UniqueLabels R ∧
      ∀ w x u w' x', u.length = ups.length → entry R ([w, x] ++ u ++ [w', x']) =
        ((legIndices downs).map fun m => opEntry W (isF x.1) (w :: u ++ m ++ [w']) * entry B (x :: m ++ [x'])).sum := by
  have nW : W.ndim = ups.length + downs.length + 2 := by
    rw [OpT.ndim_of hW.odd hW.even hneW]; simp; omega
  have nB : B.ndim = downs.length + 2 := by
    rw [ndim_of_conforms hB hneB]; simp
  have hu0 : 0 < ups.length := List.length_pos_iff.2 hups
  have hd0 : 0 < downs.length := List.length_pos_iff.2 hdowns
  have e1 : W.ndim - B.ndim = ups.length := by omega
  have e2 : B.ndim - 2 = downs.length := by omega
  obtain ⟨Re, a1, a2, a3, a4, a5⟩ := sp_contract (wl :: ups) downs [wr] [l] [r] hw W.even B hW.even hB
  obtain ⟨Ro, b1, b2, b3, b4, b5⟩ := sp_contract (wl :: ups) downs [wr] [l] [r] hw W.odd B hW.odd hB
  have eA : (wl :: ups).length = ups.length + 1 := rfl
  have eB : ([l] : List (BondInfo Q)).length = 1 := rfl
  rw [eA, eB] at a1 b1
  obtain ⟨pB, hp⟩ := hp
  -- labels of the two parts differ
  have par : ∀ (p : Bool) (T : SpT Q K), (∀ b ∈ T, fermParity isF (physLabels b.1) = p) → ∀ R : SpT Q K,
      (∀ c ∈ R, ∃ u v m u' v' : List Q, u.length = (wl :: ups).length ∧ v.length = [wr].length ∧ m.length = downs.length ∧ u'.length = [l].length ∧
        v'.length = [r].length ∧ (∃ a ∈ T, a.1 = u ++ m ++ v) ∧ (∃ b ∈ B, b.1 = u' ++ m ++ v') ∧ c.1 = (u ++ v) ++ (u' ++ v')) →
      ∀ c ∈ R, xor (fermParity isF (physLabels (c.1.take (ups.length + 2)))) (fermParity isF (c.1.drop (ups.length + 2))) = xor p pB := by
    intro p T hT R hR c hc
    obtain ⟨u, v, m, u', v', h1, h2, h3, h4, h5, ⟨a, ha, hq⟩, ⟨b, hb, hq'⟩, h6⟩ := hR c hc
    rcases u with _ | ⟨w, u⟩
    · simp at h1
    obtain ⟨w', rfl⟩ := List.length_eq_one_iff.1 (h2.trans (by rfl))
    obtain ⟨x, rfl⟩ := List.length_eq_one_iff.1 (h4.trans (by rfl))
    obtain ⟨x', rfl⟩ := List.length_eq_one_iff.1 (h5.trans (by rfl))
    have hl : (w :: u ++ [w']).length = ups.length + 2 := by simp at h1 ⊢; exact h1
    rw [h6, ← hl, List.take_left, List.drop_left, physLabels_mid]
    have k1 := hT a ha
    rw [hq] at k1
    have : w :: u ++ m ++ [w'] = w :: (u ++ m) ++ [w'] := by simp
    rw [this, physLabels_mid, fermParity_append] at k1
    have k2 := hp b hb
    rw [hq', fermParity_append, fermParity_append] at k2
    rw [fermParity_append, ← k1]
    exact xor_even _ _ _ _ _ k2
  have hu : UniqueLabels (Ro ++ Re) := unique_append_par b3 a3
    (fun q => xor (fermParity isF (physLabels (q.take (ups.length + 2)))) (fermParity isF (q.drop (ups.length + 2))))
    pB (par true W.odd hW.oddParity Ro b5) (par false W.even hW.evenParity Re a5)
  set f := OpT.factor isF [ups.length + 2] with hf
  have hC := conforms_addAliased hu b2 a2 f (fun _ => false)
  have hL : ((wl :: ups ++ [wr]) ++ ([l] ++ [r])) = wl :: ups ++ [wr, l, r] := by simp
  rw [hL] at hC
  have hperm : (stAxes ups.length).Perm (List.range (wl :: ups ++ [wr, l, r]).length) := by
    have : (wl :: ups ++ [wr, l, r]).length = ups.length + 4 := by simp
    rw [this]; exact stAxes_perm _
  refine ⟨(OpT.addAliased Ro Re f fun _ => false).transpose (some (stAxes ups.length)), ?_, ?_, ?_, ?_⟩
  · unfold OpT.pdotState
    rw [if_neg (by omega)]
    simp only [e1, e2]
    unfold OpT.tensordotState
    have m1 : ((List.range' (ups.length + 1) downs.length).map Int.ofNat).map (SpT.normAxis W.ndim) = List.range' (ups.length + 1) downs.length :=
      normAxes_ofNat _ _
    have m2 : ((List.range' 1 downs.length).map Int.ofNat).map (SpT.normAxis B.ndim) = List.range' 1 downs.length := normAxes_ofNat _ _
    unfold axesAt at a1 b1
    simp only [m1, m2, a1, b1, Option.bind_some, Option.map_some, min_range' 1 downs.length hd0]
    have m3 : W.ndim - (List.range' (ups.length + 1) downs.length).length = ups.length + 2 := by
      simp; omega
    rw [m3]
    rfl
  · have := C14_conforms _ _ hC _ hperm
    have hp : (stAxes ups.length).map (fun i => (wl :: ups ++ [wr, l, r]).getD i []) = [wl, l] ++ ups ++ [wr, r] := by
      let _ : Zero (BondInfo Q) := ⟨[]⟩
      exact pick_stAxes wl ups wr l r
    rwa [hp] at this
  · exact transpose_unique hC (addAliased_unique _ _ hu _ _) hperm
  · intro w x u w' x' hul
    have hx : (w :: u ++ [w', x, x']).length = (wl :: ups ++ [wr, l, r]).length := by simp [hul]
    have hE := C14_entry _ _ hC _ hperm (w :: u ++ [w', x, x']) hx
    have hpk := pick_stAxes w u w' x x'
    rw [hul] at hpk
    unfold pick at hpk
    rw [hpk] at hE
    rw [hE, entry_addAliased _ _ hu]
    have s1 : w :: u ++ [w', x, x'] = (w :: u ++ [w']) ++ ([x] ++ [x']) := by simp
    have s2 : f ((w :: u ++ [w', x, x']).map Prod.fst) = isF x.1 := by
      rw [hf, factor_eq]
      have : pick [ups.length + 2] ((w :: u ++ [w', x, x']).map Prod.fst) = [x.1] := by
        unfold pick
        rw [← hul]
        simp only [List.map_cons, List.map_nil, List.map_append]
        congr 1
        rw [List.getD_eq_getElem?_getD, List.getElem?_append_right (by simp)]
        simp
      rw [this, fermParity_cons]
      simp [fermParity]
    rw [s2, s1, b4 (w :: u) [w'] [x] [x'] (by simp [hul]) rfl rfl rfl, a4 (w :: u) [w'] [x] [x'] (by simp [hul]) rfl rfl rfl,
      ← sum_map_mul_left', ← sum_map_mul_left', ← sum_map_add']
    refine sum_map_congr' _ _ _ fun m _ => ?_
    unfold opEntry
    simp only [List.singleton_append, paritySign, Bool.false_eq_true, if_false, List.cons_append, List.nil_append]
    ring

end
end Verif
