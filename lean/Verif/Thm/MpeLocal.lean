import Verif.Proof.LocalWindow
import Verif.Thm.MpeSweep

/-!
C58: the local problem of a sweep (`/repo/pyblock3/algorithms/dmrg.py`, `/repo/pyblock3/algebra/mpe.py`): the tensors of a window are merged to one, the
operator of the window is applied to it by `@` for one-tensor states, and the result is the whole operator restricted to the states that differ in the
window only.
-/

set_option linter.unusedSectionVars false

namespace Verif
section
variable {Q K : Type} [DecidableEq Q] [AddCommGroup Q] [CommRing K] [StarRing K]

/-- **C58**: merging the tensors of a state gives one tensor whose components are the amplitudes of the state. -/
theorem C58_merge {l r : BondInfo Q} {X : List (BondInfo Q)} {phys : List (List (BondInfo Q))} {m : Mps Q K} (h : OnBonds (l :: X ++ [r]) phys m.tensors)
    (hw : ∀ b ∈ X, GoodBond b) : ∃ T, m.merge = some ⟨[T], m.const⟩ ∧ Conforms (l :: phys.flatten ++ [r]) T ∧
      ∀ x ps y, List.Forall₂ (fun (p : List (Q × Nat)) ph => p.length = ph.length) ps phys → entry T (x :: ps.flatten ++ [y]) = ampl m.tensors X x ps y := by
  obtain ⟨T, t1, t2, -, t4⟩ := merge_spec h fun b hb => (hw b hb).1
  exact ⟨T, t1, t2, t4⟩

/-- The product without the constant. -/
theorem product_tensors {isF : Q → Bool} (h0 : isF 0 = false) (le : Q → Q → Bool) {ph0 ph1 : List (BondInfo Q) × List (BondInfo Q)} {m : BondInfo Q}
    {ws : List (OpT Q K)} {T : SpT Q K} (h : LocalOp isF ph0 ph1 m ws T) :
    (Mps.applyOneTensors isF le ws T = none ∧ ∀ a b, a.length = ph0.1.length → b.length = ph1.1.length → appliedOne isF ph0.2 ph1.2 m ws T a b = 0) ∨
      ∃ R, Mps.applyOneTensors isF le ws T = some R ∧ Conforms ([(0, 1)] :: (ph0.1 ++ ph1.1) ++ [[(0, 1)]]) R ∧ UniqueLabels R ∧
        ∀ a b, a.length = ph0.1.length → b.length = ph1.1.length → entry R ((0, 0) :: (a ++ b) ++ [(0, 0)]) = appliedOne isF ph0.2 ph1.2 m ws T a b := by
  have hl := (OpOnBonds.lengths (l := [(0, 1)]) (bonds := [m, [(0, 1)]]) h.op).1
  obtain ⟨A0, A1, rfl⟩ := List.length_eq_two.1 (show ws.length = 2 by simpa using hl)
  obtain ⟨hA0, hA1, -⟩ := h.op
  obtain ⟨n0, l0, g0⟩ := h.legs ph0 (by simp)
  obtain ⟨n1, l1, g1⟩ := h.legs ph1 (by simp)
  have ne : ∀ {ph : List (BondInfo Q) × List (BondInfo Q)}, ph.1 ≠ [] → ph.1.length = ph.2.length → ph.2 ≠ [] := by
    intro ph a b c
    rw [c] at b
    exact a (List.length_eq_zero_iff.1 b)
  exact applyOne_two h0 le hA0 hA1 l0 l1 (ne n0 l0) (ne n1 l1) (fun b hb => (g0 b (by simp [hb])).1) (fun b hb => (g1 b (by simp [hb])).1) h.bond.1 h.ket h.ketEven

/-- **C58**: `operator @ state` for a state of one tensor and an operator of two tensors, with the constant of the operator: if it does not raise, every
component is the sum of matrix elements times components, plus the constant times the component.  It raises only if the first part is zero.  With a
constant the state must fit the row legs of the operator, too. -/
theorem C58_product [DecidableEq K] {isF : Q → Bool} (h0 : isF 0 = false) (le : Q → Q → Bool) {ph0 ph1 : List (BondInfo Q) × List (BondInfo Q)} {m : BondInfo Q}
    {o : Mpo Q K} {T : SpT Q K} (h : LocalOp isF ph0 ph1 m o.tensors T) (hc : o.const = 0 ∨ Conforms ([(0, 1)] :: (ph0.1 ++ ph1.1) ++ [[(0, 1)]]) T) :
    (Mps.applyOne isF le o ⟨[T], 0⟩ = none ∧ ∀ a b, a.length = ph0.1.length → b.length = ph1.1.length → appliedOne isF ph0.2 ph1.2 m o.tensors T a b = 0) ∨
      ∃ R, Mps.applyOne isF le o ⟨[T], 0⟩ = some ⟨[R], 0⟩ ∧ Conforms ([(0, 1)] :: (ph0.1 ++ ph1.1) ++ [[(0, 1)]]) R ∧ UniqueLabels R ∧
        ∀ a b, a.length = ph0.1.length → b.length = ph1.1.length → entry R ((0, 0) :: (a ++ b) ++ [(0, 0)]) =
          appliedOne isF ph0.2 ph1.2 m o.tensors T a b + o.const * entry T ((0, 0) :: (a ++ b) ++ [(0, 0)]) := by
  unfold Mps.applyOne
  dsimp only
  rcases product_tensors h0 le h with ⟨e, hz⟩ | ⟨R, r1, r2, r3, r4⟩
  · left
    exact ⟨by rw [e]; rfl, hz⟩
  · right
    rw [r1, Option.bind_some]
    by_cases hz : o.const = 0
    · refine ⟨R, by simp [hz], r2, r3, fun a b ha hb => ?_⟩
      rw [r4 a b ha hb, hz, zero_mul, add_zero]
    · have hk : Conforms ([(0, 1)] :: (ph0.1 ++ ph1.1) ++ [[(0, 1)]]) (T.smul o.const) :=
        conforms_mapShape _ (fun _ => rfl) (fun _ => rfl) (hc.resolve_left hz)
      obtain ⟨a1, a2, a3⟩ := C11_add _ R (T.smul o.const) r2 hk r3
      refine ⟨R.add (T.smul o.const), ?_, a1, a2, fun a b ha hb => ?_⟩
      · rw [if_pos ⟨hz, rfl⟩]
        simp [Mps.add, Mps.addTensors, Mps.smul]
      · rw [a3, r4 a b ha hb, C11_smul]

/-- Expectation value of a local problem. -/
theorem expectation_local [DecidableEq K] {isF : Q → Bool} (h0 : isF 0 = false) (le : Q → Q → Bool) {ph0 ph1 : List (BondInfo Q) × List (BondInfo Q)}
    {m : BondInfo Q} {B T : SpT Q K} {ws : List (OpT Q K)} (h : LocalProblem isF ph0 ph1 m B ws T) :
    Mpe.expectationOne isF le ⟨[B], 0⟩ ⟨ws, 0⟩ ⟨[T], 0⟩ = none ∧ sandwichOne isF ph0 ph1 m B ws T = 0 ∨
      Mpe.expectationOne isF le ⟨[B], 0⟩ ⟨ws, 0⟩ ⟨[T], 0⟩ = some (sandwichOne isF ph0 ph1 m B ws T) := by
  unfold Mpe.expectationOne
  rcases C58_product (o := ⟨ws, 0⟩) h0 le h.toLocalOp (Or.inl rfl) with ⟨e, hz⟩ | ⟨R, r1, r2, r3, r4⟩
  · left
    refine ⟨by rw [e]; rfl, ?_⟩
    unfold sandwichOne
    refine sum_map_zero' _ _ fun a ha => sum_map_zero' _ _ fun b hb => ?_
    rw [hz a b (legIndices_length ha) (legIndices_length hb), mul_zero]
  · right
    rw [r1, Option.bind_some]
    have hB : OnBonds ([(0, 1)] :: [] ++ [[(0, 1)]]) [ph0.1 ++ ph1.1] (Mps.conj ⟨[B], 0⟩).tensors :=
      onBonds_conj (ts := [B]) ⟨h.bra, trivial⟩
    have hR : OnBonds ([(0, 1)] :: [] ++ [[(0, 1)]]) [ph0.1 ++ ph1.1] (Mps.mk [R] (0 : K)).tensors := ⟨r2, trivial⟩
    rw [dot_any hB hR (by simp) (by simp) (by
      intro ph hph c hc
      rw [List.mem_singleton.1 hph] at hc
      rcases List.mem_append.1 hc with hc | hc
      · exact ((h.legs ph0 (by simp)).2.2 c (by simp [hc])).1
      · exact ((h.legs ph1 (by simp)).2.2 c (by simp [hc])).1) (by simp)]
    congr 1
    rw [List.map_singleton, cart_cons_sum, legIndices_append_sum]
    unfold sandwichOne
    refine sum_map_congr' _ _ _ fun a ha => sum_map_congr' _ _ _ fun b hb => ?_
    have e := r4 a b (legIndices_length ha) (legIndices_length hb)
    rw [zero_mul, add_zero] at e
    have e2 : ampl (Mps.conj (⟨[B], 0⟩ : Mps Q K)).tensors [] (0, 0) [a ++ b] (0, 0) = _ := (C19_conj (⟨[B], 0⟩ : Mps Q K)).2 [] (0, 0) [a ++ b] (0, 0)
    rw [← e, cart, List.map_singleton, List.sum_singleton, e2]
    rfl

/-! ### Windows -/

/-- A window of one or two sites, the tensors given by functions of the site. -/
theorem local_functions {isF : Q → Bool} (h0 : isF 0 = false) {qr : Arr K → Arr K × Arr K} {canon same : Bool} {qb qk : Q} {dq : Option Q}
    {ids : Mpe.Idents Q K} (hI : IdentsFor isF qb qk dq ids) {mpo : List (OpT Q K)} {f g : Nat → SpT Q K} {Y X Z : List (BondInfo Q)}
    {phys : List (List (BondInfo Q) × List (BondInfo Q))}
    (h : Network isF qb qk Y X Z phys ((List.range mpo.length).map g) mpo ((List.range mpo.length).map f))
    {l r : Nat} (hlr : l < r) (hr2 : r ≤ l + 2) (hr : r ≤ mpo.length) (hf : ∀ i < mpo.length, i < l ∨ r ≤ i → g i ≠ [] ∧ f i ≠ []) (c : K) :
    ∃ L R bra o ket B T ph0 ph1 m, Mpe.leftEnv (Mpe.sweepCfg isF qr canon same mpo ids) f g l = some L ∧
      Mpe.rightEnv (Mpe.sweepCfg isF qr canon same mpo ids) f g r = some R ∧
      Mpe.effMps ids.lKet ((List.range' l (r - l)).map f) ids.rKet = some ket ∧ Mpe.effMps ids.lBra ((List.range' l (r - l)).map g) ids.rBra = some bra ∧
      Mpe.effMpo isF L ((mpo.drop l).take (r - l)) R c = some o ∧ o.const = c ∧ ket.merge = some ⟨[T], 0⟩ ∧ bra.merge = some ⟨[B], 0⟩ ∧
      LocalProblem isF ph0 ph1 m B o.tensors T ∧
      sandwichOne isF ph0 ph1 m B o.tensors T =
          paritySign K (isF (dq.getD 0) && isF qk) * sandwich isF phys Y X Z ((List.range mpo.length).map g) mpo ((List.range mpo.length).map f) false
            (0, 0) (0, 0) (0, 0) (qb, 0) (0, 0) (qk, 0) ∧
      ((∀ i, i < l ∨ r ≤ i + 1 → Y.getD i [] = Z.getD i []) → qb = qk → (∀ ph ∈ phys, ph.1 = ph.2) → ph0.1 = ph0.2 ∧ ph1.1 = ph1.2) ∧
      ph0.2 ++ ph1.2 = ([(0, 1)] :: Z).getD l [] :: ((((phys.map Prod.snd).drop l).take (r - l)).flatten) ++ [(Z ++ [[(qk, 1)]]).getD (r - 1) []] ∧
      ph0.1 ++ ph1.1 = ([(0, 1)] :: Y).getD l [] :: ((((phys.map Prod.fst).drop l).take (r - l)).flatten) ++ [(Y ++ [[(qb, 1)]]).getD (r - 1) []] := by
  obtain ⟨S, hS, hB, hW, hT, hE, hG, hV, hY, hZ, hP⟩ := h.sites
  have hlen : S.length = mpo.length := by rw [← hW, List.length_map]
  have hfull : ∀ σ ∈ S.take l ++ S.drop r, σ.full := by
    intro σ hσ
    obtain ⟨i, hi, hio, rfl⟩ : ∃ i, ∃ hi : i < S.length, (i < l ∨ r ≤ i) ∧ S[i] = σ := by
      rcases List.mem_append.1 hσ with hm | hm
      · obtain ⟨i, hi, e⟩ := List.getElem_of_mem hm
        rw [List.getElem_take] at e
        simp only [List.length_take] at hi
        exact ⟨i, by omega, Or.inl (by omega), e⟩
      · obtain ⟨i, hi, e⟩ := List.getElem_of_mem hm
        rw [List.getElem_drop] at e
        simp only [List.length_drop] at hi
        exact ⟨r + i, by omega, Or.inr (by omega), e⟩
    have e2 : S[i].B = g i := by
      have : (S.map (·.B))[i]'(by simpa using hi) = ((List.range mpo.length).map g)[i]'(by simp; omega) := by simp only [hB]
      simpa using this
    have e3 : S[i].T = f i := by
      have : (S.map (·.T))[i]'(by simpa using hi) = ((List.range mpo.length).map f)[i]'(by simp; omega) := by simp only [hT]
      simpa using this
    have := hf i (by omega) hio
    exact ⟨by rw [e2]; exact this.1, by rw [e3]; exact this.2⟩
  have hups : (∀ ph ∈ phys, ph.1 = ph.2) → ∀ σ ∈ S, σ.ups = σ.downs := fun hph σ hσ =>
    hph (σ.ups, σ.downs) (by rw [← hP]; exact List.mem_map_of_mem hσ)
  have hbond : (∀ i, i < l ∨ r ≤ i + 1 → Y.getD i [] = Z.getD i []) → qb = qk → ∀ i (hi : i < S.length), i < l ∨ r ≤ i + 1 → S[i].rb = S[i].rk := by
    intro hyz hq i hi hio
    have l2 := congrArg List.length hY
    have l4 := congrArg List.length hZ
    simp only [List.length_map, List.length_append, List.length_cons, List.length_nil] at l2 l4
    have x1 : S[i].rb = (Y ++ [[(qb, 1)]]).getD i [] := by rw [← hY]; simp [hi]
    have x2 : S[i].rk = (Z ++ [[(qk, 1)]]).getD i [] := by rw [← hZ]; simp [hi]
    rw [x1, x2]
    by_cases hiY : i < Y.length
    · rw [List.getD_append Y _ _ _ hiY, List.getD_append Z _ _ _ (by omega), hyz i hio]
    · rw [List.getD_append_right Y _ _ _ (by omega), List.getD_append_right Z _ _ _ (by omega), hq, show i - Y.length = i - Z.length by omega]
  have hA : (∀ i, i < l ∨ r ≤ i + 1 → Y.getD i [] = Z.getD i []) → qb = qk → ∀ τ ∈ S.take l, τ.rb = τ.rk := by
    intro hyz hq τ hτ
    obtain ⟨i, hi, rfl⟩ := List.getElem_of_mem hτ
    simp only [List.length_take] at hi
    rw [List.getElem_take]
    exact hbond hyz hq i (by omega) (Or.inl (by omega))
  have e1 : (S.drop l).drop (r - l) = S.drop r := by rw [List.drop_drop]; congr 1; omega
  have hlast : ∀ σ, ((S.drop l).take (r - l)).getLast? = some σ → (∀ i, i < l ∨ r ≤ i + 1 → Y.getD i [] = Z.getD i []) → qb = qk → σ.rb = σ.rk := by
    intro σ hσ hyz hq
    rw [List.getLast?_eq_getElem?, List.getElem?_take] at hσ
    simp only [List.length_take, List.length_drop] at hσ
    rw [if_pos (by omega), List.getElem?_drop, show l + (min (r - l) (S.length - l) - 1) = r - 1 by omega,
      List.getElem?_eq_getElem (by omega)] at hσ
    obtain rfl := Option.some.inj hσ
    exact hbond hyz hq (r - 1) (by omega) (Or.inr (by omega))
  have eZ : ([(0, 1)] :: (S.take l).map (·.rk)).getLastD [] = ([(0, 1)] :: Z).getD l [] := by
    have l4 := congrArg List.length hZ
    simp only [List.length_map, List.length_append, List.length_cons, List.length_nil] at l4
    rw [List.map_take, hZ, List.getLastD_eq_getLast?, List.getLast?_eq_getElem?]
    simp only [List.length_cons, List.length_take, List.length_append, List.length_nil]
    rw [show min l (Z.length + (0 + 1)) + 1 - 1 = l by omega, List.getD_eq_getElem?_getD]
    rcases l with _ | l
    · rfl
    · rw [List.getElem?_cons_succ, List.getElem?_cons_succ, List.getElem?_take_of_lt (by omega), List.getElem?_append_left (by omega)]
  have eY : ([(0, 1)] :: (S.take l).map (·.rb)).getLastD [] = ([(0, 1)] :: Y).getD l [] := by
    have l4 := congrArg List.length hY
    simp only [List.length_map, List.length_append, List.length_cons, List.length_nil] at l4
    rw [List.map_take, hY, List.getLastD_eq_getLast?, List.getLast?_eq_getElem?]
    simp only [List.length_cons, List.length_take, List.length_append, List.length_nil]
    rw [show min l (Y.length + (0 + 1)) + 1 - 1 = l by omega, List.getD_eq_getElem?_getD]
    rcases l with _ | l
    · rfl
    · rw [List.getElem?_cons_succ, List.getElem?_cons_succ, List.getElem?_take_of_lt (by omega), List.getElem?_append_left (by omega)]
  have eP : S.map (·.downs) = phys.map Prod.snd := by
    rw [← hP, List.map_map]; rfl
  have eU : S.map (·.ups) = phys.map Prod.fst := by
    rw [← hP, List.map_map]; rfl
  have eRb : ∀ σ, ((S.drop l).take (r - l)).getLast? = some σ → σ.rb = (Y ++ [[(qb, 1)]]).getD (r - 1) [] := by
    intro σ hσ
    rw [List.getLast?_eq_getElem?, List.getElem?_take] at hσ
    simp only [List.length_take, List.length_drop] at hσ
    rw [if_pos (by omega), List.getElem?_drop, show l + (min (r - l) (S.length - l) - 1) = r - 1 by omega] at hσ
    rw [← hY, List.getD_eq_getElem?_getD, List.getElem?_map, hσ]; rfl
  have eR : ∀ σ, ((S.drop l).take (r - l)).getLast? = some σ → σ.rk = (Z ++ [[(qk, 1)]]).getD (r - 1) [] := by
    intro σ hσ
    rw [List.getLast?_eq_getElem?, List.getElem?_take] at hσ
    simp only [List.length_take, List.length_drop] at hσ
    rw [if_pos (by omega), List.getElem?_drop, show l + (min (r - l) (S.length - l) - 1) = r - 1 by omega] at hσ
    rw [← hZ, List.getD_eq_getElem?_getD, List.getElem?_map, hσ]; rfl
  rcases (show r - l = 1 ∨ r - l = 2 by omega) with hd | hd
  · obtain ⟨σ, hw⟩ : ∃ σ, (S.drop l).take (r - l) = [σ] := List.length_eq_one_iff.1 (by simp; omega)
    have hdec : S = S.take l ++ σ :: S.drop r := by
      have e2 : S.drop l = [σ] ++ S.drop r := by rw [← hw, ← e1, List.take_append_drop]
      conv_lhs => rw [← List.take_append_drop l S, e2]
      simp
    have hmap : ∀ {α : Type} (F : NSite Q K → α) (L : List α), S.map F = L → [F σ] = (L.drop l).take (r - l) := by
      intro α F L hL
      rw [← hL, ← List.map_drop, ← List.map_take, hw]; rfl
    obtain ⟨L, R, B, ws, T, ph0, ph1, m, a1, a2, a3, a4, a5, a6, a7, a8, aL⟩ := window_one h0 hI (c := c) (A := S.take l) (C := S.drop r)
      (hdec ▸ hS) (hdec ▸ hE) hfull (hdec ▸ hG)
    rw [hmap _ _ hT, range_map_window _ _ _ _ hr] at a3
    rw [hmap _ _ hB, range_map_window _ _ _ _ hr] at a4
    rw [hmap _ _ hW] at a5
    rw [← hdec] at a7
    refine ⟨L, R, ⟨[B], 0⟩, ⟨ws, c⟩, ⟨[T], 0⟩, B, T, ph0, ph1, m, ?_, ?_, a3, a4, a5, rfl, rfl, rfl, a6, ?_, ?_, ?_⟩
    · rw [leftEnv_eq hW hB hT (by omega), a1]
    · rw [rightEnv_eq hW hB hT (mpo.length - r) r (by omega), a2]
    · rw [a7, hV]
    · intro hyz hq hph
      exact a8 (hA hyz hq) (hups hph σ (by rw [hdec]; simp)) (hlast σ (by rw [hw]; rfl) hyz hq)
    · rw [aL.1, eZ, ← hmap _ _ eP, eR σ (by rw [hw]; rfl)]
      refine ⟨by simp, ?_⟩
      rw [aL.2, eY, ← hmap _ _ eU, eRb σ (by rw [hw]; rfl)]; simp
  · obtain ⟨σ0, σ1, hw⟩ : ∃ σ0 σ1, (S.drop l).take (r - l) = [σ0, σ1] := List.length_eq_two.1 (by simp; omega)
    have hdec : S = S.take l ++ (σ0 :: [] ++ σ1 :: S.drop r) := by
      have e2 : S.drop l = [σ0, σ1] ++ S.drop r := by rw [← hw, ← e1, List.take_append_drop]
      conv_lhs => rw [← List.take_append_drop l S, e2]
      simp
    have hmap : ∀ {α : Type} (F : NSite Q K → α) (L : List α), S.map F = L → (σ0 :: [] ++ [σ1]).map F = (L.drop l).take (r - l) := by
      intro α F L hL
      rw [← hL, ← List.map_drop, ← List.map_take, hw]; rfl
    obtain ⟨L, R, bra, o, ket, Y', X', Z', phys', a1, a2, a3, a4, a5, a6, a7, a8, a9, a10, a11, a12, aL⟩ := window_spec h0 hI (c := c) (A := S.take l) (C := S.drop r)
      (hdec ▸ hS) (hdec ▸ hE) hfull (hdec ▸ hG)
    have ho : o.tensors.length = 2 := by
      simp only [List.map_append, List.map_cons, List.map_nil] at a5
      rw [effMpo_two] at a5
      obtain ⟨w', -, a5⟩ := Option.bind_eq_some_iff.1 a5
      obtain ⟨z', -, rfl⟩ := Option.map_eq_some_iff.1 a5
      rfl
    rw [hmap _ _ hT, range_map_window _ _ _ _ hr] at a3
    rw [hmap _ _ hB, range_map_window _ _ _ _ hr] at a4
    rw [hmap _ _ hW] at a5
    rw [← hdec] at a11
    obtain ⟨B, T, ph0, ph1, m, b1, b2, b3, b4, b5, b6⟩ := local_of_two a6 ho
    rw [a10] at b1
    rw [a9] at b2
    refine ⟨L, R, bra, o, ket, B, T, ph0, ph1, m, ?_, ?_, a3, a4, a5, a8, b2, b1, b3, ?_, ?_, ?_⟩
    · rw [leftEnv_eq hW hB hT (by omega), a1]
    · rw [rightEnv_eq hW hB hT (mpo.length - r) r (by omega), a2]
    · rw [b4, a11, hV]
    · intro hyz hq hph
      exact b5 (a12 (hA hyz hq) (fun τ hτ => hups hph τ (by
        rw [hdec]
        simp only [List.cons_append, List.nil_append, List.mem_cons, List.not_mem_nil, or_false] at hτ
        rcases hτ with rfl | rfl <;> simp)) (hlast σ1 (by rw [hw]; rfl) hyz hq))
    · rw [b6.1, aL.1, eZ, ← hmap _ _ eP, eR σ1 (by rw [hw]; rfl)]
      refine ⟨rfl, ?_⟩
      rw [b6.2, aL.2, eY, ← hmap _ _ eU, eRb σ1 (by rw [hw]; rfl)]

/-- **C58**: an object made from a bra, an operator and a ket without empty tensors has identities at its ends; and whatever windows have been treated since,
if the present bra and ket fit the operator and are not zero, then for a window of one or two sites `mpe[l:r]` is made from a bra `g` and a ket `f` that
come from the present ones by canonicalisation outside the window, and its operator `o` is the restriction of the whole operator: for **all** bras `g'` and
kets `f'` that agree with `g` and `f` outside the window, the tensors of the window merge to one tensor each, and `⟨bra|o|ket⟩` of these is that of the
whole operator with `g'` and `f'`, up to a sign that is `-1` only if the operator changes the fermion parity and the ket has an odd number of fermions. -/
theorem C58_window {isF : Q → Bool} (h0 : isF 0 = false) (le : Q → Q → Bool) {qr : Arr K → Arr K × Arr K} (hqr : Factorises qr) {canon same : Bool}
    {qb qk : Q} {dq : Option Q} {bra0 ket0 : List (SpT Q K)} {mpo : Mpo Q K} {Y0 X Z0 : List (BondInfo Q)}
    {phys : List (List (BondInfo Q) × List (BondInfo Q))} (hnet : Network isF qb qk Y0 X Z0 phys bra0 mpo.tensors ket0)
    (hne : ∀ T ∈ bra0 ++ ket0, T ≠ []) (hd : qb - qk = dq.getD 0) (hp : isF (dq.getD 0) = xor (isF qb) (isF qk)) :
    ∃ ids, Mpe.initIdents isF le bra0 mpo.tensors ket0 dq = some ids ∧
      ∀ (rounds : List (Mpe.Round (SpT Q K))) (s s' : Mpe.Sys (SpT Q K) (Option (OpT Q K))) (l r builds : Nat),
        (∀ x ∈ rounds, x.Valid (Mpe.sweepCfg isF qr canon same mpo.tensors ids)) → l < r → r ≤ l + 2 → r ≤ mpo.tensors.length →
        rounds.foldlM (fun s x => x.exec (Mpe.sweepCfg isF qr canon same mpo.tensors ids) s)
          (Mpe.new (fun i => ket0.getD i []) fun i => bra0.getD i []) = some s →
        (List.replicate builds ()).foldlM (fun s _ => Mpe.buildEnvs (Mpe.sweepCfg isF qr canon same mpo.tensors ids) l r s) s = some s' →
        ∀ {Y Z : List (BondInfo Q)}, Network isF qb qk Y X Z phys ((List.range mpo.tensors.length).map
            (Mpe.braOf (Mpe.sweepCfg isF qr canon same mpo.tensors ids) s)) mpo.tensors ((List.range mpo.tensors.length).map s.ket) →
          NonZero (phys.map Prod.fst) Y ((List.range mpo.tensors.length).map (Mpe.braOf (Mpe.sweepCfg isF qr canon same mpo.tensors ids) s)) (0, 0) (qb, 0) →
          NonZero (phys.map Prod.snd) Z ((List.range mpo.tensors.length).map s.ket) (0, 0) (qk, 0) →
          ∃ f g bra o ket, Mpe.effective isF qr canon same mpo ids l r s' = some (bra, o, ket) ∧ o.const = mpo.const ∧
            Mpe.effMps ids.lKet ((List.range' l (r - l)).map f) ids.rKet = some ket ∧ Mpe.effMps ids.lBra ((List.range' l (r - l)).map g) ids.rBra = some bra ∧
            (∃ Y' Z', SameState isF [(0, 1)] [(qb, 1)] (phys.map Prod.fst) Y ((List.range mpo.tensors.length).map
                (Mpe.braOf (Mpe.sweepCfg isF qr canon same mpo.tensors ids) s)) Y' ((List.range mpo.tensors.length).map g) ∧
              SameState isF [(0, 1)] [(qk, 1)] (phys.map Prod.snd) Z ((List.range mpo.tensors.length).map s.ket) Z' ((List.range mpo.tensors.length).map f) ∧
              Network isF qb qk Y' X Z' phys ((List.range mpo.tensors.length).map g) mpo.tensors ((List.range mpo.tensors.length).map f)) ∧
            ∀ (f' g' : Nat → SpT Q K) {Y' Z' : List (BondInfo Q)}, (∀ i, i < l ∨ r ≤ i → f' i = f i ∧ g' i = g i) →
              Network isF qb qk Y' X Z' phys ((List.range mpo.tensors.length).map g') mpo.tensors ((List.range mpo.tensors.length).map f') →
              ∃ bra' ket' B T ph0 ph1 m, Mpe.effMps ids.lKet ((List.range' l (r - l)).map f') ids.rKet = some ket' ∧
                Mpe.effMps ids.lBra ((List.range' l (r - l)).map g') ids.rBra = some bra' ∧ ket'.merge = some ⟨[T], 0⟩ ∧ bra'.merge = some ⟨[B], 0⟩ ∧
                LocalProblem isF ph0 ph1 m B o.tensors T ∧
                sandwichOne isF ph0 ph1 m B o.tensors T = paritySign K (isF (dq.getD 0) && isF qk) * sandwich isF phys Y' X Z'
                  ((List.range mpo.tensors.length).map g') mpo.tensors ((List.range mpo.tensors.length).map f') false (0, 0) (0, 0) (0, 0) (qb, 0) (0, 0) (qk, 0) := by
  obtain ⟨ids, hids, hI⟩ := idents_network h0 le hnet hne hd hp
  refine ⟨ids, hids, ?_⟩
  intro rounds s s' l r builds hval hlr hr2 hr hs hs' Y Z hn hnb hnk
  obtain ⟨f, g, hw, hf, hg⟩ := Mpe.C33_used _ _ _ rounds hval l r builds hlr hr s s' hs hs'
  obtain ⟨Z', hZ'⟩ := regauged_same hqr hf (goodBond_one 0) (goodBond_one qk)
    (fun ph hph c hc => by
      obtain ⟨p, hp, rfl⟩ := List.mem_map.1 hph
      exact (hn.legs p hp).2.2 c (by simp [hc])) (fun c hc => hn.bonds c (by simp [hc])) hn.ket
  obtain ⟨Y', hY'⟩ := regauged_same hqr hg (goodBond_one 0) (goodBond_one qb)
    (fun ph hph c hc => by
      obtain ⟨p, hp, rfl⟩ := List.mem_map.1 hph
      exact (hn.legs p hp).2.2 c (by simp [hc])) (fun c hc => hn.bonds c (by simp [hc])) hn.bra
  have hn' : Network isF qb qk Y' X Z' phys ((List.range mpo.tensors.length).map g) mpo.tensors ((List.range mpo.tensors.length).map f) :=
    { bra := hY'.on, op := hn.op, ket := hZ'.on, legs := hn.legs, braEven := hY'.even hn.braEven, ketEven := hZ'.even hn.ketEven,
      bonds := by
        intro c hc
        simp only [List.mem_append] at hc
        rcases hc with (hc | hc) | hc
        · exact hY'.good c hc
        · exact hn.bonds c (by simp [hc])
        · exact hZ'.good c hc }
  have hfull : ∀ i < mpo.tensors.length, g i ≠ [] ∧ f i ≠ [] := fun i hi =>
    ⟨hY'.full hnb _ (List.mem_map_of_mem (List.mem_range.2 hi)), hZ'.full hnk _ (List.mem_map_of_mem (List.mem_range.2 hi))⟩
  obtain ⟨L, R, bra, o, ket, B, T, ph0, ph1, m, a1, a2, a3, a4, a5, a6, -⟩ :=
    local_functions h0 (qr := qr) (canon := canon) (same := same) hI hn' hlr hr2 hr (fun i hi _ => hfull i hi) mpo.const
  refine ⟨f, g, bra, o, ket, effective_of hw a1 a2 a3 a4 a5, a6, a3, a4, ⟨Y', Z', hY', hZ', hn'⟩, ?_⟩
  intro f' g' Y'' Z'' hag hn''
  obtain ⟨L', R', bra', o', ket', B', T', ph0', ph1', m', b1, b2, b3, b4, b5, b6, b7, b8, b9, b10, -⟩ :=
    local_functions h0 (qr := qr) (canon := canon) (same := same) hI hn'' hlr hr2 hr (fun i hi hio => by
      rw [(hag i hio).1, (hag i hio).2]; exact hfull i hi) mpo.const
  rw [Mpe.leftEnv_congr (f' := f) (g' := g) l fun i hi => hag i (Or.inl hi), a1] at b1
  rw [Mpe.rightEnv_congr (f' := f) (g' := g) r hr fun i hi => hag i (Or.inr hi), a2] at b2
  obtain rfl := Option.some.inj b1
  obtain rfl := Option.some.inj b2
  rw [a5] at b5
  obtain rfl := Option.some.inj b5
  exact ⟨bra', ket', B', T', ph0', ph1', m', b3, b4, b7, b8, b9, b10⟩

/-- **C58**: for an operator that does not change the charge and has no constant, `expectation` of `mpe[l:r]` after merging, for a window of one or two
sites, is the number of the whole problem; it can raise only if that number is 0. -/
theorem C58_expectation [DecidableEq K] {isF : Q → Bool} (h0 : isF 0 = false) (le : Q → Q → Bool) {qr : Arr K → Arr K × Arr K} (hqr : Factorises qr)
    {canon same : Bool} {q : Q} {dq : Option Q} {bra0 ket0 : List (SpT Q K)} {mpo : Mpo Q K} {Y0 X Z0 : List (BondInfo Q)}
    {phys : List (List (BondInfo Q) × List (BondInfo Q))} (hnet : Network isF q q Y0 X Z0 phys bra0 mpo.tensors ket0)
    (hne : ∀ T ∈ bra0 ++ ket0, T ≠ []) (hd : dq.getD 0 = 0) (hc : mpo.const = 0) :
    ∃ ids, Mpe.initIdents isF le bra0 mpo.tensors ket0 dq = some ids ∧
      ∀ (rounds : List (Mpe.Round (SpT Q K))) (s s' : Mpe.Sys (SpT Q K) (Option (OpT Q K))) (l r builds : Nat),
        (∀ x ∈ rounds, x.Valid (Mpe.sweepCfg isF qr canon same mpo.tensors ids)) → l < r → r ≤ l + 2 → r ≤ mpo.tensors.length →
        rounds.foldlM (fun s x => x.exec (Mpe.sweepCfg isF qr canon same mpo.tensors ids) s)
          (Mpe.new (fun i => ket0.getD i []) fun i => bra0.getD i []) = some s →
        (List.replicate builds ()).foldlM (fun s _ => Mpe.buildEnvs (Mpe.sweepCfg isF qr canon same mpo.tensors ids) l r s) s = some s' →
        ∀ {Y Z : List (BondInfo Q)} (bs ks : List (SpT Q K)), bs = (List.range mpo.tensors.length).map
            (Mpe.braOf (Mpe.sweepCfg isF qr canon same mpo.tensors ids) s) → ks = (List.range mpo.tensors.length).map s.ket →
          Network isF q q Y X Z phys bs mpo.tensors ks → NonZero (phys.map Prod.fst) Y bs (0, 0) (q, 0) → NonZero (phys.map Prod.snd) Z ks (0, 0) (q, 0) →
          ∃ bra o ket bra1 ket1, Mpe.effective isF qr canon same mpo ids l r s' = some (bra, o, ket) ∧ bra.merge = some bra1 ∧ ket.merge = some ket1 ∧
            (Mpe.expectationOne isF le bra1 o ket1 = some (sandwich isF phys Y X Z bs mpo.tensors ks false (0, 0) (0, 0) (0, 0) (q, 0) (0, 0) (q, 0)) ∨
              Mpe.expectationOne isF le bra1 o ket1 = none ∧ sandwich isF phys Y X Z bs mpo.tensors ks false (0, 0) (0, 0) (0, 0) (q, 0) (0, 0) (q, 0) = 0) := by
  obtain ⟨ids, hids, H⟩ := C58_window h0 le hqr (canon := canon) (same := same) hnet hne (by rw [sub_self, hd]) (by rw [hd, h0]; simp)
  refine ⟨ids, hids, ?_⟩
  intro rounds s s' l r builds hval hlr hr2 hr hs hs' Y Z bs ks hbs hks hn hnb hnk
  subst hbs hks
  obtain ⟨f, g, bra, o, ket, e1, e2, e3, e4, ⟨Y', Z', hY', hZ', hn'⟩, H'⟩ := H rounds s s' l r builds hval hlr hr2 hr hs hs' hn hnb hnk
  obtain ⟨bra', ket', B, T, ph0, ph1, m, c1, c2, c3, c4, c5, c6⟩ := H' f g (fun _ _ => ⟨rfl, rfl⟩) hn'
  rw [e3] at c1
  rw [e4] at c2
  obtain rfl := Option.some.inj c1
  obtain rfl := Option.some.inj c2
  rw [sandwich_same hY' hZ', hd, h0, Bool.false_and] at c6
  simp only [paritySign, Bool.false_eq_true, if_false, one_mul] at c6
  obtain ⟨ws, c⟩ := o
  dsimp only at e2 c5 c6
  obtain rfl : c = 0 := e2.trans hc
  refine ⟨bra, ⟨ws, 0⟩, ket, _, _, e1, c4, c3, ?_⟩
  rw [← c6]
  rcases expectation_local h0 le c5 with h | h
  · exact Or.inr h
  · exact Or.inl h

end

section

/-- The number of a window of an object made from `bra`, `H`, `ket` with merged tensors (second component), and with separate tensors (first component). -/
def windowValues (canon : Bool) (H : Mpo Int Int) (bra ket : List (SpT Int Int)) (l r : Nat) : Option (Option Int × Option Int) :=
  (Mpe.initIdents mpoIsF (fun a b => decide (a ≤ b)) bra H.tensors ket none).bind fun ids =>
  (Mpe.effective mpoIsF plainQR canon false H ids l r (Mpe.new (fun i => ket.getD i []) fun i => bra.getD i [])).bind fun w =>
  w.1.merge.bind fun b => w.2.2.merge.map fun k =>
    (Mpe.expectation mpoIsF (fun a b => decide (a ≤ b)) w.1 w.2.1 w.2.2, Mpe.expectationOne mpoIsF (fun a b => decide (a ≤ b)) b w.2.1 k)

/-- The hypotheses of `C58_window` and `C58_expectation` are those of `C57_expectation` (`swNet`); here are windows of one and two sites of that system,
with and without canonicalisation; one of them has merged tensors of five legs. -/
example : (windowValues true swH swBra swKet 1 2).map Prod.snd = some (some 3202320) := by decide +kernel

example : (windowValues false swH swBra swKet 0 1).map Prod.snd = some (some 3202320) := by decide +kernel

example : windowValues true swH swBra swKet 1 3 = some (some 3202320, some 3202320) := by decide +kernel

/-- The product of `C58_product` with a constant: the first two tensors of a hopping operator with the constant 2. -/
def locH : Mpo Int Int :=
  ⟨[⟨mpoBlocks [([0, 1, 0, 1], 3)], mpoBlocks [([0, 1, 1, 0], 5)]⟩, ⟨mpoBlocks [([1, 0, 1, 0], 7)], mpoBlocks [([0, 0, 0, 0], 1), ([0, 1, 1, 0], 1)]⟩], 2⟩

def locPh : List (BondInfo Int) × List (BondInfo Int) := ([[(0, 1), (1, 1)]], [[(0, 1), (1, 1)]])

/-- A state with an even number of particles, for which the edges are those of a sub-system. -/
def locT2 : SpT Int Int := mpoBlocks [([0, 0, 0, 0], 4), ([0, 1, 1, 0], 10)]

example : LocalOp mpoIsF locPh locPh [(0, 1), (1, 1)] locH.tensors locT2 where
  op := ⟨⟨by decide, by decide, by decide, by decide, by decide, by decide⟩, ⟨by decide, by decide, by decide, by decide, by decide, by decide⟩, trivial⟩
  ket := by decide
  ketEven := by unfold EvenBlocks; decide
  bond := by unfold GoodBond; decide
  legs := by unfold GoodBond; decide

/-- `(5 n + 2) 10 = 70` for the doubly occupied component and `2 · 4` for the empty one. -/
example : ∃ R, Mps.applyOne mpoIsF (fun a b => decide (a ≤ b)) locH ⟨[locT2], 0⟩ = some ⟨[R], 0⟩ ∧ entry R [(0, 0), (1, 0), (1, 0), (0, 0)] = 70 ∧
    entry R [(0, 0), (0, 0), (0, 0), (0, 0)] = 8 := by
  refine ⟨_, rfl, ?_⟩
  decide +kernel

/-- **C58**, violation: where the operator without its constant gives zero, `@` raises although the product is the constant times the state. -/
theorem C58_zero_raises : LocalOp mpoIsF locPh locPh [(0, 1), (1, 1)] locH.tensors (mpoBlocks [([0, 0, 0, 0], 4)]) ∧ locH.const = 2 ∧
    Mps.applyOne mpoIsF (fun a b => decide (a ≤ b)) locH ⟨[mpoBlocks [([0, 0, 0, 0], 4)]], 0⟩ = none := by
  refine ⟨⟨⟨⟨by decide, by decide, by decide, by decide, by decide, by decide⟩, ⟨by decide, by decide, by decide, by decide, by decide, by decide⟩, trivial⟩,
    by decide, by unfold EvenBlocks; decide, by unfold GoodBond; decide, by unfold GoodBond; decide⟩, rfl, ?_⟩
  decide +kernel

/-- Hopping between the second and the third site plus the number of particles on the second site. -/
def hopH : Mpo Int Int :=
  ⟨[⟨[], mpoBlocks [([0, 0, 0, 0], 1), ([0, 1, 1, 0], 1)]⟩, ⟨mpoBlocks [([0, 1, 0, 1], 1)], mpoBlocks [([0, 1, 1, 0], 1)]⟩,
    ⟨mpoBlocks [([1, 0, 1, 0], 1)], mpoBlocks [([0, 0, 0, 0], 1), ([0, 1, 1, 0], 1)]⟩], 0⟩

theorem hopNet : Network mpoIsF 2 2 [[(0, 1), (1, 1)], [(1, 1), (2, 1)]] [[(0, 1)], [(0, 1), (1, 1)]] [[(0, 1), (1, 1)], [(1, 1), (2, 1)]] swPhys
    swBra hopH.tensors swKet where
  bra := ⟨by decide, by decide, by decide, trivial⟩
  op := ⟨⟨by decide, by decide, by decide, by decide, by decide, by decide⟩, ⟨by decide, by decide, by decide, by decide, by decide, by decide⟩,
    ⟨by decide, by decide, by decide, by decide, by decide, by decide⟩, trivial⟩
  ket := ⟨by decide, by decide, by decide, trivial⟩
  bonds := by unfold GoodBond; decide
  legs := by unfold GoodBond; decide
  braEven := by unfold EvenBlocks; decide
  ketEven := by unfold EvenBlocks; decide

/-- **C58**, violation: for a window of three sites with merged tensors the number is wrong.  In the middle tensor the part that changes the fermion parity
and the part that does not give blocks with the same labels; the sign of the first is set after the two have been added, and gets lost.  With separate
tensors, and in smaller windows, the number is right. -/
theorem C58_three_sites : windowValues false hopH swBra swKet 0 3 = some (some 368088, some 132216) ∧
    windowValues false hopH swBra swKet 1 3 = some (some 368088, some 368088) ∧
    sandwich mpoIsF swPhys [[(0, 1), (1, 1)], [(1, 1), (2, 1)]] [[(0, 1)], [(0, 1), (1, 1)]] [[(0, 1), (1, 1)], [(1, 1), (2, 1)]] swBra hopH.tensors swKet
      false (0, 0) (0, 0) (0, 0) (2, 0) (0, 0) (2, 0) = 368088 := by
  decide +kernel

end
end Verif
