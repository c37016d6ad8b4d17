import Verif.Thm.Linear
import Verif.Thm.DmrgStep

/-!
C66: sweeps of `Linear` exist, examples, and what goes wrong with a constant.
-/

set_option linter.unusedSectionVars false

namespace Verif
section
variable {Q K : Type} [DecidableEq Q]

/-- A tensor without its first and last leg, which have dimension one. -/
def strip (V : SpT Q K) : SpT Q K := V.map fun b => (b.1.tail.dropLast, ⟨b.2.shape.tail.dropLast, fun i => b.2.get (0 :: i ++ [0])⟩)

theorem isCombination_edges [Zero Q] {L : List (BondInfo Q)} {qs : List Q} {sh : List Nat} (h : IsCombination ([(0, 1)] :: L ++ [[(0, 1)]]) qs sh) :
    ∃ q s, qs = 0 :: q ++ [0] ∧ sh = 1 :: s ++ [1] ∧ IsCombination L q s := by
  have one : ∀ {q : Q} {n : Nat}, Dict.get? [((0 : Q), 1)] q = some n → q = 0 ∧ n = 1 := by
    intro q n h
    simp [Dict.get?] at h
    exact ⟨h.1.symm, h.2.symm⟩
  have tail : ∀ {L : List (BondInfo Q)} {qs : List Q} {sh : List Nat}, IsCombination (L ++ [[(0, 1)]]) qs sh →
      ∃ q s, qs = q ++ [0] ∧ sh = s ++ [1] ∧ IsCombination L q s := by
    intro L
    induction L with
    | nil =>
      intro qs sh h
      cases h with
      | cons h1 h2 =>
        cases h2
        obtain ⟨rfl, rfl⟩ := one h1
        exact ⟨[], [], rfl, rfl, .nil⟩
    | cons b L ih =>
      intro qs sh h
      cases h with
      | cons h1 h2 =>
        obtain ⟨q, s, rfl, rfl, h3⟩ := ih h2
        exact ⟨_ :: q, _ :: s, rfl, rfl, .cons h1 h3⟩
  cases h with
  | cons h1 h2 =>
    obtain ⟨rfl, rfl⟩ := one h1
    obtain ⟨q, s, rfl, rfl, h3⟩ := tail h2
    exact ⟨q, s, rfl, rfl, h3⟩

theorem strip_conforms [Zero Q] {L : List (BondInfo Q)} {V : SpT Q K} (h : Conforms ([(0, 1)] :: L ++ [[(0, 1)]]) V) : Conforms L (strip V) := by
  intro b hb
  obtain ⟨c, hc, rfl⟩ := List.mem_map.1 hb
  obtain ⟨q, s, e1, e2, h3⟩ := isCombination_edges (h c hc)
  dsimp only
  rw [e1, e2]
  simpa using h3

theorem strip_unique [Zero Q] {L : List (BondInfo Q)} {V : SpT Q K} (h : Conforms ([(0, 1)] :: L ++ [[(0, 1)]]) V) (hu : UniqueLabels V) : UniqueLabels (strip V) := by
  unfold UniqueLabels strip at *
  rw [List.map_map]
  have : (Prod.fst ∘ fun b : List Q × Arr K => (b.1.tail.dropLast, (⟨b.2.shape.tail.dropLast, fun i => b.2.get (0 :: i ++ [0])⟩ : Arr K))) =
      (fun q : List Q => q.tail.dropLast) ∘ Prod.fst := rfl
  rw [this, ← List.map_map]
  refine List.Nodup.map_on ?_ hu
  intro x hx y hy e
  obtain ⟨b, hb, rfl⟩ := List.mem_map.1 hx
  obtain ⟨c, hc, rfl⟩ := List.mem_map.1 hy
  obtain ⟨q, s, e1, -⟩ := isCombination_edges (h b hb)
  obtain ⟨q', s', e1', -⟩ := isCombination_edges (h c hc)
  rw [e1, e1'] at e ⊢
  simp at e
  rw [e]

theorem inBox_edges : ∀ (s i : List Nat), inBox (1 :: s ++ [1]) (0 :: i ++ [0]) = inBox s i := by
  have : ∀ (s i : List Nat), inBox (s ++ [1]) (i ++ [0]) = inBox s i := by
    intro s
    induction s with
    | nil =>
      intro i
      rcases i with _ | ⟨a, i⟩
      · rfl
      · rcases i with _ | ⟨b, i⟩ <;> simp [inBox]
    | cons a s ih =>
      intro i
      rcases i with _ | ⟨b, i⟩
      · rcases s with _ | ⟨b, s⟩ <;> simp [inBox]
      · simp [inBox, ih i]
  intro s i
  show (decide (0 < 1) && inBox (s ++ [1]) (i ++ [0])) = _
  rw [this]
  simp

theorem strip_entry [Zero Q] [AddCommMonoid K] {L : List (BondInfo Q)} {V : SpT Q K} (h : Conforms ([(0, 1)] :: L ++ [[(0, 1)]]) V) (x : List (Q × Nat)) :
    entry (strip V) x = entry V ((0, 0) :: x ++ [(0, 0)]) := by
  unfold entry strip
  rw [List.map_map]
  congr 1
  refine List.map_congr_left fun b hb => ?_
  obtain ⟨q, s, e1, e2, -⟩ := isCombination_edges (h b hb)
  simp only [Function.comp_def]
  unfold blockEntry
  rw [e1, e2]
  have a1 : ((0, 0) :: x ++ [((0 : Q), 0)]).map Prod.fst = 0 :: x.map Prod.fst ++ [0] := by simp
  have a2 : ((0, 0) :: x ++ [((0 : Q), 0)]).map Prod.snd = 0 :: x.map Prod.snd ++ [0] := by simp
  rw [a1, a2, inBox_edges]
  simp

end

section
variable {Q 𝕜 : Type} [DecidableEq Q] [AddCommGroup Q] [RCLike 𝕜] [DecidableEq 𝕜]

/-- **C66**: without symmetries there are sweeps of any length over windows of one site, if the initial bra is nearer to `τ` than zero is: every state
reached allows a further step. -/
theorem C66_continue [Subsingleton Q] {isF : Q → Bool} (h0 : isF 0 = false) (le : Q → Q → Bool) {qr : Arr 𝕜 → Arr 𝕜 × Arr 𝕜} (hqr : Factorises qr) (ho : OrthonormalColumns qr)
    {qb qk : Q} {dq : Option Q} {bra0 ket0 : Nat → SpT Q 𝕜} {mpo : Mpo Q 𝕜} {X Y0 Z0 : List (BondInfo Q)} {phys : List (List (BondInfo Q) × List (BondInfo Q))}
    (hop : OpOnBonds isF ([(0, 1)] :: X ++ [[(0, 1)]]) phys mpo.tensors) (gX : ∀ b ∈ X, GoodBond b)
    (gp : ∀ ph ∈ phys, ph.1 ≠ [] ∧ ph.1.length = ph.2.length ∧ ∀ c ∈ ph.1 ++ ph.2, GoodBond c)
    (hB0 : FitsOn [(0, 1)] [(qb, 1)] (phys.map Prod.fst) mpo.tensors.length Y0 bra0) (hF0 : FitsOn [(0, 1)] [(qk, 1)] (phys.map Prod.snd) mpo.tensors.length Z0 ket0)
    (eb0 : ∀ i < mpo.tensors.length, EvenBlocks isF (bra0 i) ∧ bra0 i ≠ []) (ek0 : ∀ i < mpo.tensors.length, EvenBlocks isF (ket0 i) ∧ ket0 i ≠ [])
    (hd : qb - qk = dq.getD 0) (hp : isF (dq.getD 0) = xor (isF qb) (isF qk)) (hc : mpo.const = 0)
    (nb0 : NonZero (phys.map Prod.fst) Y0 ((List.range mpo.tensors.length).map bra0) (0, 0) (qb, 0))
    (nk0 : NonZero (phys.map Prod.snd) Z0 ((List.range mpo.tensors.length).map ket0) (0, 0) (qk, 0)) {τ : List (List (Q × Nat)) → 𝕜}
    (hτ : τ = fun us => paritySign 𝕜 (isF (dq.getD 0) && isF qk) * opOnState isF phys qk X Z0 mpo.tensors ((List.range mpo.tensors.length).map ket0) us)
    (hnear : lengthSq phys (τ - braState qb Y0 ((List.range mpo.tensors.length).map bra0)) < lengthSq phys τ) :
    ∃ ids, Mpe.initIdents isF le ((List.range mpo.tensors.length).map bra0) mpo.tensors ((List.range mpo.tensors.length).map ket0) dq = some ids ∧
      ∀ (s : Mpe.Sys (SpT Q 𝕜) (Option (OpT Q 𝕜))) (ws : List ℝ), LinearRun isF le qr mpo ids qb qk phys bra0 ket0 s ws →
        ∀ l < mpo.tensors.length, ∃ s2 w, LinearRun isF le qr mpo ids qb qk phys bra0 ket0 s2 (w :: ws) := by
  obtain ⟨ids, hids, hinv⟩ := linear_inv h0 le hqr ho hop gX gp hB0 hF0 eb0 ek0 hd hp hc nb0 nk0 hτ
  obtain ⟨ids', hids', hstep⟩ := C66_step h0 le hqr ho hop gX gp hB0 hF0 eb0 ek0 hd hp hc
  rw [hids] at hids'
  obtain rfl := Option.some.inj hids'
  have hI : IdentsFor isF qb qk dq ids := by
    have net0 := FitsOn.networkPair hop gX gp hB0 hF0 (fun i hi => (eb0 i hi).1) fun i hi => (ek0 i hi).1
    have hne : ∀ T ∈ (List.range mpo.tensors.length).map bra0 ++ (List.range mpo.tensors.length).map ket0, T ≠ [] := by
      intro T hT
      rcases List.mem_append.1 hT with hT | hT
      · obtain ⟨i, hi, rfl⟩ := List.mem_map.1 hT
        exact (eb0 i (List.mem_range.1 hi)).2
      · obtain ⟨i, hi, rfl⟩ := List.mem_map.1 hT
        exact (ek0 i (List.mem_range.1 hi)).2
    obtain ⟨ids'', hids'', hI⟩ := idents_network h0 le net0 hne hd hp
    rw [hids] at hids''
    obtain rfl := Option.some.inj hids''
    exact hI
  have allEven : ∀ T : SpT Q 𝕜, EvenBlocks isF T := by
    intro T b _
    have : b.1.countP isF = 0 := List.countP_eq_zero.2 fun q _ => by rw [Subsingleton.elim q 0, h0]; simp
    unfold fermParity
    rw [this]; rfl
  have allCharge : ∀ n (T : SpT Q 𝕜), HasCharge n T := fun n T => ⟨List.replicate n true, 0, by simp, fun b _ => Subsingleton.elim _ _⟩
  refine ⟨ids, hids, ?_⟩
  intro s ws hrun l hl
  obtain ⟨i1, i2, ⟨Z, z1, z2, z3⟩, -, -, Y, y1, y2, y3, -⟩ := hinv s ws hrun
  obtain ⟨t, bra, o, ket, T, a1, a2, a3, ⟨Yk, k1, k2⟩, a4⟩ := hstep s s l (l + 1) 0 Y Z τ i1 (by omega) (by omega) (by omega) i2 rfl y1 z1 y2 z2 z3
  have hwb : ∀ {Y V}, FitsOn [(0, 1)] [(qb, 1)] (phys.map Prod.fst) mpo.tensors.length Y t.bra → UniqueLabels V →
      Conforms ([(0, 1)] :: windowLegs [(0, 1)] [(qb, 1)] Y (phys.map Prod.fst) l (l + 1) ++ [[(0, 1)]]) V →
      WindowBra isF phys qb mpo.tensors.length l (l + 1) t.bra Y (Mpe.setRange t.bra l (l + 1) [strip V]) Y := by
    intro Y V f1 u1 u2
    obtain ⟨ly, lp⟩ := f1.lengths
    have hsite : ∀ i, i ≠ l → Mpe.setRange t.bra l (l + 1) [strip V] i = t.bra i := fun i hi => Mpe.setRange_other (by omega)
    have hself : Mpe.setRange t.bra l (l + 1) [strip V] l = strip V := by
      unfold Mpe.setRange
      rw [if_pos (by omega)]
      simp
    refine ⟨fun i hi => Mpe.setRange_other hi, fun _ _ => rfl, ?_, fun i _ => allEven _⟩
    refine fitsOn_of_sites (by omega) (by omega) ?_ f1.good ?_ fun i _ => allCharge _ _
    · intro i hi
      by_cases hil : i = l
      · subst hil
        rw [hself]
        have := strip_conforms u2
        unfold windowLegs at this
        rw [show i + 1 - i = 1 by omega, show i + 1 - 1 = i by omega, List.take_one_drop_eq_of_lt_length (by omega)] at this
        rw [List.getD_eq_getElem (phys.map Prod.fst) _ (by omega)]
        simpa using this
      · rw [hsite i hil]
        exact fitsOn_site f1 hi
    · intro i hi
      by_cases hil : i = l
      · subst hil
        rw [hself]
        exact strip_unique u2 u1
      · rw [hsite i hil]
        exact f1.unique i hi
  have hdist : lengthSq phys (τ - braState qb Yk ((List.range mpo.tensors.length).map t.bra)) < lengthSq phys τ := by
    refine lt_of_le_of_lt (le_of_eq ?_) (lt_of_le_of_lt y3 hnear)
    exact lengthSq_congr fun us hu => by simp only [Pi.sub_apply, (a4 Yk k1 k2).1 us hu]
  cases hm : Mpe.multiply isF le o ⟨[T], 0⟩ with
  | none =>
    have := (a4 Yk k1 k2).2.1 hm t.bra Yk ⟨fun _ _ => rfl, fun _ _ => rfl, k1, fun i _ => allEven _⟩
    linarith [lengthSq_nonneg phys (braState qb Yk ((List.range mpo.tensors.length).map t.bra))]
  | some p =>
    obtain ⟨w, R⟩ := p
    obtain ⟨V, rfl, u1, u2, u3⟩ := (a4 Yk k1 k2).2.2 w R hm
    have hb := hwb k1 u1 u2
    have gp' : ∀ ph ∈ phys.map Prod.fst, ∀ c ∈ ph, GoodBond c := by
      intro ph hph c hc
      obtain ⟨p, hp, rfl⟩ := List.mem_map.1 hph
      exact (gp p hp).2.2 c (by simp [hc])
    have hmerge : MergesTo ids l (l + 1) (Mpe.setRange t.bra l (l + 1) [strip V]) V := by
      intro m' B hm' hB x
      obtain ⟨n2, U2, w1, w2, w3, w4⟩ := window_merge h0 (goodBond_one 0) (goodBond_one qb) (show l < l + 1 by omega) (by omega) k1 k2
        (k' := Mpe.setRange t.bra l (l + 1) [strip V]) hb.1 hb.2.1 hb.2.2.1 hb.2.2.2
      rw [hI.lBra, hI.rBra, w1] at hm'
      obtain rfl := Option.some.inj hm'
      rw [w2] at hB
      obtain rfl : U2 = B := by simpa using hB
      have wfY := windowLegs_wf gp' k1 (show l < l + 1 by omega) (show l + 1 ≤ mpo.tensors.length by omega)
      by_cases hx : x ∈ legIndices (windowLegs [(0, 1)] [(qb, 1)] Yk (phys.map Prod.fst) l (l + 1))
      · obtain ⟨a, ps, b, hf, rfl⟩ := mem_windowLegs hx
        rw [w4 a ps b hf, ← strip_entry u2]
        obtain ⟨lb, lp⟩ := k1.lengths
        rw [show l + 1 - l = 1 by omega, List.take_one_drop_eq_of_lt_length (by omega)] at hf
        cases hf with
        | @cons p _ ps' _ h1 h2 =>
          cases h2
          simp [Mpe.setRange, ampl]
      · have zero : ∀ {T : SpT Q 𝕜}, Conforms ([(0, 1)] :: windowLegs [(0, 1)] [(qb, 1)] Yk (phys.map Prod.fst) l (l + 1) ++ [[(0, 1)]]) T →
            entry T ((0, 0) :: x ++ [(0, 0)]) = 0 := by
          intro T hT
          by_contra hne
          exact hx (inLegs_init wfY (List.forall₂_cons.1 (entry_support hT hne).2).2)
        rw [zero w3, zero u2]
    obtain ⟨c1, c2, c3, c4, c5⟩ := u3 _ Yk hb hmerge
    have hw : w ≠ 0 := by
      rintro rfl
      have h5 : lengthSq phys (τ - braState qb Yk ((List.range mpo.tensors.length).map (Mpe.setRange t.bra l (l + 1) [strip V]))) < lengthSq phys τ :=
        lt_of_le_of_lt c5 (lt_of_le_of_lt y3 hnear)
      rw [c3] at h5
      simp at h5
    have hket : Mpe.setRange t.ket l (l + 1) [t.ket l] = t.ket := by
      funext i
      unfold Mpe.setRange
      split
      · rename_i hi
        obtain rfl : i = l := by omega
        simp
      · rfl
    refine ⟨_, w, .step l (l + 1) 0 [t.ket l] [strip V] hrun (by omega) (by omega) (by omega) rfl a1 a2 a3 hm hw hket ?_ hmerge
      (show Mpe.setWindow _ l (l + 1) [t.ket l] (some [strip V]) s = some (Mpe.embed (Mpe.sweepCfg isF qr true false mpo.tensors ids) l (l + 1) [t.ket l] (some [strip V]) t) by
        unfold Mpe.setWindow
        rw [a1]; rfl)⟩
    intro Y f1 f2
    obtain ⟨V', e, v1, v2, -⟩ := (a4 Y f1 f2).2.2 w _ hm
    obtain rfl : V = V' := by simpa using e
    exact ⟨Y, hwb f1 v1 v2⟩

end

section

/-- Hopping between two sites in both directions and a number operator, no constant. -/
noncomputable def lrH : Mpo Int ℝ := ⟨dsH.tensors, 0⟩

/-- A bra of one particle on the first site. -/
noncomputable def lrBra : Nat → SpT Int ℝ
  | 0 => realBlocks [([0, 1, 1], 3)]
  | _ => realBlocks [([1, 0, 1], 5)]

theorem lrFits : FitsOn [(0, 1)] [(1, 1)] cnPhys 2 [[(1, 1)]] lrBra where
  on := ⟨by decide, by decide, trivial⟩
  good := by unfold GoodBond; decide
  unique := by decide
  charge := by
    intro i hi
    rcases (show i = 0 ∨ i = 1 by omega) with rfl | rfl
    · exact ⟨[true, true, false], 0, by decide, by decide⟩
    · exact ⟨[true, true, false], 0, by decide, by decide⟩

/-- The hypotheses of `C66_step` and `C66_sweep` are met: fermions, a bra that differs from the ket. -/
example (qr : Arr ℝ → Arr ℝ × Arr ℝ) (hqr : Factorises qr) (ho : OrthonormalColumns qr) := by
  have hev : ∀ i < 2, EvenBlocks mpoIsF (cnKet i) ∧ cnKet i ≠ [] := by
    intro i hi
    rcases (show i = 0 ∨ i = 1 by omega) with rfl | rfl
    · exact ⟨by unfold EvenBlocks; decide, by simp [cnKet, realBlocks]⟩
    · exact ⟨by unfold EvenBlocks; decide, by simp [cnKet, realBlocks]⟩
  have hevb : ∀ i < 2, EvenBlocks mpoIsF (lrBra i) ∧ lrBra i ≠ [] := by
    intro i hi
    rcases (show i = 0 ∨ i = 1 by omega) with rfl | rfl
    · exact ⟨by unfold EvenBlocks; decide, by simp [lrBra, realBlocks]⟩
    · exact ⟨by unfold EvenBlocks; decide, by simp [lrBra, realBlocks]⟩
  have e1 : (cnPhys.map fun ph => (ph, ph)).map Prod.fst = cnPhys := rfl
  have e2 : (cnPhys.map fun ph => (ph, ph)).map Prod.snd = cnPhys := rfl
  exact C66_sweep (mpo := lrH) (bra0 := lrBra) (ket0 := cnKet) (qb := 1) (qk := 1) (dq := none) rfl (fun a b => decide (a ≤ b)) hqr ho dsH_bonds
    (by unfold GoodBond; decide) (by unfold GoodBond; decide) lrFits cnFits hevb hev rfl rfl rfl
    (by
      refine ⟨[[(1, 0)], [(0, 0)]], by decide, ?_⟩
      show ampl ((List.range 2).map lrBra) _ _ _ _ ≠ 0
      simp [List.range_succ, ampl, legBasis, lrBra, realBlocks, realBlock, entry, blockEntry]
      decide)
    (by
      refine ⟨[[(0, 0)], [(1, 0)]], by decide, ?_⟩
      show ampl ((List.range 2).map cnKet) _ _ _ _ ≠ 0
      simp [List.range_succ, ampl, legBasis, cnKet, realBlocks, realBlock, entry, blockEntry]
      decide) rfl

/-! Sweeps of any length: no symmetries, two sites with two states each. -/

noncomputable def dense (sh : List Nat) (f : List Nat → ℝ) : SpT Unit ℝ := [(sh.map fun _ => (), ⟨sh, f⟩)]

/-- A flip on the first site times a diagonal operator on the second. -/
noncomputable def lrOp : Mpo Unit ℝ :=
  ⟨[⟨[], dense [1, 2, 2, 1] fun i => if i = [0, 0, 1, 0] ∨ i = [0, 1, 0, 0] then 1 else 0⟩,
    ⟨[], dense [1, 2, 2, 1] fun i => if i = [0, 0, 0, 0] then 1 else if i = [0, 1, 1, 0] then 2 else 0⟩], 0⟩

/-- `|01⟩ + 3 |10⟩`. -/
noncomputable def lrKet : Nat → SpT Unit ℝ
  | 0 => dense [1, 2, 2] fun i => if i = [0, 0, 0] then 1 else if i = [0, 1, 1] then 3 else 0
  | _ => dense [2, 2, 1] fun i => if i = [0, 1, 0] ∨ i = [1, 0, 0] then 1 else 0

/-- `|00⟩`. -/
noncomputable def lrBra' : Nat → SpT Unit ℝ
  | 0 => dense [1, 2, 1] fun i => if i = [0, 0, 0] then 1 else 0
  | _ => dense [1, 2, 1] fun i => if i = [0, 0, 0] then 1 else 0

def lrPhys : List (List (BondInfo Unit)) := [[[((), 2)]], [[((), 2)]]]

theorem lrCart : cart ((lrPhys.map fun ph => (ph, ph)).map fun ph => legIndices ph.1) =
    [[[((), 0)], [((), 0)]], [[((), 0)], [((), 1)]], [[((), 1)], [((), 0)]], [[((), 1)], [((), 1)]]] := by decide

theorem lrCart' : cart ((lrPhys.map fun ph => (ph, ph)).map fun ph => legIndices ph.2) =
    [[[((), 0)], [((), 0)]], [[((), 0)], [((), 1)]], [[((), 1)], [((), 0)]], [[((), 1)], [((), 1)]]] := by decide

/-- There are sweeps of any length. -/
example : ∃ (qr : Arr ℝ → Arr ℝ × Arr ℝ) (ids : Mpe.Idents Unit ℝ), ∀ n : Nat, ∃ s ws, ws.length = n ∧
    LinearRun (fun _ => false) (fun _ _ => true) qr lrOp ids () () (lrPhys.map fun ph => (ph, ph)) lrBra' lrKet s ws := by
  obtain ⟨qr, h1, h2⟩ := C21_contract ℝ
  have hfb : FitsOn [((), 1)] [((), 1)] lrPhys 2 [[((), 1)]] lrBra' := by
    refine ⟨⟨by decide, by decide, trivial⟩, by unfold GoodBond; decide, by decide, ?_⟩
    intro i hi
    rcases (show i = 0 ∨ i = 1 by omega) with rfl | rfl
    · exact ⟨[true, true, false], 0, by decide, fun b _ => rfl⟩
    · exact ⟨[true, true, false], 0, by decide, fun b _ => rfl⟩
  have hfk : FitsOn [((), 1)] [((), 1)] lrPhys 2 [[((), 2)]] lrKet := by
    refine ⟨⟨by decide, by decide, trivial⟩, by unfold GoodBond; decide, by decide, ?_⟩
    intro i hi
    rcases (show i = 0 ∨ i = 1 by omega) with rfl | rfl
    · exact ⟨[true, true, false], 0, by decide, fun b _ => rfl⟩
    · exact ⟨[true, true, false], 0, by decide, fun b _ => rfl⟩
  have hev : ∀ i < 2, EvenBlocks (fun _ => false) (lrKet i) ∧ lrKet i ≠ [] := by
    intro i hi
    rcases (show i = 0 ∨ i = 1 by omega) with rfl | rfl
    · exact ⟨by unfold EvenBlocks; decide, by simp [lrKet, dense]⟩
    · exact ⟨by unfold EvenBlocks; decide, by simp [lrKet, dense]⟩
  have hevb : ∀ i < 2, EvenBlocks (fun _ => false) (lrBra' i) ∧ lrBra' i ≠ [] := by
    intro i hi
    rcases (show i = 0 ∨ i = 1 by omega) with rfl | rfl
    · exact ⟨by unfold EvenBlocks; decide, by simp [lrBra', dense]⟩
    · exact ⟨by unfold EvenBlocks; decide, by simp [lrBra', dense]⟩
  obtain ⟨ids, -, hc⟩ := C66_continue (mpo := lrOp) (X := [[((), 1)]]) (phys := lrPhys.map fun ph => (ph, ph)) (bra0 := lrBra') (ket0 := lrKet) (qb := ()) (qk := ()) (dq := none) (isF := fun _ => false)
    rfl (fun _ _ => true) h1 h2
    ⟨⟨by decide, by decide, by decide, by decide, by decide, by decide⟩, ⟨by decide, by decide, by decide, by decide, by decide, by decide⟩, trivial⟩
    (by unfold GoodBond; decide) (by unfold GoodBond; decide) hfb hfk hevb hev rfl rfl rfl
    (by
      refine ⟨[[((), 0)], [((), 0)]], by decide, ?_⟩
      show ampl ((List.range 2).map lrBra') _ _ _ _ ≠ 0
      simp [List.range_succ, ampl, legBasis, lrBra', dense, entry, blockEntry, inBox])
    (by
      refine ⟨[[((), 0)], [((), 1)]], by decide, ?_⟩
      show ampl ((List.range 2).map lrKet) _ _ _ _ ≠ 0
      simp [List.range_succ, ampl, legBasis, lrKet, dense, entry, blockEntry, inBox])
    rfl (by
      show lengthSq _ (_ - braState () _ ((List.range 2).map lrBra')) < lengthSq _ _
      have e : lrOp.tensors.length = 2 := rfl
      unfold lengthSq
      rw [lrCart]
      simp only [opOnState, braState, lrCart', e]
      simp [List.range_succ, braState, ampl, opAmpl, opEntry, paritySign, legBasis, lrBra', lrKet, lrOp, dense, entry, blockEntry, inBox, fermParity]
      norm_num)
  refine ⟨qr, ids, fun n => ?_⟩
  induction n with
  | zero => exact ⟨_, [], rfl, .new⟩
  | succ n ih =>
    obtain ⟨s, ws, hl, hrun⟩ := ih
    obtain ⟨s2, w, h⟩ := hc s ws hrun (n % 2) (by show _ < 2; omega)
    exact ⟨s2, w :: ws, by simp [hl], h⟩

end

section

def denseQ (sh : List Nat) (f : List Nat → ℚ) : SpT Unit ℚ := [(sh.map fun _ => (), ⟨sh, f⟩)]

/-- The identity on two sites, with the constant 1. -/
def lcOp : Mpo Unit ℚ :=
  ⟨[⟨[], denseQ [1, 2, 2, 1] fun i => if i.getD 1 0 = i.getD 2 0 then 1 else 0⟩, ⟨[], denseQ [1, 2, 2, 1] fun i => if i.getD 1 0 = i.getD 2 0 then 1 else 0⟩], 1⟩

/-- `|0 a⟩`. -/
def lcState (a : Nat) : Nat → SpT Unit ℚ
  | 0 => denseQ [1, 2, 1] fun i => if i = [0, 0, 0] then 1 else 0
  | _ => denseQ [1, 2, 1] fun i => if i = [0, a, 0] then 1 else 0

/-- The factorisation of matrices with one element. -/
def lcQr (A : Arr ℚ) : Arr ℚ × Arr ℚ := (A, ⟨[1, 1], fun _ => 1⟩)

/-- **C66**, where it fails: with a constant and a bra that differs from the ket, the result is wrong.  For the bra `|01⟩`, the ket `|00⟩` and the identity
with the constant 1, the tensor that `multiply` gives for the first site has the norm 1: it is the constant times the ket's own tensor.  But
`(1 + 1) |00⟩` is orthogonal to all bras that agree with `|01⟩` on the second site. -/
theorem C66_constant_fails :
    (Mpe.initIdents (fun _ => false) (fun _ _ => true) ((List.range 2).map (lcState 1)) lcOp.tensors ((List.range 2).map (lcState 0)) none).bind (fun ids =>
      (Mpe.effective (fun _ => false) lcQr true false lcOp ids 0 1 (Mpe.new (lcState 0) (lcState 1))).bind fun p =>
        p.2.2.merge.bind fun k => (Mps.applyOne (fun _ => false) (fun _ _ => true) p.2.1 k).bind fun v => Mps.dot v.conj v) = some 1 ∧
    ∀ (T : SpT Unit ℚ) (us : List (List (Unit × Nat))), us ∈ cart (lrPhys.map legIndices) →
      ampl [T, lcState 1 1] [[((), 1)]] ((), 0) us ((), 0) *
        (((cart (lrPhys.map legIndices)).map fun ds => opAmpl (fun _ => false) lcOp.tensors [[((), 1)]] false ((), 0) us ds ((), 0) *
            ampl ((List.range 2).map (lcState 0)) [[((), 1)]] ((), 0) ds ((), 0)).sum +
          lcOp.const * ampl ((List.range 2).map (lcState 0)) [[((), 1)]] ((), 0) us ((), 0)) = 0 := by
  refine ⟨by decide +kernel, ?_⟩
  intro T us hu
  have e : cart (lrPhys.map legIndices) = [[[((), 0)], [((), 0)]], [[((), 0)], [((), 1)]], [[((), 1)], [((), 0)]], [[((), 1)], [((), 1)]]] := by decide
  rw [e] at hu ⊢
  simp only [List.mem_cons, List.not_mem_nil, or_false] at hu
  rcases hu with rfl | rfl | rfl | rfl
  · have : ampl [T, lcState 1 1] [[((), 1)]] ((), 0) [[((), 0)], [((), 0)]] ((), 0) = 0 := by
      simp [ampl, legBasis, lcState, denseQ, entry, blockEntry, inBox]
    rw [this, zero_mul]
  · rw [mul_eq_zero]; right; decide +kernel
  · have : ampl [T, lcState 1 1] [[((), 1)]] ((), 0) [[((), 1)], [((), 0)]] ((), 0) = 0 := by
      simp [ampl, legBasis, lcState, denseQ, entry, blockEntry, inBox]
    rw [this, zero_mul]
  · rw [mul_eq_zero]; right; decide +kernel

end
end Verif
