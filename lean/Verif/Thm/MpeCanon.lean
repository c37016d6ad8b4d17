import Verif.Proof.WindowMetric
import Verif.Thm.MpeLocal
import Verif.Thm.CanonQR

/-!
C59: sweeps with canonicalisation (`/repo/pyblock3/algebra/mpe.py`, `do_canon`): outside the window all sites are isometries, so that inner products of the
tensors of the window are inner products of the states, and the numbers of the local problem, the constant of the operator included, are those of the
whole problem.
-/

set_option linter.unusedSectionVars false

namespace Verif
section
variable {Q K : Type} [DecidableEq Q] [AddCommGroup Q] [CommRing K] [StarRing K]

/-- A bra and a ket with the same physical legs. -/
theorem FitsOn.network2 {isF : Q → Bool} {q : Q} {phys : List (List (BondInfo Q))} {X Y Z : List (BondInfo Q)} {mpo : List (OpT Q K)} {b k : Nat → SpT Q K}
    (hop : OpOnBonds isF ([(0, 1)] :: X ++ [[(0, 1)]]) (phys.map fun ph => (ph, ph)) mpo) (gX : ∀ b ∈ X, GoodBond b)
    (hp : ∀ ph ∈ phys, ph ≠ [] ∧ ∀ c ∈ ph, GoodBond c) (hB : FitsOn [(0, 1)] [(q, 1)] phys mpo.length Y b) (hF : FitsOn [(0, 1)] [(q, 1)] phys mpo.length Z k)
    (hb : ∀ i < mpo.length, EvenBlocks isF (b i)) (he : ∀ i < mpo.length, EvenBlocks isF (k i)) :
    Network isF q q Y X Z (phys.map fun ph => (ph, ph)) ((List.range mpo.length).map b) mpo ((List.range mpo.length).map k) := by
  have e1 : (phys.map fun ph => (ph, ph)).map Prod.fst = phys := by simp [List.map_map, Function.comp_def]
  have e2 : (phys.map fun ph => (ph, ph)).map Prod.snd = phys := by simp [List.map_map, Function.comp_def]
  have ev : ∀ k : Nat → SpT Q K, (∀ i < mpo.length, EvenBlocks isF (k i)) → ∀ T ∈ (List.range mpo.length).map k, EvenBlocks isF T := by
    intro k he T hT
    obtain ⟨i, hi, rfl⟩ := List.mem_map.1 hT
    exact he i (List.mem_range.1 hi)
  refine { bra := by rw [e1]; exact hB.on, op := hop, ket := by rw [e2]; exact hF.on, bonds := ?_, legs := ?_, braEven := ev b hb, ketEven := ev k he }
  · intro c hc
    simp only [List.mem_append] at hc
    rcases hc with (hc | hc) | hc
    · exact hB.good c hc
    · exact gX c hc
    · exact hF.good c hc
  · intro ph hph
    obtain ⟨p, hp', rfl⟩ := List.mem_map.1 hph
    obtain ⟨a, b⟩ := hp p hp'
    exact ⟨a, rfl, fun c hc => b c (by simpa using hc)⟩

/-- A ket that is its own bra. -/
theorem FitsOn.network {isF : Q → Bool} {q : Q} {phys : List (List (BondInfo Q))} {X Z : List (BondInfo Q)} {mpo : List (OpT Q K)} {k : Nat → SpT Q K}
    (hop : OpOnBonds isF ([(0, 1)] :: X ++ [[(0, 1)]]) (phys.map fun ph => (ph, ph)) mpo) (gX : ∀ b ∈ X, GoodBond b)
    (hp : ∀ ph ∈ phys, ph ≠ [] ∧ ∀ c ∈ ph, GoodBond c) (hF : FitsOn [(0, 1)] [(q, 1)] phys mpo.length Z k) (he : ∀ i < mpo.length, EvenBlocks isF (k i)) :
    Network isF q q Z X Z (phys.map fun ph => (ph, ph)) ((List.range mpo.length).map k) mpo ((List.range mpo.length).map k) :=
  FitsOn.network2 hop gX hp hF hF he he

/-- The expectation value of a local problem with a constant. -/
theorem expectation_const [DecidableEq K] {isF : Q → Bool} (h0 : isF 0 = false) (le : Q → Q → Bool) {ph0 ph1 : List (BondInfo Q) × List (BondInfo Q)}
    {m : BondInfo Q} {B T : SpT Q K} {o : Mpo Q K} (h : LocalProblem isF ph0 ph1 m B o.tensors T)
    (hT : Conforms ([(0, 1)] :: (ph0.1 ++ ph1.1) ++ [[(0, 1)]]) T) {v : K} (hv : Mps.dot (Mps.conj ⟨[B], 0⟩) ⟨[T], 0⟩ = some v) :
    Mpe.expectationOne isF le ⟨[B], 0⟩ o ⟨[T], 0⟩ = some (sandwichOne isF ph0 ph1 m B o.tensors T + o.const * v) ∨
      Mpe.expectationOne isF le ⟨[B], 0⟩ o ⟨[T], 0⟩ = none ∧ sandwichOne isF ph0 ph1 m B o.tensors T = 0 := by
  have hp : ∀ ph ∈ [ph0.1 ++ ph1.1], ∀ c ∈ ph, Dict.WF c := by
    intro ph hph c hc
    rw [List.mem_singleton.1 hph] at hc
    rcases List.mem_append.1 hc with hc | hc
    · exact ((h.legs ph0 (by simp)).2.2 c (by simp [hc])).1
    · exact ((h.legs ph1 (by simp)).2.2 c (by simp [hc])).1
  have hB : OnBonds ([(0, 1)] :: [] ++ [[(0, 1)]]) [ph0.1 ++ ph1.1] (Mps.conj ⟨[B], 0⟩).tensors := onBonds_conj (ts := [B]) ⟨h.bra, trivial⟩
  have eB : ∀ p, ampl (Mps.conj (⟨[B], 0⟩ : Mps Q K)).tensors [] (0, 0) [p] (0, 0) = star (entry B ((0, 0) :: p ++ [(0, 0)])) := fun p =>
    (C19_conj (⟨[B], 0⟩ : Mps Q K)).2 [] (0, 0) [p] (0, 0)
  have dots : ∀ R : SpT Q K, Conforms ([(0, 1)] :: (ph0.1 ++ ph1.1) ++ [[(0, 1)]]) R → Mps.dot (Mps.conj ⟨[B], 0⟩) ⟨[R], 0⟩ =
      some ((legIndices ph0.1).map fun a => ((legIndices ph1.1).map fun b =>
        star (entry B ((0, 0) :: (a ++ b) ++ [(0, 0)])) * entry R ((0, 0) :: (a ++ b) ++ [(0, 0)])).sum).sum := by
    intro R hR
    have h2 : OnBonds ([(0, 1)] :: [] ++ [[(0, 1)]]) [ph0.1 ++ ph1.1] (Mps.mk [R] (0 : K)).tensors := ⟨hR, trivial⟩
    rw [dot_any hB h2 (by simp) (by simp) hp (by simp)]
    congr 1
    rw [List.map_singleton, cart_cons_sum, legIndices_append_sum]
    refine sum_map_congr' _ _ _ fun a _ => sum_map_congr' _ _ _ fun b _ => ?_
    rw [cart, List.map_singleton, List.sum_singleton, eB]
    rfl
  rw [dots T hT] at hv
  have hv := (Option.some.inj hv).symm
  unfold Mpe.expectationOne
  rcases C58_product (o := o) h0 le h.toLocalOp (Or.inr hT) with ⟨e, hz⟩ | ⟨R, r1, r2, r3, r4⟩
  · right
    refine ⟨by rw [e]; rfl, ?_⟩
    unfold sandwichOne
    refine sum_map_zero' _ _ fun a ha => sum_map_zero' _ _ fun b hb => ?_
    rw [hz a b (legIndices_length ha) (legIndices_length hb), mul_zero]
  · left
    rw [r1, Option.bind_some, dots R r2, hv]
    congr 1
    unfold sandwichOne
    rw [← sum_map_mul_left', ← sum_map_add']
    refine sum_map_congr' _ _ _ fun a ha => ?_
    rw [← sum_map_mul_left', ← sum_map_add']
    refine sum_map_congr' _ _ _ fun b hb => ?_
    rw [r4 a b (legIndices_length ha) (legIndices_length hb)]
    ring

/-- The tensors of two states that agree with `k` outside the window. -/
theorem metric_window [DecidableEq K] {isF : Q → Bool} (h0 : isF 0 = false) {e f : BondInfo Q} (ge : GoodBond e) (gf : GoodBond f)
    {phys : List (List (BondInfo Q))} (gp : ∀ ph ∈ phys, ∀ c ∈ ph, GoodBond c) {n : Nat} {Z : List (BondInfo Q)} {k : Nat → SpT Q K}
    {l r : Nat} (hlr : l < r) (hr : r ≤ n) (hF : FitsOn e f phys n Z k) (hiso : IsometricOutside e f phys n Z l r k)
    {k' k'' : Nat → SpT Q K} {Z' Z'' : List (BondInfo Q)} (h' : ∀ i, i < l ∨ r ≤ i → k' i = k i ∧ k'' i = k i) (z' : SameOutside l r Z Z') (z'' : SameOutside l r Z Z'')
    (on' : FitsOn e f phys n Z' k') (on'' : FitsOn e f phys n Z'' k'') (e' : ∀ i < n, EvenBlocks isF (k' i)) (e'' : ∀ i < n, EvenBlocks isF (k'' i)) :
    ∃ m' m'' T' T'', Mpe.effMps (oneBlock [0]) ((List.range' l (r - l)).map k') (oneBlock [0]) = some m' ∧
      Mpe.effMps (oneBlock [0]) ((List.range' l (r - l)).map k'') (oneBlock [0]) = some m'' ∧ m'.merge = some ⟨[T'], 0⟩ ∧ m''.merge = some ⟨[T''], 0⟩ ∧
      Mps.dot (Mps.conj ⟨[T'], 0⟩) ⟨[T''], 0⟩ =
        some (innerProduct e f phys (ampl ((List.range n).map k') Z') (ampl ((List.range n).map k'') Z'')) := by
  obtain ⟨w', hE⟩ := innerProduct_window gf hlr hr hF hiso ge h' z' z'' on'.on on''.on
  obtain ⟨w'', -⟩ := innerProduct_window gf hlr hr hF hiso ge (fun i hi => (h' i hi).symm) z'' z' on''.on on'.on
  have ev : ∀ {g : Nat → SpT Q K}, (∀ i < n, EvenBlocks isF (g i)) → ∀ t ∈ (List.range' l (r - l)).map g, EvenBlocks isF t := by
    intro g hg t ht
    obtain ⟨i, hi, rfl⟩ := List.mem_map.1 ht
    exact hg i (by have := List.mem_range'_1.1 hi; omega)
  have wf : ∀ {X : List (BondInfo Q)}, (∀ b ∈ X, GoodBond b) → ∀ b ∈ (X.drop l).take (r - 1 - l), Dict.WF b := by
    intro X hX b hb
    exact (hX b (List.mem_of_mem_drop (List.mem_of_mem_take hb))).1
  obtain ⟨m', T', a1, a2, a3, a4⟩ := effMps_merge h0 w' (wf on'.good) (ev e')
  obtain ⟨m'', T'', b1, b2, b3, b4⟩ := effMps_merge h0 w'' (wf on''.good) (ev e'')
  refine ⟨m', m'', T', T'', a1, b1, a2, b2, ?_⟩
  obtain ⟨lz, lp⟩ := hF.lengths
  have gl : GoodBond ((e :: Z).getD l []) := by
    rw [List.getD_eq_getElem _ _ (by simp; omega)]
    rcases List.mem_cons.1 (List.getElem_mem (l := e :: Z) (n := l) (by simp; omega)) with h | h
    · rw [h]; exact ge
    · exact hF.good _ h
  have gr : GoodBond ((Z ++ [f]).getD (r - 1) []) := by
    rw [List.getD_eq_getElem _ _ (by simp; omega)]
    rcases List.mem_append.1 (List.getElem_mem (l := Z ++ [f]) (n := r - 1) (by simp; omega)) with h | h
    · exact hF.good _ h
    · rw [List.mem_singleton.1 h]; exact gf
  rw [hE]
  exact (dot_window gl.1 gr.1 (fun ph hph c hc => (gp ph (List.mem_of_mem_drop (List.mem_of_mem_take hph)) c hc).1) a3 b3 a4 b4).2

/-- **C59**: an object made with canonicalisation switched on.  Whatever windows have been treated since, the tensors `mpe[l:r]` reads are those of a ket
`k` that is the same state as the present ket and has isometries on all sites outside the window.  For all kets `k'`, `k''` that agree with `k` outside the
window (and on the bonds at its ends), the tensors in the window merge to one tensor each, and the inner product `⟨k'|k''⟩` of the two tensors is
that of the two states. -/
theorem C59_metric [DecidableEq K] {isF : Q → Bool} (h0 : isF 0 = false) (le : Q → Q → Bool) {qr : Arr K → Arr K × Arr K} (hqr : Factorises qr)
    (ho : OrthonormalColumns qr) {same : Bool} {qb qk : Q} {dq : Option Q} {bra0 ket0 : List (SpT Q K)} {mpo : Mpo Q K} {Y0 X Z0 : List (BondInfo Q)}
    {phys : List (List (BondInfo Q) × List (BondInfo Q))} (hnet : Network isF qb qk Y0 X Z0 phys bra0 mpo.tensors ket0)
    (hne : ∀ T ∈ bra0 ++ ket0, T ≠ []) (hd : qb - qk = dq.getD 0) (hp : isF (dq.getD 0) = xor (isF qb) (isF qk)) :
    ∃ ids, Mpe.initIdents isF le bra0 mpo.tensors ket0 dq = some ids ∧
      ∀ (n : Nat) (e f : BondInfo Q) (ps : List (List (BondInfo Q))) (s s' : Mpe.Sys (SpT Q K) (Option (OpT Q K))) (l r builds : Nat),
        n = mpo.tensors.length → e = [(0, 1)] → f = [(qk, 1)] → ps = phys.map Prod.snd → SweepRun (Mpe.sweepCfg isF qr true same mpo.tensors ids) e f ps s →
        l < r → r ≤ n → (List.replicate builds ()).foldlM (fun s _ => Mpe.buildEnvs (Mpe.sweepCfg isF qr true same mpo.tensors ids) l r s) s = some s' →
        ∃ k Z Zk L R bra, Mpe.getWindow (Mpe.sweepCfg isF qr true same mpo.tensors ids) l r s' = some (L, R, (List.range' l (r - l)).map k, bra) ∧
          FitsOn e f ps n Z s.ket ∧ FitsOn e f ps n Zk k ∧ SameState isF e f ps Z ((List.range n).map s.ket) Zk ((List.range n).map k) ∧
          IsometricOutside e f ps n Zk l r k ∧
          ∀ {k' k'' : Nat → SpT Q K} {Z' Z'' : List (BondInfo Q)}, (∀ i, i < l ∨ r ≤ i → k' i = k i ∧ k'' i = k i) → SameOutside l r Zk Z' → SameOutside l r Zk Z'' →
            FitsOn e f ps n Z' k' → FitsOn e f ps n Z'' k'' → (∀ i < n, EvenBlocks isF (k' i) ∧ EvenBlocks isF (k'' i)) →
            ∃ m' m'' T' T'', Mpe.effMps ids.lKet ((List.range' l (r - l)).map k') ids.rKet = some m' ∧
              Mpe.effMps ids.lKet ((List.range' l (r - l)).map k'') ids.rKet = some m'' ∧ m'.merge = some ⟨[T'], 0⟩ ∧ m''.merge = some ⟨[T''], 0⟩ ∧
              Mps.dot (Mps.conj ⟨[T'], 0⟩) ⟨[T''], 0⟩ = some (innerProduct e f ps (ampl ((List.range n).map k') Z') (ampl ((List.range n).map k'') Z'')) := by
  obtain ⟨ids, hids, hI⟩ := idents_network h0 le hnet hne hd hp
  refine ⟨ids, hids, ?_⟩
  rintro n e f ps s s' l r builds rfl rfl rfl rfl hrun hlr hr hs'
  have gp : ∀ ph ∈ phys.map Prod.snd, ∀ c ∈ ph, GoodBond c := by
    intro ph hph c hc
    obtain ⟨p, hp, rfl⟩ := List.mem_map.1 hph
    exact (hnet.legs p hp).2.2 c (by simp [hc])
  obtain ⟨k, b, Z, Zk, w, -, -, -, f1, f2, f3, f4, -⟩ := hrun.window hqr ho (goodBond_one 0) (goodBond_one qk) gp hlr hr hs'
  refine ⟨k, Z, Zk, _, _, _, w, f1, f2, f4, f3, ?_⟩
  intro k' k'' Z' Z'' hag z' z'' F' F'' hev
  rw [hI.lKet, hI.rKet]
  exact metric_window h0 (goodBond_one 0) (goodBond_one qk) gp hlr hr f2 f3 hag z' z'' F' F'' (fun i hi => (hev i hi).1) fun i hi => (hev i hi).2

/-- **C59**: the energy.  An object for one ket that is its own bra, and an operator with a constant that does not change the charge, canonicalisation
switched on.  Whatever windows have been treated since, a window of one or two sites of `mpe[l:r]` is made from a ket `k` that is the same state as the
present one, and for **all** bras `k'` and kets `k''` that agree with `k` outside the window, `expectation` of the merged windows is `⟨k'|H|k''⟩ + const
⟨k'|k''⟩` of the whole problem, and the inner product of the merged tensors is that of the states.  `expectation` can raise only if `⟨k'|H|k''⟩ = 0`. -/
theorem C59_expectation [DecidableEq K] {isF : Q → Bool} (h0 : isF 0 = false) (le : Q → Q → Bool) {qr : Arr K → Arr K × Arr K} (hqr : Factorises qr)
    (ho : OrthonormalColumns qr) {q : Q} {dq : Option Q} {ket0 : Nat → SpT Q K} {mpo : Mpo Q K} {X Z0 : List (BondInfo Q)} {phys : List (List (BondInfo Q))}
    (hop : OpOnBonds isF ([(0, 1)] :: X ++ [[(0, 1)]]) (phys.map fun ph => (ph, ph)) mpo.tensors) (gX : ∀ b ∈ X, GoodBond b)
    (gp : ∀ ph ∈ phys, ph ≠ [] ∧ ∀ c ∈ ph, GoodBond c) (hF0 : FitsOn [(0, 1)] [(q, 1)] phys mpo.tensors.length Z0 ket0)
    (he0 : ∀ i < mpo.tensors.length, EvenBlocks isF (ket0 i) ∧ ket0 i ≠ []) (hd : dq.getD 0 = 0) :
    ∃ ids, Mpe.initIdents isF le ((List.range mpo.tensors.length).map ket0) mpo.tensors ((List.range mpo.tensors.length).map ket0) dq = some ids ∧
      ∀ (n : Nat) (e f : BondInfo Q) (s s' : Mpe.Sys (SpT Q K) (Option (OpT Q K))) (l r builds : Nat),
        n = mpo.tensors.length → e = [(0, 1)] → f = [(q, 1)] → SweepRun (Mpe.sweepCfg isF qr true true mpo.tensors ids) e f phys s →
        l < r → r ≤ l + 2 → r ≤ n → (∀ i < n, EvenBlocks isF (s.ket i)) →
        (List.replicate builds ()).foldlM (fun s _ => Mpe.buildEnvs (Mpe.sweepCfg isF qr true true mpo.tensors ids) l r s) s = some s' →
        ∃ Z, FitsOn e f phys n Z s.ket ∧ (NonZero phys Z ((List.range n).map s.ket) (0, 0) (q, 0) →
          ∃ k Zk bra o ket, Mpe.effective isF qr true true mpo ids l r s' = some (bra, o, ket) ∧ bra = ket ∧ o.const = mpo.const ∧
            Mpe.effMps ids.lKet ((List.range' l (r - l)).map k) ids.rKet = some ket ∧ FitsOn e f phys n Zk k ∧ (∀ i < n, EvenBlocks isF (k i)) ∧
            SameState isF e f phys Z ((List.range n).map s.ket) Zk ((List.range n).map k) ∧
            ∀ {k' k'' : Nat → SpT Q K} {Z' Z'' : List (BondInfo Q)}, (∀ i, i < l ∨ r ≤ i → k' i = k i ∧ k'' i = k i) → SameOutside l r Zk Z' →
              SameOutside l r Zk Z'' → FitsOn e f phys n Z' k' → FitsOn e f phys n Z'' k'' → (∀ i < n, EvenBlocks isF (k' i) ∧ EvenBlocks isF (k'' i)) →
              ∀ E N : K, E = sandwich isF (phys.map fun ph => (ph, ph)) Z' X Z'' ((List.range n).map k') mpo.tensors
                ((List.range n).map k'') false (0, 0) (0, 0) (0, 0) (q, 0) (0, 0) (q, 0) →
              N = innerProduct e f phys (ampl ((List.range n).map k') Z') (ampl ((List.range n).map k'') Z'') →
              ∃ bra' ket' bra1 ket1, Mpe.effMps ids.lKet ((List.range' l (r - l)).map k') ids.rKet = some bra' ∧
                Mpe.effMps ids.lKet ((List.range' l (r - l)).map k'') ids.rKet = some ket' ∧ bra'.merge = some bra1 ∧ ket'.merge = some ket1 ∧
                Mps.dot bra1.conj ket1 = some N ∧ (Mpe.expectationOne isF le bra1 o ket1 = some (E + mpo.const * N) ∨
                  Mpe.expectationOne isF le bra1 o ket1 = none ∧ E = 0)) := by
  have net0 := hF0.network hop gX gp fun i hi => (he0 i hi).1
  have hne : ∀ T ∈ (List.range mpo.tensors.length).map ket0 ++ (List.range mpo.tensors.length).map ket0, T ≠ [] := by
    intro T hT
    have : T ∈ (List.range mpo.tensors.length).map ket0 := by simpa using hT
    obtain ⟨i, hi, rfl⟩ := List.mem_map.1 this
    exact (he0 i (List.mem_range.1 hi)).2
  obtain ⟨ids, hids, hI⟩ := idents_network h0 le net0 hne (by rw [sub_self, hd]) (by rw [hd, h0]; simp)
  refine ⟨ids, hids, ?_⟩
  rintro n e f s s' l r builds rfl rfl rfl hrun hlr hr2 hr hes hs'
  have gp' : ∀ ph ∈ phys, ∀ c ∈ ph, GoodBond c := fun ph hph => (gp ph hph).2
  obtain ⟨k, b, Z, Zk, w, -, -, hb, f1, f2, f3, f4, -⟩ := hrun.window hqr ho (goodBond_one 0) (goodBond_one q) gp' hlr hr hs'
  obtain rfl := hb rfl
  refine ⟨Z, f1, fun hnz => ?_⟩
  have hek : ∀ i < mpo.tensors.length, EvenBlocks isF (b i) := fun i hi => f4.even (by
    intro T hT
    obtain ⟨i, hi, rfl⟩ := List.mem_map.1 hT
    exact hes i (List.mem_range.1 hi)) _ (List.mem_map_of_mem (List.mem_range.2 hi))
  have hfull : ∀ i < mpo.tensors.length, b i ≠ [] := fun i hi => f4.full hnz _ (List.mem_map_of_mem (List.mem_range.2 hi))
  obtain ⟨L, R, bra, o, ket, B, T, ph0, ph1, m, a1, a2, a3, a4, a5, a6, -⟩ :=
    local_functions h0 (qr := qr) (canon := true) (same := true) hI (f2.network hop gX gp hek) hlr hr2 hr (fun i hi _ => ⟨hfull i hi, hfull i hi⟩) mpo.const
  have hbk : bra = ket := by
    rw [hI.lBra, hI.rBra] at a4
    rw [hI.lKet, hI.rKet] at a3
    rw [a3] at a4
    exact (Option.some.inj a4).symm
  refine ⟨b, Zk, bra, o, ket, effective_of w a1 a2 a3 a4 a5, hbk, a6, a3, f2, hek, f4, ?_⟩
  intro k' k'' Z' Z'' hag hz' hz'' hF' hF'' hee E N hE hN
  obtain ⟨L', R', bra', o', ket', B', T', ph0', ph1', m', b1, b2, b3, b4, b5, b6, b7, b8, b9, b10, b11, -⟩ :=
    local_functions h0 (qr := qr) (canon := true) (same := true) hI (FitsOn.network2 hop gX gp hF' hF'' (fun i hi => (hee i hi).1) fun i hi => (hee i hi).2)
      hlr hr2 hr (fun i hi hio => by rw [(hag i hio).1, (hag i hio).2]; exact ⟨hfull i hi, hfull i hi⟩) mpo.const
  rw [Mpe.leftEnv_congr (f' := b) (g' := b) l fun i hi => ⟨(hag i (Or.inl hi)).2, (hag i (Or.inl hi)).1⟩, a1] at b1
  rw [Mpe.rightEnv_congr (f' := b) (g' := b) r hr fun i hi => ⟨(hag i (Or.inr hi)).2, (hag i (Or.inr hi)).1⟩, a2] at b2
  obtain rfl := Option.some.inj b1
  obtain rfl := Option.some.inj b2
  rw [a5] at b5
  obtain rfl := Option.some.inj b5
  obtain ⟨n', n'', T1, T2, c1, c2, c3, c4, c5⟩ := metric_window h0 (goodBond_one 0) (goodBond_one q) gp' hlr hr f2 f3 (k' := k') (k'' := k'')
    hag hz' hz'' hF' hF'' (fun i hi => (hee i hi).1) fun i hi => (hee i hi).2
  rw [hI.lBra, hI.rBra, c1] at b4
  rw [hI.lKet, hI.rKet, c2] at b3
  obtain rfl := Option.some.inj b3
  obtain rfl := Option.some.inj b4
  have eT : ∀ {a b : SpT Q K}, some (Mps.mk [a] (0 : K)) = some ⟨[b], 0⟩ → a = b := by
    intro a b h
    simpa using h
  obtain rfl := eT (c3.symm.trans b8)
  obtain rfl := eT (c4.symm.trans b7)
  rw [hd, h0, Bool.false_and] at b10
  simp only [paritySign, Bool.false_eq_true, if_false, one_mul] at b10
  obtain ⟨p0, p1⟩ := b11 (fun i hi => (hz' i hi).trans (hz'' i hi).symm) rfl (by
    intro ph hph
    obtain ⟨p, -, rfl⟩ := List.mem_map.1 hph
    rfl)
  refine ⟨n', n'', ⟨[T1], 0⟩, ⟨[T2], 0⟩, by rw [hI.lKet, hI.rKet]; exact c1, by rw [hI.lKet, hI.rKet]; exact c2, c3, c4, by rw [hN]; exact c5, ?_⟩
  rw [hE, hN, ← b10, ← a6]
  exact expectation_const h0 le b9 (by rw [p0, p1]; exact b9.ket) c5

/-- Rounds are possible: a window can be treated in any order, and the tensors of the window be put back. -/
theorem SweepRun.again {isF : Q → Bool} {qr : Arr K → Arr K × Arr K} (hqr : Factorises qr) (ho : OrthonormalColumns qr) {same : Bool} {mpo : List (OpT Q K)}
    {ids : Mpe.Idents Q K} {e f : BondInfo Q} (ge : GoodBond e) (gf : GoodBond f) {phys : List (List (BondInfo Q))} (gp : ∀ ph ∈ phys, ∀ c ∈ ph, GoodBond c)
    {s : Mpe.Sys (SpT Q K) (Option (OpT Q K))} (h : SweepRun (Mpe.sweepCfg isF qr true same mpo ids) e f phys s) {l r : Nat} (hlr : l < r) (hr : r ≤ mpo.length) :
    ∃ s2, SweepRun (Mpe.sweepCfg isF qr true same mpo ids) e f phys s2 ∧ ∃ t, Mpe.buildEnvs (Mpe.sweepCfg isF qr true same mpo ids) l r s = some t ∧
      ∀ i, s2.ket i = t.ket i := by
  obtain ⟨hg, Z0, hm⟩ := h.mixed hqr ho ge gf gp
  obtain ⟨t, Z1, k1, -⟩ := (hm.mono (show l ≤ mpo.length by omega) (Nat.zero_le r)).build hqr ho ge gf gp hlr hr
    (hg.inv (show l ≤ (Mpe.sweepCfg isF qr true same mpo ids).n from by show l ≤ mpo.length; omega))
  have e1 : Mpe.setRange t.ket l r ((List.range' l (r - l)).map t.ket) = t.ket := by
    funext i
    unfold Mpe.setRange
    split
    · rename_i hi
      rw [List.getD_eq_getElem _ _ (by simp; omega), List.getElem_map, List.getElem_range']
      congr 1
      omega
    · rfl
  refine ⟨Mpe.embed (Mpe.sweepCfg isF qr true same mpo ids) l r ((List.range' l (r - l)).map t.ket) none t,
    .round (s1 := s) (t := t) l r 0 ((List.range' l (r - l)).map t.ket) none h hlr hr rfl k1 (fun _ => rfl) ?_ ?_, t, k1, ?_⟩
  · intro Z hF _
    exact ⟨Z, fun _ _ => rfl, by rw [e1]; exact hF⟩
  · unfold Mpe.setWindow
    rw [k1]; rfl
  · intro i
    exact (congrFun (embed_ket fun _ => rfl) i).trans (congrFun e1 i)

end

section

noncomputable def realBlock (b : List Int × ℝ) : List Int × Arr ℝ := (b.1, ⟨b.1.map fun _ => 1, fun _ => b.2⟩)

noncomputable def realBlocks (l : List (List Int × ℝ)) : SpT Int ℝ := l.map realBlock

/-- Hopping between two sites, a number-like term, and the constant 3. -/
noncomputable def cnH : Mpo Int ℝ :=
  ⟨[⟨realBlocks [([0, 1, 0, 1], 2)], realBlocks [([0, 1, 1, 0], 5)]⟩, ⟨realBlocks [([1, 0, 1, 0], 7)], realBlocks [([0, 0, 0, 0], 1), ([0, 1, 1, 0], 1)]⟩], 3⟩

/-- One particle on two sites. -/
noncomputable def cnKet : Nat → SpT Int ℝ
  | 0 => realBlocks [([0, 0, 0], 2), ([0, 1, 1], 3)]
  | _ => realBlocks [([0, 1, 1], 5), ([1, 0, 1], 7)]

def cnPhys : List (List (BondInfo Int)) := [[[(0, 1), (1, 1)]], [[(0, 1), (1, 1)]]]

/-- The hypotheses of `C59_expectation` are met. -/
example : OpOnBonds mpoIsF ([(0, 1)] :: [[(0, 1), (1, 1)]] ++ [[(0, 1)]]) (cnPhys.map fun ph => (ph, ph)) cnH.tensors :=
  ⟨⟨by decide, by decide, by decide, by decide, by decide, by decide⟩, ⟨by decide, by decide, by decide, by decide, by decide, by decide⟩, trivial⟩

theorem cnFits : FitsOn [(0, 1)] [(1, 1)] cnPhys 2 [[(0, 1), (1, 1)]] cnKet where
  on := ⟨by decide, by decide, trivial⟩
  good := by unfold GoodBond; decide
  unique := by decide
  charge := by
    intro i hi
    rcases (show i = 0 ∨ i = 1 by omega) with rfl | rfl
    · exact ⟨[true, true, false], 0, rfl, by unfold Conserves; decide⟩
    · exact ⟨[true, true, false], 0, rfl, by unfold Conserves; decide⟩

example : ∀ i < 2, EvenBlocks mpoIsF (cnKet i) ∧ cnKet i ≠ [] := by
  intro i hi
  rcases (show i = 0 ∨ i = 1 by omega) with rfl | rfl
  · exact ⟨by unfold EvenBlocks; decide, by simp [cnKet, realBlocks]⟩
  · exact ⟨by unfold EvenBlocks; decide, by simp [cnKet, realBlocks]⟩

example : NonZero cnPhys [[(0, 1), (1, 1)]] ((List.range 2).map cnKet) (0, 0) (1, 0) := by
  refine ⟨[[(0, 0)], [(1, 0)]], by decide, ?_⟩
  simp [List.range_succ, ampl, legBasis, cnKet, realBlocks, realBlock, entry, blockEntry]
  decide

/-- A factorisation exists, and sweeps of any number of rounds. -/
example (ids : Mpe.Idents Int ℝ) : ∃ qr : Arr ℝ → Arr ℝ × Arr ℝ, Factorises qr ∧ OrthonormalColumns qr ∧
    ∃ s2 t, SweepRun (Mpe.sweepCfg mpoIsF qr true true cnH.tensors ids) [(0, 1)] [(1, 1)] cnPhys s2 ∧
      Mpe.buildEnvs (Mpe.sweepCfg mpoIsF qr true true cnH.tensors ids) 1 2 (Mpe.new cnKet cnKet) = some t ∧ ∀ i, s2.ket i = t.ket i := by
  obtain ⟨qr, h1, h2⟩ := C21_contract ℝ
  refine ⟨qr, h1, h2, ?_⟩
  obtain ⟨s2, a, t, b, c⟩ := (SweepRun.new (c := Mpe.sweepCfg mpoIsF qr true true cnH.tensors ids) cnKet cnFits).again h1 h2 (by unfold GoodBond; decide)
    (by unfold GoodBond; decide) (by unfold GoodBond; decide) (show 1 < 2 by decide) (by decide)
  exact ⟨s2, t, a, b, c⟩

/-- **C59**, canonicalisation is needed: without it the norm of the window is not that of the state, and an operator with a constant has a different
expectation value in the window and in the whole, although bra and ket are the same object. -/
theorem C59_needs_canon : ∃ ids w k v v', Mpe.initIdents mpoIsF (fun a b => decide (a ≤ b)) swKet swH.tensors swKet none = some ids ∧
    Mpe.effective mpoIsF plainQR false true ⟨swH.tensors, 1⟩ ids 1 3 (Mpe.new (fun i => swKet.getD i []) fun i => swKet.getD i []) = some w ∧
    w.2.2.merge = some k ∧ Mpe.expectationOne mpoIsF (fun a b => decide (a ≤ b)) k w.2.1 k = some v ∧
    Mpe.expectation mpoIsF (fun a b => decide (a ≤ b)) ⟨swKet, 0⟩ ⟨swH.tensors, 1⟩ ⟨swKet, 0⟩ = some v' ∧ v ≠ v' := by
  refine ⟨_, _, _, 3010000, 3368675, rfl, rfl, rfl, ?_⟩
  decide +kernel

end
end Verif
