import Verif.Proof.DmrgUnit

/-! The local problem of a window, with the legs of its tensors. -/

set_option linter.unusedSectionVars false

namespace Verif
section
variable {Q K : Type} [DecidableEq Q] [AddCommGroup Q] [CommRing K] [StarRing K]

/-- The merged tensor of a window. -/
theorem window_merge [DecidableEq K] {isF : Q → Bool} (h0 : isF 0 = false) {e f : BondInfo Q} (ge : GoodBond e) (gf : GoodBond f)
    {phys : List (List (BondInfo Q))} {n : Nat} {Z : List (BondInfo Q)} {k : Nat → SpT Q K}
    {l r : Nat} (hlr : l < r) (hr : r ≤ n) (hF : FitsOn e f phys n Z k) (hiso : IsometricOutside e f phys n Z l r k)
    {k' : Nat → SpT Q K} {Z' : List (BondInfo Q)} (h' : ∀ i, i < l ∨ r ≤ i → k' i = k i) (z' : SameOutside l r Z Z')
    (on' : FitsOn e f phys n Z' k') (e' : ∀ i < n, EvenBlocks isF (k' i)) :
    ∃ m' T', Mpe.effMps (oneBlock [0]) ((List.range' l (r - l)).map k') (oneBlock [0]) = some m' ∧ m'.merge = some ⟨[T'], 0⟩ ∧
      Conforms ([(0, 1)] :: windowLegs e f Z phys l r ++ [[(0, 1)]]) T' ∧
      ∀ x ps y, List.Forall₂ (fun (p : List (Q × Nat)) ph => p.length = ph.length) ps ((phys.drop l).take (r - l)) →
        entry T' ((0, 0) :: (x :: ps.flatten ++ [y]) ++ [(0, 0)]) = ampl ((List.range' l (r - l)).map k') ((Z'.drop l).take (r - 1 - l)) x ps y := by
  obtain ⟨w', -⟩ := innerProduct_window gf hlr hr hF hiso ge (fun i hi => ⟨h' i hi, h' i hi⟩) z' z' on'.on on'.on
  obtain ⟨m', T', a1, a2, a3, a4⟩ := effMps_merge h0 w' (by
    intro b hb
    exact (on'.good b (List.mem_of_mem_drop (List.mem_of_mem_take hb))).1) (by
    intro t ht
    obtain ⟨i, hi, rfl⟩ := List.mem_map.1 ht
    exact e' i (by have := List.mem_range'_1.1 hi; omega))
  exact ⟨m', T', a1, a2, a3, a4⟩

/-- Two descriptions of the same local problem give the same number. -/
theorem sandwichOne_unique [DecidableEq K] {isF : Q → Bool} (h0 : isF 0 = false) (le : Q → Q → Bool) {ph0 ph1 ph0' ph1' : List (BondInfo Q) × List (BondInfo Q)}
    {m m' : BondInfo Q} {B T : SpT Q K} {o : Mpo Q K} (h : LocalProblem isF ph0 ph1 m B o.tensors T) (h' : LocalProblem isF ph0' ph1' m' B o.tensors T)
    (hT : Conforms ([(0, 1)] :: (ph0.1 ++ ph1.1) ++ [[(0, 1)]]) T) (hT' : Conforms ([(0, 1)] :: (ph0'.1 ++ ph1'.1) ++ [[(0, 1)]]) T)
    {v : K} (hv : Mps.dot (Mps.conj ⟨[B], 0⟩) ⟨[T], 0⟩ = some v) :
    sandwichOne isF ph0 ph1 m B o.tensors T = sandwichOne isF ph0' ph1' m' B o.tensors T := by
  rcases expectation_const h0 le h hT hv with a | ⟨a, a'⟩ <;> rcases expectation_const h0 le h' hT' hv with b | ⟨b, b'⟩
  · rw [a] at b
    exact add_right_cancel (Option.some.inj b)
  · rw [a] at b; cases b
  · rw [a] at b; cases b
  · rw [a', b']

/-- What the local problem of a window is. -/
structure WindowProblem (isF : Q → Bool) (phys : List (List (BondInfo Q))) (q : Q) (X : List (BondInfo Q)) (mpo : Mpo Q K) (l r : Nat)
    (k : Nat → SpT Q K) (Zk : List (BondInfo Q)) (o : Mpo Q K) (ph0 ph1 : List (BondInfo Q)) (m : BondInfo Q) : Prop where
  const : o.const = mpo.const
  fits : FitsOn [(0, 1)] [(q, 1)] phys mpo.tensors.length Zk k
  even : ∀ i < mpo.tensors.length, EvenBlocks isF (k i)
  op : OpOnBonds isF [[(0, 1)], m, [(0, 1)]] [(ph0, ph0), (ph1, ph1)] o.tensors
  bond : GoodBond m
  legs : ∀ ph ∈ [(ph0, ph0), (ph1, ph1)], ph.1 ≠ [] ∧ ph.1.length = ph.2.length ∧ ∀ c ∈ ph.1 ++ ph.2, GoodBond c
  eq : ph0 ++ ph1 = windowLegs [(0, 1)] [(q, 1)] Zk phys l r
  all : ∀ {k' k'' : Nat → SpT Q K} {Z' Z'' : List (BondInfo Q)}, (∀ i, i < l ∨ r ≤ i → k' i = k i ∧ k'' i = k i) → SameOutside l r Zk Z' → SameOutside l r Zk Z'' →
    FitsOn [(0, 1)] [(q, 1)] phys mpo.tensors.length Z' k' → FitsOn [(0, 1)] [(q, 1)] phys mpo.tensors.length Z'' k'' →
    (∀ i < mpo.tensors.length, EvenBlocks isF (k' i) ∧ EvenBlocks isF (k'' i)) →
    ∃ bra' ket' B T, Mpe.effMps (oneBlock [0]) ((List.range' l (r - l)).map k') (oneBlock [0]) = some bra' ∧
      Mpe.effMps (oneBlock [0]) ((List.range' l (r - l)).map k'') (oneBlock [0]) = some ket' ∧ bra'.merge = some ⟨[B], 0⟩ ∧ ket'.merge = some ⟨[T], 0⟩ ∧
      Conforms ([(0, 1)] :: windowLegs [(0, 1)] [(q, 1)] Zk phys l r ++ [[(0, 1)]]) B ∧ EvenBlocks isF B ∧
      Conforms ([(0, 1)] :: windowLegs [(0, 1)] [(q, 1)] Zk phys l r ++ [[(0, 1)]]) T ∧ EvenBlocks isF T ∧
      (∀ x ps y, List.Forall₂ (fun (p : List (Q × Nat)) ph => p.length = ph.length) ps ((phys.drop l).take (r - l)) →
        entry B ((0, 0) :: (x :: ps.flatten ++ [y]) ++ [(0, 0)]) = ampl ((List.range' l (r - l)).map k') ((Z'.drop l).take (r - 1 - l)) x ps y) ∧
      (∀ x ps y, List.Forall₂ (fun (p : List (Q × Nat)) ph => p.length = ph.length) ps ((phys.drop l).take (r - l)) →
        entry T ((0, 0) :: (x :: ps.flatten ++ [y]) ++ [(0, 0)]) = ampl ((List.range' l (r - l)).map k'') ((Z''.drop l).take (r - 1 - l)) x ps y) ∧
      Mps.dot (Mps.conj ⟨[B], 0⟩) ⟨[T], 0⟩ =
        some (innerProduct [(0, 1)] [(q, 1)] phys (ampl ((List.range mpo.tensors.length).map k') Z') (ampl ((List.range mpo.tensors.length).map k'') Z'')) ∧
      sandwichOne isF (ph0, ph0) (ph1, ph1) m B o.tensors T = sandwich isF (phys.map fun ph => (ph, ph)) Z' X Z'' ((List.range mpo.tensors.length).map k') mpo.tensors
        ((List.range mpo.tensors.length).map k'') false (0, 0) (0, 0) (0, 0) (q, 0) (0, 0) (q, 0)

theorem window_problem [DecidableEq K] {isF : Q → Bool} (h0 : isF 0 = false) (le : Q → Q → Bool) {qr : Arr K → Arr K × Arr K} (hqr : Factorises qr)
    (ho : OrthonormalColumns qr) {q : Q} {dq : Option Q} {ket0 : Nat → SpT Q K} {mpo : Mpo Q K} {X Z0 : List (BondInfo Q)} {phys : List (List (BondInfo Q))}
    (hop : OpOnBonds isF ([(0, 1)] :: X ++ [[(0, 1)]]) (phys.map fun ph => (ph, ph)) mpo.tensors) (gX : ∀ b ∈ X, GoodBond b)
    (gp : ∀ ph ∈ phys, ph ≠ [] ∧ ∀ c ∈ ph, GoodBond c) (hF0 : FitsOn [(0, 1)] [(q, 1)] phys mpo.tensors.length Z0 ket0)
    (he0 : ∀ i < mpo.tensors.length, EvenBlocks isF (ket0 i) ∧ ket0 i ≠ []) (hd : dq.getD 0 = 0) :
    ∃ ids, Mpe.initIdents isF le ((List.range mpo.tensors.length).map ket0) mpo.tensors ((List.range mpo.tensors.length).map ket0) dq = some ids ∧
      ids.lKet = oneBlock [0] ∧ ids.rKet = oneBlock [0] ∧
      ∀ (s s' : Mpe.Sys (SpT Q K) (Option (OpT Q K))) (l r builds : Nat),
        SweepRun (Mpe.sweepCfg isF qr true true mpo.tensors ids) [(0, 1)] [(q, 1)] phys s →
        l < r → r ≤ l + 2 → r ≤ mpo.tensors.length → (∀ i < mpo.tensors.length, EvenBlocks isF (s.ket i)) →
        (List.replicate builds ()).foldlM (fun s _ => Mpe.buildEnvs (Mpe.sweepCfg isF qr true true mpo.tensors ids) l r s) s = some s' →
        ∃ Z, FitsOn [(0, 1)] [(q, 1)] phys mpo.tensors.length Z s.ket ∧ (NonZero phys Z ((List.range mpo.tensors.length).map s.ket) (0, 0) (q, 0) →
          ∃ k bra o ket, (∃ t, Mpe.buildEnvs (Mpe.sweepCfg isF qr true true mpo.tensors ids) l r s' = some t ∧ t.ket = k) ∧
            Mpe.effective isF qr true true mpo ids l r s' = some (bra, o, ket) ∧ bra = ket ∧
            Mpe.effMps ids.lKet ((List.range' l (r - l)).map k) ids.rKet = some ket ∧
            (∃ Zk, FitsOn [(0, 1)] [(q, 1)] phys mpo.tensors.length Zk k ∧ IsometricOutside [(0, 1)] [(q, 1)] phys mpo.tensors.length Zk l r k) ∧
            ∀ Zk, FitsOn [(0, 1)] [(q, 1)] phys mpo.tensors.length Zk k → IsometricOutside [(0, 1)] [(q, 1)] phys mpo.tensors.length Zk l r k →
              SameState isF [(0, 1)] [(q, 1)] phys Z ((List.range mpo.tensors.length).map s.ket) Zk ((List.range mpo.tensors.length).map k) ∧
              ∃ ph0 ph1 m, WindowProblem isF phys q X mpo l r k Zk o ph0 ph1 m) := by
  have net0 := hF0.network hop gX gp fun i hi => (he0 i hi).1
  have hne : ∀ T ∈ (List.range mpo.tensors.length).map ket0 ++ (List.range mpo.tensors.length).map ket0, T ≠ [] := by
    intro T hT
    have : T ∈ (List.range mpo.tensors.length).map ket0 := by simpa using hT
    obtain ⟨i, hi, rfl⟩ := List.mem_map.1 this
    exact (he0 i (List.mem_range.1 hi)).2
  obtain ⟨ids, hids, hI⟩ := idents_network h0 le net0 hne (by rw [sub_self, hd]) (by rw [hd, h0]; simp)
  refine ⟨ids, hids, hI.lKet, hI.rKet, ?_⟩
  intro s s' l r builds hrun hlr hr2 hr hes hs'
  have gp' : ∀ ph ∈ phys, ∀ c ∈ ph, GoodBond c := fun ph hph => (gp ph hph).2
  obtain ⟨k, b, Z, Zk, w, -, -, hb, f1, f2, f3, f4, f5⟩ := hrun.window hqr ho (goodBond_one 0) (goodBond_one q) gp' hlr hr hs'
  obtain rfl := hb rfl
  refine ⟨Z, f1, fun hnz => ?_⟩
  have hek : ∀ i < mpo.tensors.length, EvenBlocks isF (b i) := fun i hi => f4.even (by
    intro T hT
    obtain ⟨i, hi, rfl⟩ := List.mem_map.1 hT
    exact hes i (List.mem_range.1 hi)) _ (List.mem_map_of_mem (List.mem_range.2 hi))
  have hfull : ∀ i < mpo.tensors.length, b i ≠ [] := fun i hi => f4.full hnz _ (List.mem_map_of_mem (List.mem_range.2 hi))
  have esnd : (phys.map fun ph => (ph, ph)).map Prod.snd = phys := by simp [List.map_map, Function.comp_def]
  obtain ⟨L0, R0, bra0, o0, ket0', -, -, -, -, -, z1, z2, z3, z4, z5, -⟩ :=
    local_functions h0 (qr := qr) (canon := true) (same := true) hI (f2.network hop gX gp hek) hlr hr2 hr (fun i hi _ => ⟨hfull i hi, hfull i hi⟩) mpo.const
  have heff0 := effective_of w z1 z2 z3 z4 z5
  have hbk0 : bra0 = ket0' := by
    rw [hI.lBra, hI.rBra] at z4
    rw [hI.lKet, hI.rKet] at z3
    rw [z3] at z4
    exact (Option.some.inj z4).symm
  refine ⟨b, bra0, o0, ket0', f5 rfl, heff0, hbk0, z3, ⟨Zk, f2, f3⟩, ?_⟩
  intro Zj g2 g3
  have hS : SameState isF [(0, 1)] [(q, 1)] phys Z ((List.range mpo.tensors.length).map s.ket) Zj ((List.range mpo.tensors.length).map b) :=
    ⟨g2.on, g2.good, f4.even, fun x ps y hp => by
      rw [← f4.ampl x ps y hp]
      exact ampl_bonds g2.on f2.on (fun b hb => (g2.good b hb).1) (fun b hb => (f2.good b hb).1) x y ps⟩
  refine ⟨hS, ?_⟩
  clear z1 z2 z3 z4 z5 f3 f4 hS
  obtain ⟨L, R, bra, o, ket, B, T, ph0, ph1, m, a1, a2, a3, a4, a5, a6, a7, a8, a9, -, a11, a12, -⟩ :=
    local_functions h0 (qr := qr) (canon := true) (same := true) hI (g2.network hop gX gp hek) hlr hr2 hr (fun i hi _ => ⟨hfull i hi, hfull i hi⟩) mpo.const
  have heff := effective_of w a1 a2 a3 a4 a5
  rw [heff0] at heff
  obtain ⟨-, rfl, -⟩ : bra0 = bra ∧ o0 = o ∧ ket0' = ket := by simpa using heff
  have hdup : ∀ ph ∈ phys.map fun ph => (ph, ph), ph.1 = ph.2 := by
    intro ph hph
    obtain ⟨p, -, rfl⟩ := List.mem_map.1 hph
    rfl
  obtain ⟨p0, p1⟩ := a11 (fun _ _ => rfl) rfl hdup
  obtain ⟨ph0, ph0'⟩ := ph0
  obtain ⟨ph1, ph1'⟩ := ph1
  dsimp only at p0 p1 a12
  subst p0 p1
  rw [esnd] at a12
  refine ⟨ph0, ph1, m, a6, g2, hek, a9.op, a9.bond, a9.legs, a12, ?_⟩
  intro k' k'' Z' Z'' hag hz' hz'' hF' hF'' hee
  obtain ⟨L', R', bra', o', ket', B', T', ph0', ph1', m', b1, b2, b3, b4, b5, b6, b7, b8, b9, b10, b11, b12, -⟩ :=
    local_functions h0 (qr := qr) (canon := true) (same := true) hI (FitsOn.network2 hop gX gp hF' hF'' (fun i hi => (hee i hi).1) fun i hi => (hee i hi).2)
      hlr hr2 hr (fun i hi hio => by rw [(hag i hio).1, (hag i hio).2]; exact ⟨hfull i hi, hfull i hi⟩) mpo.const
  rw [Mpe.leftEnv_congr (f' := b) (g' := b) l fun i hi => ⟨(hag i (Or.inl hi)).2, (hag i (Or.inl hi)).1⟩, a1] at b1
  rw [Mpe.rightEnv_congr (f' := b) (g' := b) r hr fun i hi => ⟨(hag i (Or.inr hi)).2, (hag i (Or.inr hi)).1⟩, a2] at b2
  obtain rfl := Option.some.inj b1
  obtain rfl := Option.some.inj b2
  rw [a5] at b5
  obtain rfl := Option.some.inj b5
  obtain ⟨n', n'', T1, T2, c1, c2, c3, c4, c5⟩ := metric_window h0 (goodBond_one 0) (goodBond_one q) gp' hlr hr g2 g3 (k' := k') (k'' := k'')
    hag hz' hz'' hF' hF'' (fun i hi => (hee i hi).1) fun i hi => (hee i hi).2
  rw [hI.lBra, hI.rBra, c1] at b4
  rw [hI.lKet, hI.rKet, c2] at b3
  obtain rfl := Option.some.inj b3
  obtain rfl := Option.some.inj b4
  have eT : ∀ {a b : SpT Q K}, some (Mps.mk [a] (0 : K)) = some ⟨[b], 0⟩ → a = b := by
    intro a b h
    simpa using h
  obtain rfl := eT (c3.symm.trans b8)
  obtain rfl := eT (c4.symm.trans b7)
  obtain ⟨m1, U1, d1, d2, d3, d4⟩ := window_merge h0 (goodBond_one 0) (goodBond_one q) hlr hr g2 g3 (fun i hi => (hag i hi).1) hz' hF' fun i hi => (hee i hi).1
  obtain ⟨m2, U2, u1, u2, u3, u4⟩ := window_merge h0 (goodBond_one 0) (goodBond_one q) hlr hr g2 g3 (fun i hi => (hag i hi).2) hz'' hF'' fun i hi => (hee i hi).2
  rw [c1] at d1
  rw [c2] at u1
  obtain rfl := Option.some.inj d1
  obtain rfl := Option.some.inj u1
  obtain rfl := eT (c3.symm.trans d2)
  obtain rfl := eT (c4.symm.trans u2)
  rw [hd, h0, Bool.false_and] at b10
  simp only [paritySign, Bool.false_eq_true, if_false, one_mul] at b10
  obtain ⟨p0, p1⟩ := b11 (fun i hi => (hz' i hi).trans (hz'' i hi).symm) rfl hdup
  refine ⟨n', n'', T1, T2, c1, c2, c3, c4, d3, b9.braEven, u3, b9.ketEven, d4, u4, c5, ?_⟩
  rw [← b10]
  have hbase : LocalProblem isF (ph0, ph0) (ph1, ph1) m T1 o0.tensors T2 :=
    ⟨⟨a9.op, by show Conforms ([(0, 1)] :: (ph0 ++ ph1) ++ [[(0, 1)]]) T2; rw [a12]; exact u3, b9.ketEven, a9.bond, a9.legs⟩,
      by show Conforms ([(0, 1)] :: (ph0 ++ ph1) ++ [[(0, 1)]]) T1; rw [a12]; exact d3, b9.braEven⟩
  exact sandwichOne_unique h0 le hbase b9 hbase.ket (by rw [p0, p1]; exact b9.ket) c5

end
end Verif
