import Verif.Proof.LinearRun
import Verif.Thm.DmrgStep

/-! The local product of a sweep with two states is the projection of the whole product. -/

set_option linter.unusedSectionVars false

namespace Verif
section
variable {Q K : Type} [DecidableEq Q] [AddCommGroup Q] [CommRing K] [StarRing K]

theorem FitsOn.networkPair {isF : Q → Bool} {qb qk : Q} {phys : List (List (BondInfo Q) × List (BondInfo Q))} {X Y Z : List (BondInfo Q)} {mpo : List (OpT Q K)}
    {b k : Nat → SpT Q K} (hop : OpOnBonds isF ([(0, 1)] :: X ++ [[(0, 1)]]) phys mpo) (gX : ∀ b ∈ X, GoodBond b)
    (hp : ∀ ph ∈ phys, ph.1 ≠ [] ∧ ph.1.length = ph.2.length ∧ ∀ c ∈ ph.1 ++ ph.2, GoodBond c) (hB : FitsOn [(0, 1)] [(qb, 1)] (phys.map Prod.fst) mpo.length Y b)
    (hF : FitsOn [(0, 1)] [(qk, 1)] (phys.map Prod.snd) mpo.length Z k)
    (hb : ∀ i < mpo.length, EvenBlocks isF (b i)) (he : ∀ i < mpo.length, EvenBlocks isF (k i)) :
    Network isF qb qk Y X Z phys ((List.range mpo.length).map b) mpo ((List.range mpo.length).map k) := by
  have ev : ∀ k : Nat → SpT Q K, (∀ i < mpo.length, EvenBlocks isF (k i)) → ∀ T ∈ (List.range mpo.length).map k, EvenBlocks isF T := by
    intro k he T hT
    obtain ⟨i, hi, rfl⟩ := List.mem_map.1 hT
    exact he i (List.mem_range.1 hi)
  refine { bra := hB.on, op := hop, ket := hF.on, bonds := ?_, legs := hp, braEven := ev b hb, ketEven := ev k he }
  intro c hc
  simp only [List.mem_append] at hc
  rcases hc with (hc | hc) | hc
  · exact hB.good c hc
  · exact gX c hc
  · exact hF.good c hc

/-- Inner product of two states of one tensor. -/
theorem dot_one [DecidableEq K] {legs : List (BondInfo Q)} {B T : SpT Q K} (hw : ∀ b ∈ legs, Dict.WF b) (cB : Conforms ([(0, 1)] :: legs ++ [[(0, 1)]]) B)
    (cT : Conforms ([(0, 1)] :: legs ++ [[(0, 1)]]) T) :
    Mps.dot (Mps.conj ⟨[B], 0⟩) ⟨[T], 0⟩ =
      some (((legIndices legs).map fun x => star (entry B ((0, 0) :: x ++ [(0, 0)])) * entry T ((0, 0) :: x ++ [(0, 0)])).sum) := by
  have hB : OnBonds ([(0, 1)] :: [] ++ [[(0, 1)]]) [legs] (Mps.conj ⟨[B], 0⟩).tensors := onBonds_conj (ts := [B]) ⟨cB, trivial⟩
  have eB : ∀ p, ampl (Mps.conj (⟨[B], 0⟩ : Mps Q K)).tensors [] (0, 0) [p] (0, 0) = star (entry B ((0, 0) :: p ++ [(0, 0)])) := fun p =>
    (C19_conj (⟨[B], 0⟩ : Mps Q K)).2 [] (0, 0) [p] (0, 0)
  have h2 : OnBonds ([(0, 1)] :: [] ++ [[(0, 1)]]) [legs] (Mps.mk [T] (0 : K)).tensors := ⟨cT, trivial⟩
  rw [dot_any hB h2 (by simp) (by simp) (by simpa using hw) (by simp)]
  congr 1
  rw [List.map_singleton, cart_cons_sum]
  refine sum_map_congr' _ _ _ fun a _ => ?_
  rw [cart, List.map_singleton, List.sum_singleton, eB]
  rfl

theorem inLegs_init {L : List (BondInfo Q)} (hw : ∀ b ∈ L, Dict.WF b) {a : BondInfo Q} {x : Q × Nat} : ∀ {z : List (Q × Nat)}, InLegs (L ++ [a]) (z ++ [x]) →
    z ∈ legIndices L := by
  induction L with
  | nil =>
    intro z h
    have := h.length_eq
    simp at this
    subst this
    simp [legIndices, cart]
  | cons b L ih =>
    intro z h
    rcases z with _ | ⟨y, z⟩
    · have := h.length_eq
      simp at this
    · obtain ⟨h1, h2⟩ := List.forall₂_cons.1 h
      refine (mem_cart _ _).2 (.cons ((mem_legBasis (hw b (by simp))).2 h1) ((mem_cart _ _).1 (ih (fun b hb => hw b (by simp [hb])) h2)))

/-- Only the components count. -/
theorem dot_components_eq [DecidableEq K] {legs legs' : List (BondInfo Q)} {B R T : SpT Q K} (hw : ∀ b ∈ legs, Dict.WF b) (hw' : ∀ b ∈ legs', Dict.WF b)
    (cB : Conforms ([(0, 1)] :: legs ++ [[(0, 1)]]) B) (cB' : Conforms ([(0, 1)] :: legs' ++ [[(0, 1)]]) B) (cR : Conforms ([(0, 1)] :: legs ++ [[(0, 1)]]) R)
    (cT : Conforms ([(0, 1)] :: legs' ++ [[(0, 1)]]) T) (h : ∀ x, entry R ((0, 0) :: x ++ [(0, 0)]) = entry T ((0, 0) :: x ++ [(0, 0)])) :
    Mps.dot (Mps.conj ⟨[B], 0⟩) ⟨[R], 0⟩ = Mps.dot (Mps.conj ⟨[B], 0⟩) ⟨[T], 0⟩ := by
  rw [dot_one hw cB cR, dot_one hw' cB' cT]
  congr 1
  simp only [h]
  refine sum_support (legIndices_nodup hw) (legIndices_nodup hw') _ fun z hz => ?_
  have hne : entry B ((0, 0) :: z ++ [(0, 0)]) ≠ 0 := by
    intro h0
    rw [h0, star_zero, zero_mul] at hz
    exact hz rfl
  have mem : ∀ {L : List (BondInfo Q)}, (∀ b ∈ L, Dict.WF b) → Conforms ([(0, 1)] :: L ++ [[(0, 1)]]) B → z ∈ legIndices L := by
    intro L wL hL
    have h1 := (List.forall₂_cons.1 (entry_support hL hne).2).2
    exact inLegs_init wL h1
  exact ⟨mem hw cB, mem hw' cB'⟩

/-- The product of a local problem with a bra. -/
theorem product_pair [DecidableEq K] {isF : Q → Bool} (h0 : isF 0 = false) (le : Q → Q → Bool) {ph0 ph1 : List (BondInfo Q) × List (BondInfo Q)}
    {m : BondInfo Q} {B T : SpT Q K} {o : Mpo Q K} (hc : o.const = 0) (h : LocalProblem isF ph0 ph1 m B o.tensors T) :
    Mps.applyOne isF le o ⟨[T], 0⟩ = none ∧ sandwichOne isF ph0 ph1 m B o.tensors T = 0 ∨
      ∃ V, Mps.applyOne isF le o ⟨[T], 0⟩ = some ⟨[V], 0⟩ ∧ Conforms ([(0, 1)] :: (ph0.1 ++ ph1.1) ++ [[(0, 1)]]) V ∧
        Mps.dot (Mps.conj ⟨[B], 0⟩) ⟨[V], 0⟩ = some (sandwichOne isF ph0 ph1 m B o.tensors T) ∧ UniqueLabels V := by
  rcases C58_product (o := o) h0 le h.toLocalOp (Or.inl hc) with ⟨e, hz⟩ | ⟨R, r1, r2, r3, r4⟩
  · left
    refine ⟨e, ?_⟩
    unfold sandwichOne
    refine sum_map_zero' _ _ fun a ha => sum_map_zero' _ _ fun b hb => ?_
    rw [hz a b (legIndices_length ha) (legIndices_length hb), mul_zero]
  · right
    refine ⟨R, r1, r2, ?_, r3⟩
    rw [dot_one (by
      intro c hc
      rcases List.mem_append.1 hc with hc | hc
      · exact ((h.legs ph0 (by simp)).2.2 c (by simp [hc])).1
      · exact ((h.legs ph1 (by simp)).2.2 c (by simp [hc])).1) h.bra r2, legIndices_append_sum]
    congr 1
    unfold sandwichOne
    refine sum_map_congr' _ _ _ fun a ha => sum_map_congr' _ _ _ fun b hb => ?_
    rw [r4 a b (legIndices_length ha) (legIndices_length hb), hc, zero_mul, add_zero]

/-- What the local problem of a window is, with two states. -/
structure PairProblem [DecidableEq K] (isF : Q → Bool) (le : Q → Q → Bool) (phys : List (List (BondInfo Q) × List (BondInfo Q))) (qb qk : Q) (dq : Option Q)
    (X Z : List (BondInfo Q)) (mpo : Mpo Q K) (l r : Nat) (b k : Nat → SpT Q K) (Y : List (BondInfo Q)) (o : Mpo Q K) (T : SpT Q K) : Prop where
  form : Mps.applyOne isF le o ⟨[T], 0⟩ = none ∨ ∃ V, Mps.applyOne isF le o ⟨[T], 0⟩ = some ⟨[V], 0⟩ ∧ (Mps.dot (Mps.conj ⟨[V], 0⟩) ⟨[V], 0⟩).isSome ∧
    UniqueLabels V ∧ Conforms ([(0, 1)] :: windowLegs [(0, 1)] [(qb, 1)] Y (phys.map Prod.fst) l r ++ [[(0, 1)]]) V
  all : ∀ {b' : Nat → SpT Q K} {Y' : List (BondInfo Q)}, (∀ i, i < l ∨ r ≤ i → b' i = b i) → SameOutside l r Y Y' →
    FitsOn [(0, 1)] [(qb, 1)] (phys.map Prod.fst) mpo.tensors.length Y' b' → (∀ i < mpo.tensors.length, EvenBlocks isF (b' i)) →
    ∃ m' B, Mpe.effMps (oneBlock [0]) ((List.range' l (r - l)).map b') (oneBlock [0]) = some m' ∧ m'.merge = some ⟨[B], 0⟩ ∧
      (Mps.applyOne isF le o ⟨[T], 0⟩ = none → paritySign K (isF (dq.getD 0) && isF qk) * sandwich isF phys Y' X Z ((List.range mpo.tensors.length).map b') mpo.tensors
          ((List.range mpo.tensors.length).map k) false (0, 0) (0, 0) (0, 0) (qb, 0) (0, 0) (qk, 0) = 0) ∧
      ∀ V, Mps.applyOne isF le o ⟨[T], 0⟩ = some ⟨[V], 0⟩ →
        Mps.dot (Mps.conj ⟨[B], 0⟩) ⟨[V], 0⟩ = some (paritySign K (isF (dq.getD 0) && isF qk) * sandwich isF phys Y' X Z ((List.range mpo.tensors.length).map b') mpo.tensors
          ((List.range mpo.tensors.length).map k) false (0, 0) (0, 0) (0, 0) (qb, 0) (0, 0) (qk, 0)) ∧
        ((∀ x, entry B ((0, 0) :: x ++ [(0, 0)]) = entry V ((0, 0) :: x ++ [(0, 0)])) →
          Mps.dot (Mps.conj ⟨[V], 0⟩) ⟨[V], 0⟩ = Mps.dot (Mps.conj ⟨[B], 0⟩) ⟨[V], 0⟩ ∧
          ∀ {b'' : Nat → SpT Q K} {Y'' : List (BondInfo Q)}, (∀ i, i < l ∨ r ≤ i → b'' i = b i) → SameOutside l r Y Y'' →
            FitsOn [(0, 1)] [(qb, 1)] (phys.map Prod.fst) mpo.tensors.length Y'' b'' → (∀ i < mpo.tensors.length, EvenBlocks isF (b'' i)) →
            paritySign K (isF (dq.getD 0) && isF qk) * sandwich isF phys Y'' X Z ((List.range mpo.tensors.length).map b'') mpo.tensors
                ((List.range mpo.tensors.length).map k) false (0, 0) (0, 0) (0, 0) (qb, 0) (0, 0) (qk, 0) =
              innerProduct [(0, 1)] [(qb, 1)] (phys.map Prod.fst) (ampl ((List.range mpo.tensors.length).map b'') Y'') (ampl ((List.range mpo.tensors.length).map b') Y'))

theorem windowLegs_wf {phys : List (List (BondInfo Q))} (gp : ∀ ph ∈ phys, ∀ c ∈ ph, GoodBond c) {qb : Q} {n : Nat} {Y : List (BondInfo Q)} {b : Nat → SpT Q K}
    (h : FitsOn [(0, 1)] [(qb, 1)] phys n Y b) {l r : Nat} (hlr : l < r) (hr : r ≤ n) : ∀ c ∈ windowLegs [(0, 1)] [(qb, 1)] Y phys l r, Dict.WF c := by
  obtain ⟨ly, lp⟩ := h.lengths
  intro c hc
  unfold windowLegs at hc
  simp only [List.cons_append, List.mem_cons, List.mem_append, List.not_mem_nil, or_false] at hc
  rcases hc with rfl | hc | rfl
  · rw [List.getD_eq_getElem _ _ (by simp; omega)]
    rcases List.mem_cons.1 (List.getElem_mem (l := [((0 : Q), 1)] :: Y) (n := l) (by simp; omega)) with h' | h'
    · rw [h']; exact (goodBond_one 0).1
    · exact (h.good _ h').1
  · obtain ⟨ph, hph, hc⟩ := List.mem_flatten.1 hc
    exact (gp ph (List.mem_of_mem_drop (List.mem_of_mem_take hph)) c hc).1
  · rw [List.getD_eq_getElem _ _ (by simp; omega)]
    rcases List.mem_append.1 (List.getElem_mem (l := Y ++ [[(qb, 1)]]) (n := r - 1) (by simp; omega)) with h' | h'
    · exact (h.good _ h').1
    · rw [List.mem_singleton.1 h']; exact (goodBond_one qb).1

theorem pair_problem [DecidableEq K] {isF : Q → Bool} (h0 : isF 0 = false) (le : Q → Q → Bool) {qr : Arr K → Arr K × Arr K} {qb qk : Q} {dq : Option Q}
    {ids : Mpe.Idents Q K} (hI : IdentsFor isF qb qk dq ids) {mpo : Mpo Q K} {X Y Z : List (BondInfo Q)} {phys : List (List (BondInfo Q) × List (BondInfo Q))}
    (hop : OpOnBonds isF ([(0, 1)] :: X ++ [[(0, 1)]]) phys mpo.tensors) (gX : ∀ b ∈ X, GoodBond b)
    (gp : ∀ ph ∈ phys, ph.1 ≠ [] ∧ ph.1.length = ph.2.length ∧ ∀ c ∈ ph.1 ++ ph.2, GoodBond c) (hc : mpo.const = 0) {b k : Nat → SpT Q K}
    (hB : FitsOn [(0, 1)] [(qb, 1)] (phys.map Prod.fst) mpo.tensors.length Y b) {l r : Nat}
    (hiso : IsometricOutside [(0, 1)] [(qb, 1)] (phys.map Prod.fst) mpo.tensors.length Y l r b)
    (hF : FitsOn [(0, 1)] [(qk, 1)] (phys.map Prod.snd) mpo.tensors.length Z k) (eb : ∀ i < mpo.tensors.length, EvenBlocks isF (b i))
    (ek : ∀ i < mpo.tensors.length, EvenBlocks isF (k i)) (hlr : l < r) (hr2 : r ≤ l + 2) (hr : r ≤ mpo.tensors.length)
    (hfull : ∀ i < mpo.tensors.length, b i ≠ [] ∧ k i ≠ [])
    {s : Mpe.Sys (SpT Q K) (Option (OpT Q K))} (hw : Mpe.getWindow (Mpe.sweepCfg isF qr true false mpo.tensors ids) l r s =
        some (Mpe.leftEnv (Mpe.sweepCfg isF qr true false mpo.tensors ids) k b l, Mpe.rightEnv (Mpe.sweepCfg isF qr true false mpo.tensors ids) k b r,
          (List.range' l (r - l)).map k, (List.range' l (r - l)).map b)) :
    ∃ bra o ket T, Mpe.effective isF qr true false mpo ids l r s = some (bra, o, ket) ∧ ket.merge = some ⟨[T], 0⟩ ∧
      ∀ Y, FitsOn [(0, 1)] [(qb, 1)] (phys.map Prod.fst) mpo.tensors.length Y b → IsometricOutside [(0, 1)] [(qb, 1)] (phys.map Prod.fst) mpo.tensors.length Y l r b →
        PairProblem isF le phys qb qk dq X Z mpo l r b k Y o T := by
  obtain ⟨L, R, bra, o, ket, B, T, ph0, ph1, m, a1, a2, a3, a4, a5, a6, a7, a8, a9, -⟩ :=
    local_functions h0 (qr := qr) (canon := true) (same := false) hI (FitsOn.networkPair hop gX gp hB hF eb ek) hlr hr2 hr (fun i hi _ => hfull i hi) mpo.const
  refine ⟨bra, o, ket, T, effective_of hw a1 a2 a3 a4 a5, a7, ?_⟩
  intro Yk gB giso
  have oc : o.const = 0 := a6.trans hc
  have gp' : ∀ ph ∈ phys.map Prod.fst, ∀ c ∈ ph, GoodBond c := by
    intro ph hph c hc
    obtain ⟨p, hp, rfl⟩ := List.mem_map.1 hph
    exact (gp p hp).2.2 c (by simp [hc])
  have eT : ∀ {a b : SpT Q K}, some (Mps.mk [a] (0 : K)) = some ⟨[b], 0⟩ → a = b := by
    intro a b h
    simpa using h
  have loc : ∀ {b' : Nat → SpT Q K} {Y' : List (BondInfo Q)}, (∀ i, i < l ∨ r ≤ i → b' i = b i) → SameOutside l r Yk Y' →
      FitsOn [(0, 1)] [(qb, 1)] (phys.map Prod.fst) mpo.tensors.length Y' b' → (∀ i < mpo.tensors.length, EvenBlocks isF (b' i)) →
      ∃ m' B ph0 ph1 m, Mpe.effMps (oneBlock [0]) ((List.range' l (r - l)).map b') (oneBlock [0]) = some m' ∧ m'.merge = some ⟨[B], 0⟩ ∧
        LocalProblem isF ph0 ph1 m B o.tensors T ∧ Conforms ([(0, 1)] :: windowLegs [(0, 1)] [(qb, 1)] Yk (phys.map Prod.fst) l r ++ [[(0, 1)]]) B ∧
        sandwichOne isF ph0 ph1 m B o.tensors T = paritySign K (isF (dq.getD 0) && isF qk) * sandwich isF phys Y' X Z ((List.range mpo.tensors.length).map b') mpo.tensors
          ((List.range mpo.tensors.length).map k) false (0, 0) (0, 0) (0, 0) (qb, 0) (0, 0) (qk, 0) := by
    intro b' Y' hag hz hF' he'
    obtain ⟨L', R', bra', o', ket', B', T', ph0', ph1', m', b1, b2, b3, b4, b5, b6, b7, b8, b9, b10, -⟩ :=
      local_functions h0 (qr := qr) (canon := true) (same := false) hI (FitsOn.networkPair hop gX gp hF' hF he' ek) hlr hr2 hr (fun i hi hio => by
        rw [hag i hio]; exact hfull i hi) mpo.const
    rw [Mpe.leftEnv_congr (f' := k) (g' := b) l fun i hi => ⟨rfl, hag i (Or.inl hi)⟩, a1] at b1
    rw [Mpe.rightEnv_congr (f' := k) (g' := b) r hr fun i hi => ⟨rfl, hag i (Or.inr hi)⟩, a2] at b2
    obtain rfl := Option.some.inj b1
    obtain rfl := Option.some.inj b2
    rw [a5] at b5
    obtain rfl := Option.some.inj b5
    rw [a3] at b3
    obtain rfl := Option.some.inj b3
    obtain rfl := eT (a7.symm.trans b7)
    obtain ⟨m1, U1, d1, d2, d3, -⟩ := window_merge h0 (goodBond_one 0) (goodBond_one qb) hlr hr gB giso hag hz hF' he'
    rw [hI.lBra, hI.rBra, d1] at b4
    obtain rfl := Option.some.inj b4
    obtain rfl := eT (d2.symm.trans b8)
    exact ⟨m1, U1, ph0', ph1', m', d1, d2, b9, d3, b10⟩
  have wf : ∀ {ph0 ph1 : List (BondInfo Q) × List (BondInfo Q)} {m : BondInfo Q} {B : SpT Q K}, LocalProblem isF ph0 ph1 m B o.tensors T →
      ∀ c ∈ ph0.1 ++ ph1.1, Dict.WF c := by
    intro ph0 ph1 m B h c hc
    rcases List.mem_append.1 hc with hc | hc
    · exact ((h.legs ph0 (by simp)).2.2 c (by simp [hc])).1
    · exact ((h.legs ph1 (by simp)).2.2 c (by simp [hc])).1
  have wfY := windowLegs_wf gp' gB hlr hr
  refine ⟨?_, fun {b' Y'} hag hz hF' he' => ?_⟩
  · obtain ⟨L', R', bra', o', ket', B', T', ph0', ph1', m', b1, b2, b3, b4, b5, b6, b7, b8, b9, -, -, -, b13⟩ :=
      local_functions h0 (qr := qr) (canon := true) (same := false) hI (FitsOn.networkPair hop gX gp gB hF eb ek) hlr hr2 hr (fun i hi _ => hfull i hi) mpo.const
    rw [a1] at b1
    rw [a2] at b2
    obtain rfl := Option.some.inj b1
    obtain rfl := Option.some.inj b2
    rw [a5] at b5
    obtain rfl := Option.some.inj b5
    rw [a3] at b3
    obtain rfl := Option.some.inj b3
    obtain rfl := eT (a7.symm.trans b7)
    rcases product_pair h0 le oc b9 with ⟨h1, -⟩ | ⟨V, h1, h2, -, h4⟩
    · exact Or.inl h1
    · refine Or.inr ⟨V, h1, by rw [dot_one (wf b9) h2 h2]; rfl, h4, ?_⟩
      rw [b13] at h2
      exact h2
  obtain ⟨m1, B1, p0, p1, mm, c1, c2, c3, c4, c5⟩ := loc hag hz hF' he'
  refine ⟨m1, B1, c1, c2, ?_, ?_⟩
  · intro hn
    rcases product_pair h0 le oc c3 with ⟨-, h2⟩ | ⟨V, h1, -⟩
    · rw [← c5, h2]
    · rw [hn] at h1; cases h1
  intro V hV
  rcases product_pair h0 le oc c3 with ⟨h1, -⟩ | ⟨V', h1, h2, h3, -⟩
  · rw [hV] at h1; cases h1
  obtain rfl := eT (hV.symm.trans h1)
  refine ⟨by rw [h3, c5], fun hent => ⟨?_, ?_⟩⟩
  · rw [dot_one (wf c3) h2 h2, dot_one (wf c3) c3.bra h2]
    simp only [hent]
  · intro b'' Y'' hag2 hz2 hF2 he2
    obtain ⟨m2, B2, p0', p1', mm', d1, d2, d3, d4, d5⟩ := loc hag2 hz2 hF2 he2
    rcases product_pair h0 le oc d3 with ⟨g1, -⟩ | ⟨V2, g1, g2, g3, -⟩
    · rw [hV] at g1; cases g1
    obtain rfl := eT (hV.symm.trans g1)
    rw [d5] at g3
    obtain ⟨n', n'', T1, T2, e1, e2, e3, e4, e5⟩ := metric_window h0 (goodBond_one 0) (goodBond_one qb) gp' hlr hr gB giso (k' := b'') (k'' := b')
      (fun i hi => ⟨hag2 i hi, hag i hi⟩) hz2 hz hF2 hF' he2 he'
    rw [d1] at e1
    obtain rfl := Option.some.inj e1
    rw [c1] at e2
    obtain rfl := Option.some.inj e2
    obtain rfl := eT (d2.symm.trans e3)
    obtain rfl := eT (c2.symm.trans e4)
    rw [dot_components_eq (wf d3) wfY d3.bra d4 g2 c4 fun x => (hent x).symm, e5] at g3
    exact (Option.some.inj g3).symm

end
end Verif
