import Verif.Proof.Apply
import Verif.Thm.MpsDot

/-!
Property C20: products of operators and states with constant terms.
-/

set_option linter.unusedSectionVars false

namespace Verif
section
variable {Q K : Type} [DecidableEq Q] [AddCommGroup Q] [CommRing K]

theorem OpOnBonds.cons_inv {isF : Q → Bool} {l r : BondInfo Q} {bonds : List (BondInfo Q)} {phys : List (List (BondInfo Q) × List (BondInfo Q))}
    {ws : List (OpT Q K)} (h : OpOnBonds isF (l :: r :: bonds) phys ws) : ∃ ph phys' W ws', phys = ph :: phys' ∧ ws = W :: ws' ∧
      OpSite isF l ph.1 ph.2 r W ∧ OpOnBonds isF (r :: bonds) phys' ws' := by
  rcases phys with _ | ⟨ph, phys⟩
  · exact h.elim
  rcases ws with _ | ⟨W, ws⟩
  · exact h.elim
  exact ⟨ph, phys, W, ws, rfl, rfl, h⟩

theorem OpOnBonds.one_inv {isF : Q → Bool} {l : BondInfo Q} {phys : List (List (BondInfo Q) × List (BondInfo Q))} {ws : List (OpT Q K)}
    (h : OpOnBonds isF [l] phys ws) : phys = [] ∧ ws = [] := by
  rcases phys with _ | ⟨ph, phys⟩ <;> rcases ws with _ | ⟨W, ws⟩ <;> simp_all [OpOnBonds]

theorem OpOnBonds.lengths {isF : Q → Bool} {l : BondInfo Q} {bonds : List (BondInfo Q)} {phys : List (List (BondInfo Q) × List (BondInfo Q))}
    {ws : List (OpT Q K)} (h : OpOnBonds isF (l :: bonds) phys ws) : ws.length = bonds.length ∧ phys.length = bonds.length := by
  induction bonds generalizing l phys ws with
  | nil => obtain ⟨rfl, rfl⟩ := h.one_inv; exact ⟨rfl, rfl⟩
  | cons r bonds ih =>
    obtain ⟨ph, phys, W, ws, rfl, rfl, -, h2⟩ := h.cons_inv
    simp [ih h2]

theorem applyOn_of {isF : Q → Bool} {wl l : BondInfo Q} {X Y : List (BondInfo Q)} {phys : List (List (BondInfo Q) × List (BondInfo Q))}
    {ws : List (OpT Q K)} {bs : List (SpT Q K)} (hop : OpOnBonds isF (wl :: X) phys ws) (hst : OnBonds (l :: Y) (phys.map Prod.snd) bs)
    (hl : X.length = Y.length) (legs : ∀ ph ∈ phys, ph.1 ≠ [] ∧ ph.2 ≠ [] ∧ ∀ c ∈ ph.1 ++ ph.2, GoodBond c) (parity : ∀ B ∈ bs, SameParity isF B) :
    ApplyOn isF ((wl, l) :: X.zip Y) phys ws bs := by
  induction X generalizing wl l Y phys ws bs with
  | nil =>
    obtain rfl : Y = [] := List.length_eq_zero_iff.1 hl.symm
    obtain ⟨rfl, rfl⟩ := hop.one_inv
    rcases bs with _ | ⟨B, bs⟩
    · trivial
    · exact absurd hst (by simp [OnBonds])
  | cons r X ih =>
    rcases Y with _ | ⟨r', Y⟩
    · simp at hl
    obtain ⟨ph, phys, W, ws, rfl, rfl, h1, h2⟩ := hop.cons_inv
    rcases bs with _ | ⟨B, bs⟩
    · exact hst.elim
    obtain ⟨n1, n2, n3⟩ := legs ph (List.mem_cons_self ..)
    exact ⟨h1, hst.1, parity B (List.mem_cons_self ..), n1, n2, fun b hb => (n3 b (by simp [hb])).1,
      ih h2 hst.2 (by simpa using hl) (fun p hp => legs p (List.mem_cons_of_mem _ hp)) fun B hB => parity B (List.mem_cons_of_mem _ hB)⟩

theorem zip_ends {α β : Type} (X : List α) (Y : List β) (a : α) (b : β) (h : X.length = Y.length) : (X ++ [a]).zip (Y ++ [b]) = X.zip Y ++ [(a, b)] := by
  rw [List.zip_append h]; rfl

/-- The table of two bonds with one sector each. -/
theorem PairTable.single {fi : BondFusingInfo Q} {A B : BondInfo Q} (h : PairTable fi A B) {q1 q2 : Q} {n1 n2 : Nat} (h1 : 0 < n1) (h2 : 0 < n2)
    (hA : ∀ q s, Dict.get? A q = some s ↔ q = q1 ∧ s = n1) (hB : ∀ q s, Dict.get? B q = some s ↔ q = q2 ∧ s = n2) :
    (∀ q s, Dict.get? fi.quanta q = some s ↔ q = q1 + q2 ∧ s = n1 * n2) ∧
      ∀ i j, i < n1 → j < n2 → ((q1, i), (q2, j)) ∈ pairs (legBasis A) (legBasis B) ∧ pairIndex fi B ((q1, i), (q2, j)) = (q1 + q2, i * n2 + j) := by
  have cA : Counter.count A q1 = n1 := count_of_get ((hA _ _).2 ⟨rfl, rfl⟩)
  have cB : Counter.count B q2 = n2 := count_of_get ((hB _ _).2 ⟨rfl, rfl⟩)
  have hw := h.window (q1 := q1) (q2 := q2) (by omega) (by omega)
  rw [cA, cB] at hw
  have owner : ∀ q p, p < Counter.count fi.quanta q → q = q1 + q2 ∧ pairStart fi q1 q2 ≤ p ∧ p < pairStart fi q1 q2 + n1 * n2 := by
    intro q p hp
    obtain ⟨qs, ⟨k, m, hk, hk1, hk2⟩, -⟩ := (h.good.tiles q).2 p hp
    obtain ⟨sh, hs, rfl⟩ := shape_of_window hk
    obtain ⟨hc, hq⟩ := (h.entries _ _ _).1 hs
    obtain ⟨a, b, na, nb, rfl, rfl, ga, gb⟩ := comb_pair.1 hc
    obtain ⟨rfl, rfl⟩ := (hA _ _).1 ga
    obtain ⟨rfl, rfl⟩ := (hB _ _).1 gb
    rw [signedSum_pair] at hq
    subst hq
    rw [hw] at hk
    simp only [Option.some.injEq, Prod.mk.injEq] at hk
    obtain ⟨rfl, hm⟩ := hk
    refine ⟨rfl, hk1, ?_⟩
    rw [hm]; exact hk2
  have hpos : 0 < n1 * n2 := Nat.mul_pos h1 h2
  have hle := (h.good.tiles (q1 + q2)).1 _ _ _ hw
  have hst : pairStart fi q1 q2 = 0 := by
    have := (owner (q1 + q2) 0 (by omega)).2.1
    omega
  have hcount : Counter.count fi.quanta (q1 + q2) = n1 * n2 := by
    have := (owner (q1 + q2) (Counter.count fi.quanta (q1 + q2) - 1) (by omega)).2.2
    omega
  refine ⟨fun q s => ?_, fun i j hi hj => ⟨?_, ?_⟩⟩
  · rw [get?_iff_count ⟨h.good.wf.1, h.pos⟩]
    constructor
    · rintro ⟨hs, hc⟩
      obtain ⟨rfl, -⟩ := owner q 0 (by omega)
      exact ⟨rfl, by omega⟩
    · rintro ⟨rfl, rfl⟩
      exact ⟨hpos, hcount⟩
  · rw [mem_pairs, mem_legBasis h.ga.1, mem_legBasis h.gb.1, cA, cB]
    exact ⟨hi, hj⟩
  · unfold pairIndex
    simp only [hst, cB, Nat.zero_add]

theorem get?_single {q0 : Q} {n : Nat} (q : Q) (s : Nat) : Dict.get? ([(q0, n)] : BondInfo Q) q = some s ↔ q = q0 ∧ s = n := by
  by_cases h : q0 = q
  · subst h; simp [Dict.get?, eq_comm]
  · simp [Dict.get?, h]
    exact fun h' => absurd h'.symm h

theorem EvenBlocks.site {isF : Q → Bool} {l r : BondInfo Q} {ph : List (BondInfo Q)} {B : SpT Q K} (hB : EvenBlocks isF B)
    {x y : Q × Nat} {m : List (Q × Nat)} (h : entry B (x :: m ++ [y]) ≠ 0) : xor (isF x.1) (basisPar isF m) = isF y.1 := by
  have : ∃ b ∈ B, blockEntry b (x :: m ++ [y]) ≠ 0 := by
    by_contra hn
    push Not at hn
    exact h (sum_map_zero' _ _ hn)
  obtain ⟨b, hb, hne⟩ := this
  unfold blockEntry at hne
  split at hne
  · rename_i hc
    have := hB b hb
    rw [hc.1, List.map_append, fermParity_append, List.map_cons, fermParity_cons] at this
    simp only [List.map_cons, List.map_nil] at this
    rw [fermParity_cons] at this
    have e : fermParity isF [] = false := by simp [fermParity]
    rw [e] at this
    unfold basisPar
    revert this
    generalize isF x.1 = a
    generalize isF y.1 = b
    generalize fermParity isF (m.map Prod.fst) = c
    revert a b c
    decide
  · exact absurd rfl hne

/-- The chain of the product is the sum over the middle basis. -/
theorem applied_eq_sch {isF : Q → Bool} {wl wr l r : BondInfo Q} {X Y : List (BondInfo Q)} {phys : List (List (BondInfo Q) × List (BondInfo Q))}
    {ws : List (OpT Q K)} {bs : List (SpT Q K)} (h : Applicable isF wl wr l r X Y phys ws bs) (w x w' x' : Q × Nat) (us : List (List (Q × Nat)))
    (hus : us.length = ws.length) :
    sch noPar (applyFuns isF phys ws bs) ((X.zip Y).map fun b => pairs (legBasis b.1) (legBasis b.2)) false (w, x) us (us.map fun _ => ()) (w', x') =
      applied isF X Y phys ws bs w x us w' x' := by
  obtain ⟨l1, l2⟩ := OpOnBonds.lengths (l := wl) (bonds := X ++ [wr]) h.op
  obtain ⟨l3, l4⟩ := OnBonds.lengths (l := l) (r := r) (X := Y) h.state
  simp only [List.length_append, List.length_cons, List.length_nil, List.length_map] at l1 l2 l3 l4
  have key := sch_prod (basisPar isF) noPar (fun x : Q × Nat => isF x.1) (mss := phys.map fun ph => legIndices ph.2) (fs := ws.map opFun)
    (gs := bs.map stFun) (bs := X.map legBasis) (cs := Y.map legBasis) (by simp [l1]) (by simp [l3]) (by simp; omega) (by simp; omega)
    (by
      intro g hg s x m d y hne
      rw [← List.map_dropLast] at hg
      obtain ⟨B, hB, rfl⟩ := List.mem_map.1 hg
      have := (h.parity.inner B hB).site (l := l) (r := r) (ph := []) hne
      simpa [noPar] using this) false w x us (us.map fun _ => ()) (by simp [hus]) (by simp [hus]) w' x'
  have e : ((X.map legBasis).zip (Y.map legBasis)).map (fun z => pairs z.1 z.2) = (X.zip Y).map fun b => pairs (legBasis b.1) (legBasis b.2) := by
    rw [List.zip_map, List.map_map]
    rfl
  rw [e] at key
  refine key.trans ?_
  unfold applied
  refine sum_map_congr' _ _ _ fun ds hds => ?_
  rw [opAmpl_eq_sch, ampl_eq_sch bs Y false x ds, Bool.false_xor]
  have hdl : ds.length = us.length := by
    rw [mem_cart] at hds
    have := hds.length_eq
    simp at this
    omega
  congr 2
  apply List.ext_getElem <;> simp [hdl]

/-- The only label of an edge is used by a tensor with blocks. -/
theorem get?_edge {legs : List (BondInfo Q)} {T : SpT Q K} (h : Conforms legs T) (hT : T ≠ []) {k : Nat} (hk : k < legs.length) {q0 : Q} {n : Nat}
    (hl : legs.getD k [] = [(q0, n)]) {F : BondInfo Q} (hF : ∀ q s, Dict.get? F q = some s ↔ Dict.get? ([(q0, n)] : BondInfo Q) q = some s ∧ OccursOn T k q)
    (q : Q) (s : Nat) : Dict.get? F q = some s ↔ q = q0 ∧ s = n := by
  rw [hF, get?_single]
  refine ⟨fun h => h.1, fun hh => ⟨hh, ?_⟩⟩
  obtain ⟨b, hb⟩ := List.exists_mem_of_ne_nil T hT
  refine ⟨b, hb, ?_⟩
  have := IsCombination.getD (h b hb) hk
  rw [hl, get?_single] at this
  rw [this.1, hh.1]

/-- **C20**, operator times state, tensor part.  With one label on each outer edge, the operator applied to the state has the amplitudes of the
operator product; when the number 0 is returned they all vanish. -/
theorem C20_apply_tensors (isF : Q → Bool) (le : Q → Q → Bool) {ql qr q q' : Q} {nl nr n n' : Nat} {X Y : List (BondInfo Q)}
    {phys : List (List (BondInfo Q) × List (BondInfo Q))} (a : Mpo Q K) (b : Mps Q K)
    (h : Applicable isF [(ql, nl)] [(qr, nr)] [(q, n)] [(q', n')] X Y phys a.tensors b.tensors) (hX : X ≠ []) :
    (Mps.applyTensors isF le a b = some none ∧ ∀ w x us w' x', us.length = a.tensors.length →
      applied isF X Y phys a.tensors b.tensors w x us w' x' = 0) ∨
    ∃ ts N, Mps.applyTensors isF le a b = some (some ⟨ts, 0⟩) ∧
      OnBonds ([(ql + q, nl * n)] :: N ++ [[(qr + q', nr * n')]]) (phys.map Prod.fst) ts ∧ (∀ c ∈ N, GoodBond c) ∧ (∀ t ∈ ts, t ≠ [] ∧ UniqueLabels t) ∧
      ∀ i j i' j' us, i < nl → j < n → i' < nr → j' < n' → us.length = a.tensors.length →
        ampl ts N (ql + q, i * n + j) us (qr + q', i' * n' + j') = applied isF X Y phys a.tensors b.tensors (ql, i) (q, j) us (qr, i') (q', j') := by
  obtain ⟨l1, l2⟩ := OpOnBonds.lengths (l := [(ql, nl)]) (bonds := X ++ [[(qr, nr)]]) h.op
  obtain ⟨l3, l4⟩ := OnBonds.lengths (l := [(q, n)]) (r := [(q', n')]) (X := Y) h.state
  simp only [List.length_append, List.length_cons, List.length_nil, List.length_map] at l1 l2 l3 l4
  have hXY : X.length = Y.length := by omega
  have hon := applyOn_of (wl := [(ql, nl)]) (X := X ++ [[(qr, nr)]]) (l := [(q, n)]) (Y := Y ++ [[(q', n')]]) h.op h.state (by simp [hXY]) h.legs h.parity.all
  rw [zip_ends X Y _ _ hXY] at hon
  have g := h.good
  have g1 := (g [(ql, nl)] (by simp)).2 (ql, nl) (by simp)
  have g2 := (g [(qr, nr)] (by simp)).2 (qr, nr) (by simp)
  have g3 := (g [(q, n)] (by simp)).2 (q, n) (by simp)
  have g4 := (g [(q', n')] (by simp)).2 (q', n') (by simp)
  have gz : ∀ c ∈ X.zip Y, GoodBond c.1 ∧ GoodBond c.2 := fun c hc =>
    ⟨g _ (by simp [(List.of_mem_zip (a := c.1) (b := c.2) hc).1]), g _ (by simp [(List.of_mem_zip (a := c.1) (b := c.2) hc).2])⟩
  rcases applyTensors_spec isF le (l := ([(ql, nl)], [(q, n)])) (r := ([(qr, nr)], [(q', n')])) (X := X.zip Y) a b hon
    (by
      intro e
      have := congrArg List.length e
      rw [List.length_zip] at this
      have h' := List.length_pos_iff.2 hX
      simp only [List.length_nil] at this
      omega)
    (by
      intro c hc
      simp only [List.cons_append, List.mem_cons, List.mem_append, List.not_mem_nil, or_false] at hc
      rcases hc with rfl | hc | rfl
      · exact ⟨g _ (by simp), g _ (by simp)⟩
      · exact gz c hc
      · exact ⟨g _ (by simp), g _ (by simp)⟩)
    (fun ph hph c hc => (h.legs ph hph).2.2 c (by simp [hc])) (by rw [List.length_zip]; omega) with ⟨e, hz⟩ | ⟨ts, fl, fm, fr, F, E, T0, T1, e1, e2, e3, e4, e5, e6, e7, e8, e9, ⟨c0, e10⟩, ⟨c1, e11⟩, e12, e13, e14, e15, e16⟩
  · refine Or.inl ⟨e, fun w x us w' x' hus => ?_⟩
    rw [← applied_eq_sch h w x w' x' us hus]
    exact sch_zero_even noPar (fun _ => rfl) hz _ _ _ _ _
  right
  have s1 := get?_edge e10 e8 (k := 0) (by simp) (q0 := ql) (n := nl) (by simp) e12
  have s2 := get?_edge e10 e8 (k := 1) (by simp) (q0 := q) (n := n) (by simp) e13
  have s3 := get?_edge e11 e9 (k := ((phys.map Prod.fst).getLastD []).length + 2) (by simp) (q0 := qr) (n := nr)
    (by simp only [List.getD_eq_getElem?_getD]; rw [List.getElem?_append_right (by simp)]; simp) e14
  have s4 := get?_edge e11 e9 (k := ((phys.map Prod.fst).getLastD []).length + 3) (by simp) (q0 := q') (n := n')
    (by simp only [List.getD_eq_getElem?_getD]; rw [List.getElem?_append_right (by simp)]; simp) e15
  obtain ⟨t1, t2⟩ := e2.single g1 g3 s1 s2
  obtain ⟨t3, t4⟩ := e3.single g2 g4 s3 s4
  refine ⟨ts, fm.map fun f => f.quanta, e1, ?_, ?_, e6, ?_⟩
  · refine OnBonds.widen (l := fl.quanta) (r := fr.quanta) e4 ?_ ?_
    · intro p s hp
      rw [get?_single]; exact (t1 p s).1 hp
    · intro p s hp
      rw [get?_single]; exact (t3 p s).1 hp
  · intro c hc
    obtain ⟨f, hf, rfl⟩ := List.mem_map.1 hc
    exact e5 f hf
  · intro i j i' j' us hi hj hi' hj' hus
    obtain ⟨m1, m2⟩ := t2 i j hi hj
    obtain ⟨m3, m4⟩ := t4 i' j' hi' hj'
    have := e16 _ m1 us _ m3
    rw [m2, m4] at this
    rw [this]
    exact applied_eq_sch h _ _ _ _ us hus

theorem OnBonds.headD {l r : BondInfo Q} {X : List (BondInfo Q)} {phys : List (List (BondInfo Q))} {ts : List (SpT Q K)}
    (h : OnBonds (l :: X ++ [r]) phys ts) : ts.headD [] ∈ ts ∧ ∃ c, Conforms (l :: phys.headD [] ++ [c]) (ts.headD []) := by
  rcases phys with _ | ⟨ph, phys⟩ <;> rcases ts with _ | ⟨T, ts⟩ <;> rcases X with _ | ⟨c, X⟩ <;> first | exact h.elim | skip
  · exact ⟨by simp, r, h.1⟩
  · exact ⟨by simp, c, h.1⟩

theorem OnBonds.lastD {l r : BondInfo Q} {X : List (BondInfo Q)} {phys : List (List (BondInfo Q))} {ts : List (SpT Q K)}
    (h : OnBonds (l :: X ++ [r]) phys ts) : ts.getLastD [] ∈ ts ∧ ∃ c, Conforms (c :: phys.getLastD [] ++ [r]) (ts.getLastD []) := by
  induction X generalizing l phys ts with
  | nil =>
    rcases phys with _ | ⟨ph, _ | ⟨ph', phys⟩⟩ <;> rcases ts with _ | ⟨T, _ | ⟨T', ts⟩⟩ <;> first | exact h.elim | exact h.2.elim | skip
    exact ⟨by simp, l, h.1⟩
  | cons c X ih =>
    rcases phys with _ | ⟨ph, phys⟩ <;> rcases ts with _ | ⟨T, ts⟩ <;> first | exact h.elim | skip
    have h2 := h.2
    obtain ⟨i1, i2⟩ := ih h2
    rcases phys with _ | ⟨ph', phys⟩ <;> rcases ts with _ | ⟨T', ts⟩ <;> rcases X with _ | ⟨c', X⟩ <;> first | exact h2.elim | skip
    all_goals
      simp only [List.getLastD_cons] at i1 i2 ⊢
      exact ⟨List.mem_cons_of_mem _ i1, i2⟩

/-- Two states with one label on the outer edges can be added when the first has blocks everywhere. -/
theorem addable_single {q q' : Q} {n n' : Nat} {X Y : List (BondInfo Q)} {phys : List (List (BondInfo Q))} {as bs : List (SpT Q K)}
    (hA : OnBonds ([(q, n)] :: X ++ [[(q', n')]]) phys as) (hB : OnBonds ([(q, n)] :: Y ++ [[(q', n')]]) phys bs)
    (hg : ∀ c ∈ [(q, n)] :: [(q', n')] :: X ++ Y, GoodBond c) (hne : ∀ t ∈ as, t ≠ []) : Addable [(q, n)] [(q', n')] X Y phys as bs := by
  refine ⟨hA, hB, hg, ?_, ?_⟩
  · rintro p ⟨b, hb, rfl⟩
    obtain ⟨-, c, hc⟩ := OnBonds.headD hB
    obtain ⟨m, c', hc'⟩ := OnBonds.headD hA
    obtain ⟨b', hb'⟩ := List.exists_mem_of_ne_nil _ (hne _ m)
    have h1 := IsCombination.getD (hc b hb) (k := 0) (by simp)
    have h2 := IsCombination.getD (hc' b' hb') (k := 0) (by simp)
    simp only [List.cons_append, List.getD_cons_zero, get?_single] at h1 h2
    exact ⟨b', hb', h2.1.trans h1.1.symm⟩
  · rintro p ⟨b, hb, rfl⟩
    obtain ⟨-, c, hc⟩ := OnBonds.lastD hB
    obtain ⟨m, c', hc'⟩ := OnBonds.lastD hA
    obtain ⟨b', hb'⟩ := List.exists_mem_of_ne_nil _ (hne _ m)
    have h1 := IsCombination.getD (hc b hb) (k := (phys.getLastD []).length + 1) (by simp)
    have h2 := IsCombination.getD (hc' b' hb') (k := (phys.getLastD []).length + 1) (by simp)
    have e : ∀ c : BondInfo Q, (c :: phys.getLastD [] ++ [[(q', n')]]).getD ((phys.getLastD []).length + 1) [] = [(q', n')] := by
      intro c
      simp only [List.getD_eq_getElem?_getD]
      rw [List.getElem?_append_right (by simp)]
      simp
    rw [e, get?_single] at h1 h2
    exact ⟨b', hb', h2.1.trans h1.1.symm⟩

/-- **C20**, operator (with a constant) times state.  The operator has the trivial outer edges and the same row and column legs, the state has one
label on each outer edge and no constant.  The result is the product of the operator tensors with the state plus the constant of the operator times
the state, or the number 0, and then the product of the tensors vanishes. -/
theorem C20_apply [DecidableEq K] (isF : Q → Bool) (le : Q → Q → Bool) {q q' : Q} {n n' : Nat} {X Y : List (BondInfo Q)}
    {phys : List (List (BondInfo Q) × List (BondInfo Q))} (a : Mpo Q K) (b : Mps Q K)
    (h : Applicable isF [(0, 1)] [(0, 1)] [(q, n)] [(q', n')] X Y phys a.tensors b.tensors) (hX : X ≠ []) (hrow : ∀ ph ∈ phys, ph.1 = ph.2)
    (hb : b.const = 0) :
    (Mps.apply isF le a b = some none ∧ ∀ x us x', us.length = a.tensors.length →
      applied isF X Y phys a.tensors b.tensors (0, 0) x us (0, 0) x' = 0) ∨
    ∃ c N, Mps.apply isF le a b = some (some c) ∧ OnBonds ([(q, n)] :: N ++ [[(q', n')]]) (phys.map Prod.fst) c.tensors ∧
      (∀ d ∈ N, GoodBond d) ∧ c.const = 0 ∧
      ∀ j j' us, j < n → j' < n' → us.length = a.tensors.length →
        ampl c.tensors N (q, j) us (q', j') =
          applied isF X Y phys a.tensors b.tensors (0, 0) (q, j) us (0, 0) (q', j') + a.const * ampl b.tensors Y (q, j) us (q', j') := by
  rcases C20_apply_tensors isF le a b h hX with ⟨e, hz⟩ | ⟨ts, N, e1, e2, e3, e4, e5⟩
  · left
    refine ⟨by unfold Mps.apply; rw [e], fun x us x' hu => hz _ _ _ _ _ hu⟩
  right
  unfold Mps.apply
  rw [e1]
  simp only [zero_add, one_mul] at e2 e5
  have e5' : ∀ j j' us, j < n → j' < n' → us.length = a.tensors.length →
      ampl ts N (q, j) us (q', j') = applied isF X Y phys a.tensors b.tensors (0, 0) (q, j) us (0, 0) (q', j') := by
    intro j j' us hj hj' hu
    have := e5 0 j 0 j' us (by omega) hj (by omega) hj' hu
    simpa using this
  by_cases ha : a.const = 0
  · refine ⟨⟨ts, 0⟩, N, by simp [ha, hb], e2, e3, rfl, fun j j' us hj hj' hu => ?_⟩
    rw [e5' j j' us hj hj' hu, ha, zero_mul, add_zero]
  · have hne : b.tensors ≠ [] := by
      intro h0
      have := (OnBonds.lengths (l := [(q, n)]) (r := [(q', n')]) (X := Y) h.state).1
      rw [h0] at this
      simp at this
    have hph : phys.map Prod.snd = phys.map Prod.fst := List.map_congr_left fun ph hp => (hrow ph hp).symm
    obtain ⟨k1, k2, k3⟩ := C19_scale a.const b hne
    have hB := k2 _ _ h.state
    rw [hph] at hB
    have hadd : Addable [(q, n)] [(q', n')] N Y (phys.map Prod.fst) ts (Mps.smul a.const b).tensors := by
      refine addable_single e2 hB ?_ fun t ht => (e4 t ht).1
      intro c hc
      simp only [List.cons_append, List.mem_cons, List.mem_append] at hc
      rcases hc with rfl | rfl | hc | hc
      · exact h.good _ (by simp)
      · exact h.good _ (by simp)
      · exact e3 c hc
      · exact h.good _ (by simp [hc])
    obtain ⟨c, M, c1, c2, c3, c4, c5⟩ := C18_amplitudes [(q, n)] [(q', n')] N Y (phys.map Prod.fst) ⟨ts, 0⟩ (Mps.smul a.const b) hadd fun t ht => (e4 t ht).2
    refine ⟨c, M, ?_, c2, c3, ?_, fun j j' us hj hj' hu => ?_⟩
    · have hP : a.const ≠ 0 ∧ b.const = 0 := ⟨ha, hb⟩
      simp only [if_pos hP, c1, Option.map_some]
    · rw [c4, k1, hb]; simp
    · rw [c5, k3, e5' j j' us hj hj' hu]

/-- **C20**: the constant of the operator is lost when a tensor of the operator has no blocks: the number 0 is returned whatever the constant. -/
theorem C20_apply_const_lost [DecidableEq K] (isF : Q → Bool) (le : Q → Q → Bool) (W : OpT Q K) (ws : List (OpT Q K)) (c : K) (b : Mps Q K)
    (hlen : ws.length + 1 = b.tensors.length) (h2 : 1 < b.tensors.length) (hW : W.noBlocks = true) :
    Mps.apply isF le ⟨W :: ws, c⟩ b = some none := by
  unfold Mps.apply Mps.applyTensors
  rw [if_neg (by simp only [List.length_cons]; omega)]
  rcases hb : b.tensors with _ | ⟨B, bs⟩
  · simp [hb] at hlen
  · rw [Mps.applySites]
    simp [hW]

/-- **C20**: a state with a constant cannot be multiplied by an operator (the code adds an operator tensor to a state tensor), unless the number 0
is returned. -/
theorem C20_apply_state_const [DecidableEq K] (isF : Q → Bool) (le : Q → Q → Bool) (a : Mpo Q K) (b : Mps Q K) (hb : b.const ≠ 0) :
    Mps.apply isF le a b = none ∨ Mps.apply isF le a b = some none := by
  unfold Mps.apply
  rcases Mps.applyTensors isF le a b with _ | _ | r
  · exact Or.inl rfl
  · exact Or.inr rfl
  · left
    simp [hb]

end

section
/-- Charges 0 and 1, odd charges are fermions. -/
def mpoIsF (q : Int) : Bool := q % 2 != 0

def mpoBlocks (l : List (List Int × Int)) : SpT Int Int := l.map fun b => unitBlock b.1 b.2

/-- Hopping between the two sites with a number-like term, plus a constant. -/
def mpoH : Mpo Int Int :=
  ⟨[⟨mpoBlocks [([0, 1, 0, 1], 2), ([0, 0, 1, -1], 3)], mpoBlocks [([0, 1, 1, 0], 5)]⟩,
    ⟨mpoBlocks [([1, 0, 1, 0], 1), ([-1, 1, 0, 0], 7)], mpoBlocks [([0, 0, 0, 0], 1)]⟩], 10⟩

def mpoBond : BondInfo Int := [(0, 1), (1, 1), (-1, 1)]
def mpoPhys : List (List (BondInfo Int) × List (BondInfo Int)) := [([[(0, 1), (1, 1)]], [[(0, 1), (1, 1)]]), ([[(0, 1), (1, 1)]], [[(0, 1), (1, 1)]])]
def mpoState : Mps Int Int := ⟨mpsA.tensors, 0⟩

/-- The hypotheses of `C20_apply` are met. -/
example : Applicable mpoIsF [(0, 1)] [(0, 1)] [(0, 1)] [(1, 1)] [mpoBond] [[(0, 1), (1, 1)]] mpoPhys mpoH.tensors mpoState.tensors where
  op := ⟨⟨by decide, by decide, by decide, by decide, by decide, by decide⟩, ⟨by decide, by decide, by decide, by decide, by decide, by decide⟩, trivial⟩
  state := ⟨by decide, by decide, trivial⟩
  good := by unfold GoodBond; decide
  legs := by unfold GoodBond; decide
  parity := .of_even (by unfold EvenBlocks; decide)

/-- The amplitudes of the result: hopping to the first site with the sign of the fermions to the left, the number-like term, and the constant 10
times the state. -/
example : ∃ c N, Mps.apply mpoIsF (fun a b => decide (a ≤ b)) mpoH mpoState = some (some c) ∧
    ampl c.tensors N (0, 0) [[(1, 0)], [(0, 0)]] (1, 0) = 2 * (2 * 5) + 5 * (3 * 7) + 10 * (3 * 7) := by
  refine ⟨_, [[(0, 4), (1, 4), (-1, 1), (2, 1)]], rfl, ?_⟩
  decide +kernel

/-- The constant is lost with an operator without blocks. -/
example : Mps.apply mpoIsF (fun a b => decide (a ≤ b)) (⟨[⟨[], []⟩, ⟨[], []⟩], 10⟩ : Mpo Int Int) mpoState = some none := by rfl

example : Mps.apply mpoIsF (fun a b => decide (a ≤ b)) mpoH mpsA = none := by rfl

end
end Verif
