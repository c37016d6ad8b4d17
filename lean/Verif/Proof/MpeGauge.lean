import Verif.Thm.Canon
import Verif.Thm.CanonQR
import Verif.Thm.Mpe
import Verif.Model.MpeSweep
import Verif.Proof.Pdot

/-! Canonicalisation of two neighbouring sites keeps the represented state. -/

set_option linter.unusedSectionVars false

namespace Verif
section
variable {Q K : Type} [DecidableEq Q] [AddCommGroup Q] [CommRing K]

/-- The tensors `ts'` on the inner bonds `X'` represent the same state as `ts` on `X`; the fermion parities of the blocks stay even. -/
structure SameState (isF : Q → Bool) (l r : BondInfo Q) (phys : List (List (BondInfo Q))) (X : List (BondInfo Q)) (ts : List (SpT Q K)) (X' : List (BondInfo Q))
    (ts' : List (SpT Q K)) : Prop where
  on : OnBonds (l :: X' ++ [r]) phys ts'
  good : ∀ b ∈ X', GoodBond b
  even : (∀ T ∈ ts, EvenBlocks isF T) → ∀ T ∈ ts', EvenBlocks isF T
  ampl : ∀ x ps y, List.Forall₂ (fun (p : List (Q × Nat)) ph => p.length = ph.length) ps phys → ampl ts' X' x ps y = ampl ts X x ps y

theorem SameState.refl {isF : Q → Bool} {l r : BondInfo Q} {phys : List (List (BondInfo Q))} {X : List (BondInfo Q)} {ts : List (SpT Q K)}
    (h : OnBonds (l :: X ++ [r]) phys ts) (hg : ∀ b ∈ X, GoodBond b) : SameState isF l r phys X ts X ts :=
  ⟨h, hg, fun h => h, fun _ _ _ _ => rfl⟩

theorem SameState.trans {isF : Q → Bool} {l r : BondInfo Q} {phys : List (List (BondInfo Q))} {X X1 X2 : List (BondInfo Q)} {ts ts1 ts2 : List (SpT Q K)}
    (h : SameState isF l r phys X ts X1 ts1) (h' : SameState isF l r phys X1 ts1 X2 ts2) : SameState isF l r phys X ts X2 ts2 :=
  ⟨h'.on, h'.good, fun he => h'.even (h.even he), fun x ps y hp => (h'.ampl x ps y hp).trans (h.ampl x ps y hp)⟩

theorem SameState.cons {isF : Q → Bool} {l b r : BondInfo Q} {ph : List (BondInfo Q)} {phys : List (List (BondInfo Q))} {X X1 : List (BondInfo Q)}
    {T : SpT Q K} {ts ts1 : List (SpT Q K)} (hT : Conforms (l :: ph ++ [b]) T) (gb : GoodBond b) (h : SameState isF b r phys X ts X1 ts1) :
    SameState isF l r (ph :: phys) (b :: X) (T :: ts) (b :: X1) (T :: ts1) := by
  refine ⟨⟨hT, h.on⟩, ?_, ?_, ?_⟩
  · intro c hc
    rcases List.mem_cons.1 hc with rfl | hc
    · exact gb
    · exact h.good c hc
  · intro he V hV
    rcases List.mem_cons.1 hV with rfl | hV
    · exact he V (by simp)
    · exact h.even (fun W hW => he W (by simp [hW])) V hV
  · intro x ps y hp
    rcases hp with _ | ⟨h1, h2⟩
    rw [ampl_cons, ampl_cons]
    exact sum_map_congr' _ _ _ fun z _ => by rw [h.ampl _ _ _ h2]

/-- Labels of a contraction of the last leg with the first leg. -/
theorem tensordotN_labels {A B N : SpT Q K} {legsA legsB : List (BondInfo Q)} {c : BondInfo Q} (hA : Conforms (legsA ++ [c]) A)
    (hB : Conforms (c :: legsB) B) (hN : SpT.tensordotN A B 1 = some N) {r : List Q × Arr K} (hr : r ∈ N) :
    ∃ a ∈ A, ∃ b ∈ B, ∃ u q v, a.1 = u ++ [q] ∧ b.1 = q :: v ∧ r.1 = u ++ v := by
  have hA0 : A ≠ [] := by
    rintro rfl
    simp [SpT.tensordotN, SpT.tensordot, SpT.tensordotCore] at hN
    subst hN
    simp at hr
  have hdA : A.ndim = legsA.length + 1 := by
    cases A with
    | nil => simp at hA0
    | cons b t => have := (hA b List.mem_cons_self).lengths.2; simpa [SpT.ndim] using this
  unfold SpT.tensordotN SpT.tensordot at hN
  simp only [List.length_map, List.length_range, if_true, Option.some.injEq] at hN
  subst hN
  rw [tensordotCore_eq] at hr
  have hm := mem_accumulate_labels _ _ _ hr
  simp only [List.map_nil, List.not_mem_nil, false_or] at hm
  unfold contributions at hm
  rw [List.mem_map] at hm
  obtain ⟨d, hd, hde⟩ := hm
  rw [List.mem_flatMap] at hd
  obtain ⟨a, hma, hd⟩ := hd
  obtain ⟨b, hmb, rfl⟩ := List.mem_map.1 hd
  rw [List.mem_filter] at hmb
  obtain ⟨hmb, hlab⟩ := hmb
  have hdB : B.ndim = legsB.length + 1 := by
    cases B with
    | nil => simp at hmb
    | cons b' t => have := (hB b' List.mem_cons_self).lengths.2; simpa [SpT.ndim] using this
  have la : a.1.length = legsA.length + 1 := by simpa using (hA a hma).lengths.1
  have lb : b.1.length = legsB.length + 1 := by simpa using (hB b hmb).lengths.1
  obtain ⟨u, q, hu⟩ : ∃ u q, a.1 = u ++ [q] := ⟨a.1.dropLast, a.1.getLast (by intro h; simp [h] at la), (List.dropLast_append_getLast _).symm⟩
  obtain ⟨q', v, hv⟩ : ∃ q' v, b.1 = q' :: v := by
    cases hb : b.1 with
    | nil => simp [hb] at lb
    | cons x y => exact ⟨x, y, rfl⟩
  have lu : u.length = legsA.length := by rw [hu] at la; simpa using la
  have lv : v.length = legsB.length := by rw [hv] at lb; simpa using lb
  have e1 : SpT.normAxis (legsA.length + 1) (-1) = legsA.length := by unfold SpT.normAxis; simp
  have e2 : SpT.normAxis (legsB.length + 1) 0 = 0 := by unfold SpT.normAxis; simp
  have o1 : SpT.outAxes (legsA.length + 1) [legsA.length] = List.range legsA.length := by
    unfold SpT.outAxes
    rw [List.range_succ, List.filter_append, List.filter_eq_self.2]
    · simp
    · intro i hi; have := List.mem_range.1 hi; simp; omega
  have o2 : SpT.outAxes (legsB.length + 1) [0] = List.range' 1 legsB.length := by
    unfold SpT.outAxes
    rw [List.range_succ_eq_map, List.filter_cons]
    simp [List.range'_eq_map_range, Nat.add_comm]
  simp only [hdA, hdB, List.range_one, List.map_cons, List.map_nil] at hde hlab
  simp only [Nat.cast_zero, Nat.cast_one, zero_sub, e1, e2, o1, o2, hu, hv, decide_eq_true_eq] at hde hlab
  have p1 : pick (List.range legsA.length) (u ++ [q]) = u := by
    rw [pick_range_take _ _ (by simp; omega), ← lu, List.take_left]
  have p2 : pick (List.range' 1 legsB.length) (q' :: v) = v := by
    conv_rhs => rw [← pick_range v]
    unfold pick
    rw [List.range'_eq_map_range, List.map_map, lv]
    exact List.map_congr_left fun i _ => by simp [Nat.add_comm 1 i]
  have p3 : q = q' := by
    unfold pick at hlab
    simpa [← lu] using hlab.symm
  rw [p1, p2] at hde
  exact ⟨a, hma, b, hmb, u, q, v, hu, by rw [hv, p3], hde.symm⟩

theorem even_absorb_left {isF : Q → Bool} {R T N : SpT Q K} {m b : BondInfo Q} {legs : List (BondInfo Q)} (hd : DiagLabels R) (hR : Conforms [m, b] R)
    (hT : Conforms (b :: legs) T) (hN : SpT.tensordotN R T 1 = some N) (he : EvenBlocks isF T) : EvenBlocks isF N := by
  intro r hr
  obtain ⟨a, ha, c, hc, u, q, v, h1, h2, h3⟩ := tensordotN_labels (legsA := [m]) hR hT hN hr
  obtain ⟨q0, h0⟩ := hd a ha
  rw [h0] at h1
  cases u with
  | nil => simp at h1
  | cons x t =>
    cases t with
    | nil =>
      simp at h1
      have := he c hc
      rw [h3, ← h1.1, h1.2, List.singleton_append, ← h2]
      exact this
    | cons y t => simp at h1

theorem even_absorb_right {isF : Q → Bool} {R T N : SpT Q K} {m b : BondInfo Q} {legs : List (BondInfo Q)} (hd : DiagLabels R) (hR : Conforms [b, m] R)
    (hT : Conforms (legs ++ [b]) T) (hN : SpT.tensordotN T R 1 = some N) (he : EvenBlocks isF T) : EvenBlocks isF N := by
  intro r hr
  obtain ⟨a, ha, c, hc, u, q, v, h1, h2, h3⟩ := tensordotN_labels (legsB := [m]) hT hR hN hr
  obtain ⟨q0, h0⟩ := hd c hc
  rw [h0] at h2
  simp at h2
  have := he a ha
  rw [h3, ← h2.2, h2.1, ← h1]
  exact this

theorem EvenBlocks.of_perm {isF : Q → Bool} {S T : SpT Q K} (h : EvenBlocks isF T) (hp : (S.map Prod.fst).Perm (T.map Prod.fst)) : EvenBlocks isF S := by
  intro b hb
  obtain ⟨c, hc, e⟩ := List.mem_map.1 (hp.mem_iff.1 (List.mem_map_of_mem hb))
  rw [← e]
  exact h c hc

/-- What a canonicalisation with the centre moving right does to the site it leaves. -/
structure LeftStep (qr : Arr K → Arr K × Arr K) (l : BondInfo Q) (ph : List (BondInfo Q)) (m : BondInfo Q) (T T' : SpT Q K) : Prop where
  iso : ∀ [StarRing K], OrthonormalColumns qr → UniqueLabels T → HasCharge (ph.length + 2) T → LeftIsometric (l :: ph) m T'
  unique : UniqueLabels T → UniqueLabels T'
  charge : HasCharge (ph.length + 2) T → HasCharge (ph.length + 2) T'

/-- What a canonicalisation with the centre moving left does to the site it leaves. -/
structure RightStep (qr : Arr K → Arr K × Arr K) (m : BondInfo Q) (ph : List (BondInfo Q)) (r : BondInfo Q) (T T' : SpT Q K) : Prop where
  iso : ∀ [StarRing K], OrthonormalColumns qr → UniqueLabels T → HasCharge (ph.length + 2) T → RightIsometric m (ph ++ [r]) T'
  unique : UniqueLabels T → UniqueLabels T'
  charge : HasCharge (ph.length + 2) T → HasCharge (ph.length + 2) T'

/-- What a canonicalisation does to the site the centre moves to. -/
structure Neighbour (ph : List (BondInfo Q)) (T T' : SpT Q K) : Prop where
  unique : UniqueLabels T'
  charge : HasCharge (ph.length + 2) T → HasCharge (ph.length + 2) T'

theorem unique_of_perm {T T' : SpT Q K} (h : (T'.map Prod.fst).Perm (T.map Prod.fst)) (hu : UniqueLabels T) : UniqueLabels T' := h.nodup_iff.2 hu

/-- One canonicalisation of the two first sites of a chain, the centre moving right. -/
theorem step_left {isF : Q → Bool} {qr : Arr K → Arr K × Arr K} (hqr : Factorises qr) {l b r : BondInfo Q} {ph : List (BondInfo Q)}
    {phys : List (List (BondInfo Q))} {X : List (BondInfo Q)} {T T' : SpT Q K} {ts : List (SpT Q K)} (gl : GoodBond l)
    (gp : ∀ c ∈ ph, GoodBond c) (gX : ∀ c ∈ b :: X, GoodBond c) (hon : OnBonds (l :: (b :: X) ++ [r]) (ph :: phys) (T :: T' :: ts)) :
    ∃ m, SameState isF l r (ph :: phys) (b :: X) (T :: T' :: ts) (m :: X)
        ((SpT.leftCanonicalize qr T).1 :: (SpT.tensordotN (SpT.leftCanonicalize qr T).2 T' 1).getD [] :: ts) ∧
      LeftStep qr l ph m T (SpT.leftCanonicalize qr T).1 ∧
      Neighbour (phys.getD 0 []) T' ((SpT.tensordotN (SpT.leftCanonicalize qr T).2 T' 1).getD []) := by
  obtain ⟨hT, hon'⟩ := hon
  have gb := gX b (by simp)
  have hT' : Conforms ((l :: ph) ++ [b]) T := hT
  obtain ⟨m, gm, -, cq, cr, hperm, -, hprod, hiso⟩ := C21_left qr hqr (l :: ph) b T hT' (by
    intro c hc
    rcases List.mem_cons.1 hc with rfl | hc
    · exact gl
    · exact gp c hc) gb
  obtain ⟨b1, X1, ph1, phys', hX, rfl, hT1, hon1⟩ := onBonds_head hon'
  obtain ⟨N, hN, -, -, -⟩ := C12_tensordot_int (SpT.leftCanonicalize qr T).2 T' 1 [m] (ph1 ++ [b1]) [b] cr hT1 rfl (by simpa using gb.1)
  obtain ⟨n1, n2, n3, n4⟩ := absorb_left (left_diag qr T) cr hT1 gb.1 hN
  have hev := even_absorb_left (isF := isF) (left_diag qr T) cr hT1 hN
  rw [hN]
  refine ⟨m, ⟨⟨cq, ?_⟩, ?_, ?_, ?_⟩, ⟨fun ho hu hq => hiso ho hu (by simpa using hq), fun hu => unique_of_perm hperm hu, fun hq => hq.of_perm hperm⟩,
    n2, by simpa using n3⟩
  · show OnBonds (m :: (X ++ [r])) _ _
    rw [hX]
    exact ⟨n1, hon1⟩
  · intro c hc
    rcases List.mem_cons.1 hc with rfl | hc
    · exact gm
    · exact gX c (by simp [hc])
  · intro he V hV
    simp only [Option.getD_some, List.mem_cons] at hV
    rcases hV with rfl | rfl | hV
    · exact (he T (by simp)).of_perm hperm
    · exact hev (he T' (by simp))
    · exact he V (by simp [hV])
  · intro x ps y hp
    rcases hp with _ | ⟨h1, h2⟩
    rename_i p ps
    rcases h2 with _ | ⟨h2, h3⟩
    rename_i p1 ps
    rw [ampl_cons, ampl_cons, Option.getD_some]
    have hh := fun z => ampl_head (X := X) (ph := ph1) (fun w z => entry (SpT.leftCanonicalize qr T).2 [w, z]) (fun w p v hp => n4 w (p ++ [v]) (by simp [hp])) ts z p1 h2 ps y
    rw [sum_map_congr' _ _ _ fun z _ => by rw [hh z, ← sum_map_mul_left'], sum_comm']
    refine sum_map_congr' _ _ _ fun z _ => ?_
    rw [← hprod (x :: p) z (by simp [h1]), ← sum_map_mul_right']
    exact sum_map_congr' _ _ _ fun w _ => by simp only [List.cons_append]; ring

/-- One canonicalisation of the two first sites of a chain, the centre moving left. -/
theorem step_right {isF : Q → Bool} {qr : Arr K → Arr K × Arr K} (hqr : Factorises qr) {l b r : BondInfo Q} {ph ph1 : List (BondInfo Q)}
    {phys : List (List (BondInfo Q))} {X : List (BondInfo Q)} {T T' : SpT Q K} {ts : List (SpT Q K)} (gr : GoodBond r)
    (gp : ∀ c ∈ ph1, GoodBond c) (gX : ∀ c ∈ b :: X, GoodBond c) (hon : OnBonds (l :: (b :: X) ++ [r]) (ph :: ph1 :: phys) (T :: T' :: ts)) :
    ∃ m, SameState isF l r (ph :: ph1 :: phys) (b :: X) (T :: T' :: ts) (m :: X)
        ((SpT.tensordotN T (SpT.rightCanonicalize qr T').1 1).getD [] :: (SpT.rightCanonicalize qr T').2 :: ts) ∧
      RightStep qr m ph1 ((X ++ [r]).getD 0 []) T' (SpT.rightCanonicalize qr T').2 ∧
      Neighbour ph T ((SpT.tensordotN T (SpT.rightCanonicalize qr T').1 1).getD []) := by
  obtain ⟨hT, hon'⟩ := hon
  have gb := gX b (by simp)
  obtain ⟨b1, X1, ph1', phys', hX, hph, hT1, hon1⟩ := onBonds_head hon'
  cases hph
  have hT' : Conforms ((l :: ph) ++ [b]) T := hT
  have gb1 : GoodBond b1 := by
    have : b1 ∈ X ++ [r] := by rw [hX]; simp
    rcases List.mem_append.1 this with h | h
    · exact gX b1 (by simp [h])
    · rw [List.mem_singleton.1 h]; exact gr
  obtain ⟨m, gm, -, cr, cq, hperm, -, hprod, hiso⟩ := C21_right qr hqr (ph1 ++ [b1]) b T' hT1 (by
    intro c hc
    rcases List.mem_append.1 hc with hc | hc
    · exact gp c hc
    · rw [List.mem_singleton.1 hc]; exact gb1) gb
  obtain ⟨N, hN, -, -, -⟩ := C12_tensordot_int T (SpT.rightCanonicalize qr T').1 1 (l :: ph) [m] [b] hT' cr rfl (by simpa using gb.1)
  obtain ⟨n1, n2, n3, n4⟩ := absorb_right (right_diag qr T') cr hT' gb.1 hN
  have hev := even_absorb_right (isF := isF) (right_diag qr T') cr hT' hN
  rw [hN]
  refine ⟨m, ⟨⟨n1, ?_⟩, ?_, ?_, ?_⟩, ⟨?_, fun hu => unique_of_perm hperm hu, fun hq => hq.of_perm hperm⟩, n2, by simpa using n3⟩
  · show OnBonds (m :: (X ++ [r])) _ _
    rw [hX]
    exact ⟨cq, hon1⟩
  · intro c hc
    rcases List.mem_cons.1 hc with rfl | hc
    · exact gm
    · exact gX c (by simp [hc])
  · intro he V hV
    simp only [Option.getD_some, List.mem_cons] at hV
    rcases hV with rfl | rfl | hV
    · exact hev (he T (by simp))
    · exact (he T' (by simp)).of_perm hperm
    · exact he V (by simp [hV])
  · intro x ps y hp
    rcases hp with _ | ⟨h1, h2⟩
    rename_i p ps
    rcases h2 with _ | ⟨h2, h3⟩
    rename_i p1 ps
    rw [ampl_cons, ampl_cons, Option.getD_some]
    have hh := fun z => ampl_head (X := X) (ph := ph1) (T := (SpT.rightCanonicalize qr T').2) (b := m) (fun w z => entry (SpT.rightCanonicalize qr T').1 [w, z])
      (fun w p v hp => (hprod (p ++ [v]) w (by simp [hp])).symm) ts z p1 h2 ps y
    symm
    rw [sum_map_congr' _ _ _ fun z _ => by rw [hh z, ← sum_map_mul_left'], sum_comm']
    refine sum_map_congr' _ _ _ fun z _ => ?_
    have := n4 (x :: p) z (by simp [h1])
    rw [List.cons_append] at this ⊢
    rw [this, ← sum_map_mul_right']
    exact sum_map_congr' _ _ _ fun w _ => by simp only [List.cons_append]; ring
  · intro _ ho hu hq
    rw [hX]
    exact hiso ho hu (by simpa using hq)

theorem good_cons {l : BondInfo Q} {X : List (BondInfo Q)} (gl : GoodBond l) (gX : ∀ c ∈ X, GoodBond c) : ∀ c ∈ l :: X, GoodBond c := by
  intro c hc
  rcases List.mem_cons.1 hc with rfl | hc
  · exact gl
  · exact gX c hc

/-- One canonicalisation inside a chain, the centre moving right from site `i`. -/
theorem set_left {isF : Q → Bool} {qr : Arr K → Arr K × Arr K} (hqr : Factorises qr) {r : BondInfo Q} (i : Nat) :
    ∀ {l : BondInfo Q} {phys : List (List (BondInfo Q))} {X : List (BondInfo Q)} {ts : List (SpT Q K)}, GoodBond l →
    (∀ ph ∈ phys, ∀ c ∈ ph, GoodBond c) → (∀ c ∈ X, GoodBond c) → OnBonds (l :: X ++ [r]) phys ts → i + 1 < ts.length →
    ∃ m, SameState isF l r phys X ts (X.set i m) ((ts.set i (SpT.leftCanonicalize qr (ts.getD i [])).1).set (i + 1)
        ((SpT.tensordotN (SpT.leftCanonicalize qr (ts.getD i [])).2 (ts.getD (i + 1) []) 1).getD [])) ∧
      LeftStep qr ((l :: X).getD i []) (phys.getD i []) m (ts.getD i []) (SpT.leftCanonicalize qr (ts.getD i [])).1 ∧
      Neighbour (phys.getD (i + 1) []) (ts.getD (i + 1) []) ((SpT.tensordotN (SpT.leftCanonicalize qr (ts.getD i [])).2 (ts.getD (i + 1) []) 1).getD []) := by
  induction i with
  | zero =>
    intro l phys X ts gl gp gX hon hi
    rcases ts with _ | ⟨T, _ | ⟨T', ts⟩⟩
    · simp at hi
    · simp at hi
    · obtain ⟨b, X1, ph, phys', rfl, rfl, hT, hon'⟩ := onBonds_cons_inv hon (by simp)
      obtain ⟨m, hm, h1, h2⟩ := step_left (isF := isF) hqr gl (gp ph (by simp)) gX hon
      exact ⟨m, hm, h1, h2⟩
  | succ i ih =>
    intro l phys X ts gl gp gX hon hi
    rcases ts with _ | ⟨T, _ | ⟨T', ts⟩⟩
    · simp at hi
    · simp at hi
    · obtain ⟨b, X1, ph, phys', rfl, rfl, hT, hon'⟩ := onBonds_cons_inv hon (by simp)
      obtain ⟨m, hX', h1, h2⟩ := ih (gX b (by simp)) (fun p hp => gp p (by simp [hp])) (fun c hc => gX c (by simp [hc])) hon' (by simpa using hi)
      exact ⟨m, hX'.cons hT (gX b (by simp)), h1, h2⟩

/-- One canonicalisation inside a chain, the centre moving left from site `i + 1`. -/
theorem set_right {isF : Q → Bool} {qr : Arr K → Arr K × Arr K} (hqr : Factorises qr) {r : BondInfo Q} (gr : GoodBond r) (i : Nat) :
    ∀ {l : BondInfo Q} {phys : List (List (BondInfo Q))} {X : List (BondInfo Q)} {ts : List (SpT Q K)},
    (∀ ph ∈ phys, ∀ c ∈ ph, GoodBond c) → (∀ c ∈ X, GoodBond c) → OnBonds (l :: X ++ [r]) phys ts → i + 1 < ts.length →
    ∃ m, SameState isF l r phys X ts (X.set i m) ((ts.set i ((SpT.tensordotN (ts.getD i []) (SpT.rightCanonicalize qr (ts.getD (i + 1) [])).1 1).getD [])).set
        (i + 1) (SpT.rightCanonicalize qr (ts.getD (i + 1) [])).2) ∧
      RightStep qr m (phys.getD (i + 1) []) ((X ++ [r]).getD (i + 1) []) (ts.getD (i + 1) []) (SpT.rightCanonicalize qr (ts.getD (i + 1) [])).2 ∧
      Neighbour (phys.getD i []) (ts.getD i []) ((SpT.tensordotN (ts.getD i []) (SpT.rightCanonicalize qr (ts.getD (i + 1) [])).1 1).getD []) := by
  induction i with
  | zero =>
    intro l phys X ts gp gX hon hi
    rcases ts with _ | ⟨T, _ | ⟨T', ts⟩⟩
    · simp at hi
    · simp at hi
    · obtain ⟨b, X1, ph, phys', rfl, rfl, hT, hon'⟩ := onBonds_cons_inv hon (by simp)
      cases phys' with
      | nil => cases X1 <;> exact hon'.elim
      | cons ph1 phys' =>
        obtain ⟨m, hm, h1, h2⟩ := step_right (isF := isF) hqr gr (gp ph1 (by simp)) gX hon
        exact ⟨m, hm, h1, h2⟩
  | succ i ih =>
    intro l phys X ts gp gX hon hi
    rcases ts with _ | ⟨T, _ | ⟨T', ts⟩⟩
    · simp at hi
    · simp at hi
    · obtain ⟨b, X1, ph, phys', rfl, rfl, hT, hon'⟩ := onBonds_cons_inv hon (by simp)
      obtain ⟨m, hX', h1, h2⟩ := ih (fun p hp => gp p (by simp [hp])) (fun c hc => gX c (by simp [hc])) hon' (by simpa using hi)
      exact ⟨m, hX'.cons hT (gX b (by simp)), h1, h2⟩

theorem range_map_set {α : Type} (n i : Nat) (f g : Nat → α) (a b : α) (hi : i + 1 < n) (h : ∀ j, g j = if j = i then a else if j = i + 1 then b else f j) :
    (List.range n).map g = (((List.range n).map f).set i a).set (i + 1) b := by
  apply List.ext_getElem
  · simp
  · intro j h1 h2
    simp only [List.getElem_map, List.getElem_range, h, List.getElem_set]
    by_cases h3 : j = i
    · simp [h3]
    · by_cases h4 : j = i + 1
      · simp [h4]
      · simp [h3, h4, Ne.symm h3, Ne.symm h4]

theorem getD_range_map (f : Nat → SpT Q K) {n i : Nat} (hi : i < n) : ((List.range n).map f).getD i [] = f i := by
  simp [List.getD_eq_getElem?_getD, hi]

/-- Canonicalisations made by `build_envs` keep the state. -/
theorem regauged_same {isF : Q → Bool} [StarRing K] {qr : Arr K → Arr K × Arr K} (hqr : Factorises qr) {canon same : Bool} {mpo : List (OpT Q K)}
    {ids : Mpe.Idents Q K} {lo hi : Nat} {f g : Nat → SpT Q K} (h : Mpe.Regauged (Mpe.sweepCfg isF qr canon same mpo ids) lo hi f g)
    {l r : BondInfo Q} {phys : List (List (BondInfo Q))} {X : List (BondInfo Q)} (gl : GoodBond l) (gr : GoodBond r)
    (gp : ∀ ph ∈ phys, ∀ c ∈ ph, GoodBond c) (gX : ∀ c ∈ X, GoodBond c) (hon : OnBonds (l :: X ++ [r]) phys ((List.range mpo.length).map f)) :
    ∃ X', SameState isF l r phys X ((List.range mpo.length).map f) X' ((List.range mpo.length).map g) := by
  have hn : (Mpe.sweepCfg isF qr canon same mpo ids).n = mpo.length := rfl
  induction h with
  | refl => exact ⟨X, .refl hon gX⟩
  | @left g i _ _ _ hi ih =>
    obtain ⟨X', hX'⟩ := ih
    rw [hn] at hi
    obtain ⟨m, h2, -⟩ := set_left (isF := isF) hqr i gl gp hX'.good hX'.on (by simpa using hi)
    refine ⟨X'.set i m, hX'.trans ?_⟩
    convert h2 using 1
    refine range_map_set _ _ _ _ _ _ hi fun j => ?_
    rw [Mpe.canonLeftAt, getD_range_map g (Nat.lt_of_succ_lt hi), getD_range_map g hi]
    by_cases h1 : j = i
    · subst h1; rw [Function.update_of_ne (by omega), Function.update_self, if_pos rfl]; rfl
    · rw [if_neg h1]
      by_cases h2 : j = i + 1
      · subst h2; rw [Function.update_self, if_pos rfl]; rfl
      · rw [Function.update_of_ne h2, Function.update_of_ne h1, if_neg h2]
  | @right g i _ _ _ h1 hi ih =>
    obtain ⟨X', hX'⟩ := ih
    rw [hn] at hi
    obtain ⟨i, rfl⟩ : ∃ j, i = j + 1 := ⟨i - 1, by omega⟩
    obtain ⟨m, h2, -⟩ := set_right (isF := isF) hqr gr i gp hX'.good hX'.on (by simpa using hi)
    refine ⟨X'.set i m, hX'.trans ?_⟩
    convert h2 using 1
    refine range_map_set _ _ _ _ _ _ hi fun j => ?_
    rw [Mpe.canonRightAt, Nat.add_sub_cancel, getD_range_map g (Nat.lt_of_succ_lt hi), getD_range_map g hi]
    by_cases h1 : j = i
    · subst h1; rw [Function.update_self, if_pos rfl]; rfl
    · rw [if_neg h1, Function.update_of_ne h1]
      by_cases h2 : j = i + 1
      · subst h2; rw [Function.update_self, if_pos rfl]; rfl
      · rw [Function.update_of_ne h2, if_neg h2]

end
end Verif
