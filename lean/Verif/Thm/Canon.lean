import Verif.Proof.Canon
import Verif.Thm.MpsDot

/-! C21: canonicalisation does not change the state. -/

set_option linter.unusedSectionVars false

namespace Verif
section
variable {Q K : Type} [DecidableEq Q] [AddCommGroup Q]

/-! ### A definite charge fixes the label of a leg -/

theorem signedSum_cons (p : Bool) (ps : List Bool) (q : Q) (qs : List Q) :
    signedSum (p :: ps) (q :: qs) = (if p then q else -q) + signedSum ps qs := by
  simp [signedSum]

theorem signedSum_join (s : Bool) {ps : List Bool} {p : Bool} {qs : List Q} {q : Q} (h : ps.length = qs.length) :
    signedSum (join s ps p) (join s qs q) = signedSum ps qs + if p then q else -q := by
  cases s
  · simp only [join, Bool.false_eq_true, if_false]
    rw [signedSum_cons, add_comm]
  · simp only [join, if_true]
    rw [signedSum_append _ _ _ _ h]
    simp [signedSum]

theorem exists_join {α : Type} (s : Bool) {l : List α} {n : Nat} (h : l.length = n + 1) : ∃ x a, l = join s x a ∧ x.length = n := by
  cases s
  · cases l with
    | nil => simp at h
    | cons a l => exact ⟨l, a, rfl, by simpa using h⟩
  · have hne : l ≠ [] := by rintro rfl; simp at h
    exact ⟨l.dropLast, l.getLast hne, (List.dropLast_append_getLast hne).symm, by simp [h]⟩

theorem hasCharge_det {s : Bool} {legs : List (BondInfo Q)} {r : BondInfo Q} {T : SpT Q K} (hc : Conforms (join s legs r) T)
    (hq : HasCharge (legs.length + 1) T) :
    ∀ ql q q', join s ql q ∈ T.map Prod.fst → join s ql q' ∈ T.map Prod.fst → q = q' := by
  obtain ⟨pat, dq, hl, hcon⟩ := hq
  obtain ⟨ps, p, rfl, hps⟩ := exists_join s hl
  intro ql q q' h1 h2
  obtain ⟨b, hb, e⟩ := List.mem_map.1 h1
  obtain ⟨b', hb', e'⟩ := List.mem_map.1 h2
  have hlen : ps.length = ql.length := by
    have := (hc b hb).lengths.1
    rw [e, length_join, length_join] at this
    omega
  have c1 := hcon b hb
  have c2 := hcon b' hb'
  rw [e, signedSum_join s hlen] at c1
  rw [e', signedSum_join s hlen, ← c1] at c2
  have := add_left_cancel c2
  cases p <;> simpa using this.symm

end

section
variable {Q K : Type} [DecidableEq Q] [AddCommGroup Q] [CommRing K]

/-! ### One step -/

/-- C21, one step to the right: `left_canonicalize` splits a tensor into two factors.  The second one is a matrix between the new bond `m` and the
old bond, every sector of the new bond is at most as large as the old one, and the two factors multiply to the tensor.  If the dense routine
returns orthonormal columns and the tensor has a definite charge and no repeated labels, then the first factor is an isometry. -/
theorem C21_left (qr : Arr K → Arr K × Arr K) (hqr : Factorises qr) (legs : List (BondInfo Q)) (r : BondInfo Q) (T : SpT Q K)
    (hT : Conforms (legs ++ [r]) T) (hlegs : ∀ b ∈ legs, GoodBond b) (hr : GoodBond r) :
    ∃ m, GoodBond m ∧ (∀ q, Counter.count m q ≤ Counter.count r q) ∧
      Conforms (legs ++ [m]) (SpT.leftCanonicalize qr T).1 ∧ Conforms [m, r] (SpT.leftCanonicalize qr T).2 ∧
      ((SpT.leftCanonicalize qr T).1.map Prod.fst).Perm (T.map Prod.fst) ∧ UniqueLabels (SpT.leftCanonicalize qr T).2 ∧
      (∀ x y, x.length = legs.length →
        ((legBasis m).map fun z => entry (SpT.leftCanonicalize qr T).1 (x ++ [z]) * entry (SpT.leftCanonicalize qr T).2 [z, y]).sum =
          entry T (x ++ [y])) ∧
      ∀ [StarRing K], OrthonormalColumns qr → UniqueLabels T → HasCharge (legs.length + 1) T →
        LeftIsometric legs m (SpT.leftCanonicalize qr T).1 := by
  have hA := assembled_left qr hqr hT hlegs hr
  refine ⟨_, hA.good, hA.le, hA.conf_q, hA.conf_r, hA.labels, hA.unique_r, fun x y hx => hA.product x hx y, ?_⟩
  intro _ ho hu hq
  refine hA.isometry (fun b hb => (hlegs b hb).1) hu (hasCharge_det hA.conf hq) ?_
  intro g hm t ht t' ht'
  obtain ⟨n, hn, hin, hok⟩ := hA.group hm
  obtain ⟨hs, hne⟩ := group_shapes hA.conf hlegs hm hn
  have hnp : 0 < n := hr.2 _ (Dict.mem_of_get? hn)
  have hsh := stackLeft_shape hs hne
  have hp := height_pos hne hs.pos
  have h2 := hqr.right _ _ _ hsh hp hnp
  rw [h2] at ht ht'
  exact ho _ _ _ hsh hp hnp t ht t' ht'

/-- C21, one step to the left: `right_canonicalize`. -/
theorem C21_right (qr : Arr K → Arr K × Arr K) (hqr : Factorises qr) (legs : List (BondInfo Q)) (l : BondInfo Q) (T : SpT Q K)
    (hT : Conforms (l :: legs) T) (hlegs : ∀ b ∈ legs, GoodBond b) (hl : GoodBond l) :
    ∃ m, GoodBond m ∧ (∀ q, Counter.count m q ≤ Counter.count l q) ∧
      Conforms [l, m] (SpT.rightCanonicalize qr T).1 ∧ Conforms (m :: legs) (SpT.rightCanonicalize qr T).2 ∧
      ((SpT.rightCanonicalize qr T).2.map Prod.fst).Perm (T.map Prod.fst) ∧ UniqueLabels (SpT.rightCanonicalize qr T).1 ∧
      (∀ x y, x.length = legs.length →
        ((legBasis m).map fun z => entry (SpT.rightCanonicalize qr T).1 [y, z] * entry (SpT.rightCanonicalize qr T).2 (z :: x)).sum =
          entry T (y :: x)) ∧
      ∀ [StarRing K], OrthonormalColumns qr → UniqueLabels T → HasCharge (legs.length + 1) T →
        RightIsometric m legs (SpT.rightCanonicalize qr T).2 := by
  have hA := assembled_right qr hqr hT hlegs hl
  refine ⟨_, hA.good, hA.le, hA.conf_r, hA.conf_q, hA.labels, hA.unique_r, ?_, ?_⟩
  · intro x y hx
    rw [sum_map_congr' _ _ _ (fun z _ => mul_comm _ _)]
    exact hA.product x hx y
  intro _ ho hu hq
  refine hA.isometry (fun b hb => (hlegs b hb).1) hu (hasCharge_det hA.conf hq) ?_
  intro g hm t ht t' ht'
  obtain ⟨n, hn, hin, hok⟩ := hA.group hm
  obtain ⟨hs, hne⟩ := group_shapes hA.conf hlegs hm hn
  have hnp : 0 < n := hl.2 _ (Dict.mem_of_get? hn)
  have hsh := stackRightT_shape hs hne
  have hp := height_pos hne hs.pos
  have h2 := hqr.right _ _ _ hsh hp hnp
  rw [h2] at ht ht'
  exact ho _ _ _ hsh hp hnp t ht t' ht'

/-! ### Absorbing the other factor -/

theorem freeAxes_zero (n : Nat) : freeAxes (n + 1) [0] = (List.range n).map (· + 1) := by
  unfold freeAxes
  rw [List.range_succ_eq_map, List.filter_cons_of_neg (by simp), List.filter_eq_self.2]
  intro a ha
  obtain ⟨i, _, rfl⟩ := List.mem_map.1 ha
  simp

theorem freeAxes_last (n : Nat) : freeAxes (n + 1) [n] = List.range n := by
  unfold freeAxes
  rw [List.range_succ, List.filter_append, List.filter_eq_self.2]
  · simp
  · intro a ha
    simp at ha
    simp
    omega

theorem map_range_getD_cons {α : Type} (a d : α) (l : List α) : ((List.range l.length).map (· + 1)).map (fun i => (a :: l).getD i d) = l := by
  apply List.ext_getElem
  · simp
  · intro i h1 h2
    simp [List.getD_eq_getElem?_getD, h2]

theorem map_range_getD_append {α : Type} (l l' : List α) (d : α) : (List.range l.length).map (fun i => (l ++ l').getD i d) = l := by
  apply List.ext_getElem
  · simp
  · intro i h1 h2
    simp [List.getD_eq_getElem?_getD, h2, List.getElem?_append_left]

/-- A matrix with equal labels on its two legs. -/
def DiagLabels (R : SpT Q K) : Prop := ∀ b ∈ R, ∃ q, b.1 = [q, q]

theorem DiagLabels.conserves {R : SpT Q K} (h : DiagLabels R) (p : Bool) : Conserves [p, !p] 0 R := by
  intro b hb
  obtain ⟨q, e⟩ := h b hb
  rw [e]
  cases p <;> simp [signedSum]

theorem absorb_left {R T N : SpT Q K} {m b : BondInfo Q} {legs : List (BondInfo Q)} (hd : DiagLabels R) (hR : Conforms [m, b] R)
    (hT : Conforms (b :: legs) T) (hb : Dict.WF b) (hN : SpT.tensordotN R T 1 = some N) :
    Conforms (m :: legs) N ∧ UniqueLabels N ∧ (HasCharge (legs.length + 1) T → HasCharge (legs.length + 1) N) ∧
      ∀ w x, x.length = legs.length → entry N (w :: x) = ((legBasis b).map fun z => entry R [w, z] * entry T (z :: x)).sum := by
  obtain ⟨N', h1, h2, h3, h4⟩ := C12_tensordot_int R T 1 [m] legs [b] hR hT rfl (by simpa using hb)
  rw [hN] at h1
  cases h1
  refine ⟨h2, h3, ?_, ?_⟩
  · rintro ⟨pat, dq, hl, hcon⟩
    obtain ⟨p, pat, rfl⟩ : ∃ p pat', pat = p :: pat' := by
      cases pat with
      | nil => simp at hl
      | cons p pat => exact ⟨p, pat, rfl⟩
    refine ⟨p :: pat, dq, hl, ?_⟩
    have hpl : pat.length = legs.length := by simpa using hl
    have := C13_charge R T N [-1] [0] 2 (legs.length + 1) [1] [0] [p, !p] (p :: pat) 0 dq
      (fun c hc => by have := (hR c hc).lengths; simpa using this)
      (fun c hc => by have := (hT c hc).lengths; simpa using this)
      rfl hl (by simp [NamesAxis]) (by simp [NamesAxis]) (by simp) (by simp) (by simp) (hd.conserves p) hcon hN
    rw [freeAxes_last 1, freeAxes_zero, ← hpl, map_range_getD_cons] at this
    simpa using this
  · intro w x hx
    have := h4 [w] x rfl hx
    rw [legIndices_one_sum] at this
    exact this

theorem absorb_right {R T N : SpT Q K} {m b : BondInfo Q} {legs : List (BondInfo Q)} (hd : DiagLabels R) (hR : Conforms [b, m] R)
    (hT : Conforms (legs ++ [b]) T) (hb : Dict.WF b) (hN : SpT.tensordotN T R 1 = some N) :
    Conforms (legs ++ [m]) N ∧ UniqueLabels N ∧ (HasCharge (legs.length + 1) T → HasCharge (legs.length + 1) N) ∧
      ∀ x w, x.length = legs.length → entry N (x ++ [w]) = ((legBasis b).map fun z => entry T (x ++ [z]) * entry R [z, w]).sum := by
  obtain ⟨N', h1, h2, h3, h4⟩ := C12_tensordot_int T R 1 legs [m] [b] hT hR rfl (by simpa using hb)
  rw [hN] at h1
  cases h1
  refine ⟨h2, h3, ?_, ?_⟩
  · rintro ⟨pat, dq, hl, hcon⟩
    obtain ⟨ps, p, rfl, hpl⟩ := exists_join true hl
    simp only [join, if_true] at hcon hl ⊢
    refine ⟨ps ++ [p], dq, hl, ?_⟩
    have := C13_charge T R N [-1] [0] (legs.length + 1) 2 [legs.length] [0] (ps ++ [p]) [!p, !!p] dq 0
      (fun c hc => by have := (hT c hc).lengths; simpa using this)
      (fun c hc => by have := (hR c hc).lengths; simpa using this)
      hl rfl (by simp [NamesAxis]) (by simp [NamesAxis]) (by simp) (by simp) (by simp [← hpl]) hcon (hd.conserves (!p)) hN
    rw [freeAxes_last, freeAxes_zero 1, ← hpl, map_range_getD_append] at this
    simpa using this
  · intro x w hx
    have := h4 x [w] hx rfl
    rw [legIndices_one_sum] at this
    exact this

theorem tensordotN_some (A B : SpT Q K) (n : Nat) : ∃ N, SpT.tensordotN A B n = some N := by
  unfold SpT.tensordotN SpT.tensordot
  simp

theorem left_diag (qr : Arr K → Arr K × Arr K) (T : SpT Q K) : DiagLabels (SpT.leftCanonicalize qr T).2 := by
  intro b hb
  obtain ⟨g, _, rfl⟩ := List.mem_map.1 hb
  exact ⟨g.1, rfl⟩

theorem right_diag (qr : Arr K → Arr K × Arr K) (T : SpT Q K) : DiagLabels (SpT.rightCanonicalize qr T).1 := by
  intro b hb
  obtain ⟨g, _, rfl⟩ := List.mem_map.1 hb
  exact ⟨g.1, rfl⟩

theorem HasCharge.of_perm {n : Nat} {S T : SpT Q K} (h : HasCharge n T) (hp : (S.map Prod.fst).Perm (T.map Prod.fst)) : HasCharge n S := by
  obtain ⟨pat, dq, hl, hcon⟩ := h
  refine ⟨pat, dq, hl, ?_⟩
  intro b hb
  have := hp.mem_iff.1 (List.mem_map_of_mem hb)
  obtain ⟨c, hc, e⟩ := List.mem_map.1 this
  rw [← e]
  exact hcon c hc

/-! ### The sweep -/

/-- A factor on the left of the first tensor can be taken out of the amplitude. -/
theorem ampl_head {b : BondInfo Q} {N T : SpT Q K} {ph : List (BondInfo Q)} {X : List (BondInfo Q)} (f : Q × Nat → Q × Nat → K)
    (h : ∀ w p v, p.length = ph.length → entry N (w :: p ++ [v]) = ((legBasis b).map fun z => f w z * entry T (z :: p ++ [v])).sum)
    (ts : List (SpT Q K)) (w : Q × Nat) (p : List (Q × Nat)) (hp : p.length = ph.length) (ps : List (List (Q × Nat))) (y : Q × Nat) :
    ampl (N :: ts) X w (p :: ps) y = ((legBasis b).map fun z => f w z * ampl (T :: ts) X z (p :: ps) y).sum := by
  cases X with
  | nil =>
    cases ts with
    | nil =>
      cases ps with
      | nil => simp only [ampl]; exact h w p y hp
      | cons p' ps => simp [ampl]
    | cons => simp [ampl]
  | cons c X =>
    have e : ∀ (V : SpT Q K) z, ampl (V :: ts) (c :: X) z (p :: ps) y =
        ((legBasis c).map fun v => entry V (z :: p ++ [v]) * ampl ts X v ps y).sum := by
      intro V z
      cases ts with
      | nil => simp [ampl]
      | cons => simp [ampl]
    rw [e, sum_map_congr' _ _ _ (fun v _ => by rw [h w p v hp, ← sum_map_mul_right'])]
    rw [sum_comm' (legBasis c) (legBasis b)]
    apply sum_map_congr'
    intro z _
    rw [e, ← sum_map_mul_left']
    apply sum_map_congr'
    intro v _
    ring

/-- The two phases of the sweep, written as one recursion. -/
def sweep (qr : Arr K → Arr K × Arr K) : Nat → List (SpT Q K) → Option (List (SpT Q K))
  | 0, ts => Mps.rightSweep qr ts
  | c + 1, T :: T' :: ts =>
    let f := SpT.leftCanonicalize qr T
    (SpT.tensordotN f.2 T' 1).bind fun N => (sweep qr c (N :: ts)).map fun r => f.1 :: r
  | _ + 1, _ => none

theorem sweep_eq (qr : Arr K → Arr K × Arr K) (c : Nat) (ts : List (SpT Q K)) :
    sweep qr c ts = (Mps.leftSweep qr c ts).bind fun ts => (Mps.rightSweep qr (ts.drop c)).map fun r => ts.take c ++ r := by
  induction c generalizing ts with
  | zero => simp [sweep, Mps.leftSweep]
  | succ c ih =>
    rcases ts with _ | ⟨T, _ | ⟨T', ts⟩⟩
    · rfl
    · rfl
    · simp only [sweep, Mps.leftSweep]
      cases SpT.tensordotN (SpT.leftCanonicalize qr T).2 T' 1 with
      | none => rfl
      | some N =>
        simp only [Option.bind_some, ih]
        cases Mps.leftSweep qr c (N :: ts) with
        | none => rfl
        | some r =>
          simp only [Option.bind_some, Option.map_some, List.drop_succ_cons, List.take_succ_cons, List.cons_append]
          cases Mps.rightSweep qr (r.drop c) <;> rfl

/-- What the sweep returns for the sites `ts`. -/
structure Swept (l r : BondInfo Q) (X : List (BondInfo Q)) (phys : List (List (BondInfo Q))) (ts ts' : List (SpT Q K)) (X' : List (BondInfo Q))
    (qr : Arr K → Arr K × Arr K) (c : Nat) : Prop where
  on : OnBonds (l :: X' ++ [r]) phys ts'
  good : ∀ b ∈ X', GoodBond b
  ampl : ∀ x ps y, List.Forall₂ (fun (p : List (Q × Nat)) ph => p.length = ph.length) ps phys → ampl ts' X' x ps y = ampl ts X x ps y
  left : ∀ [StarRing K], OrthonormalColumns qr → (∀ T ∈ ts, UniqueLabels T) →
    (∀ i < ts.length, HasCharge ((phys.getD i []).length + 2) (ts.getD i [])) →
    ∀ i < c, LeftIsometric ((l :: X').getD i [] :: phys.getD i []) (X'.getD i []) (ts'.getD i [])
  right : ∀ [StarRing K], OrthonormalColumns qr → (∀ T ∈ ts, UniqueLabels T) →
    (∀ i < ts.length, HasCharge ((phys.getD i []).length + 2) (ts.getD i [])) →
    ∀ i, c < i → i < ts.length → RightIsometric ((l :: X').getD i []) (phys.getD i [] ++ [(X' ++ [r]).getD i []]) (ts'.getD i [])
  unique : (∀ T ∈ ts, UniqueLabels T) → ∀ T ∈ ts', UniqueLabels T
  charge : (∀ i < ts.length, HasCharge ((phys.getD i []).length + 2) (ts.getD i [])) →
    ∀ i < ts.length, HasCharge ((phys.getD i []).length + 2) (ts'.getD i [])

theorem onBonds_cons_inv {l r : BondInfo Q} {X : List (BondInfo Q)} {phys : List (List (BondInfo Q))} {T : SpT Q K} {ts : List (SpT Q K)}
    (h : OnBonds (l :: X ++ [r]) phys (T :: ts)) (hts : ts ≠ []) :
    ∃ b X1 ph phys', X = b :: X1 ∧ phys = ph :: phys' ∧ Conforms (l :: ph ++ [b]) T ∧ OnBonds (b :: X1 ++ [r]) phys' ts := by
  have hl := h.lengths
  cases X with
  | nil =>
    simp at hl
    exact absurd hl.1 hts
  | cons b X1 =>
    cases phys with
    | nil => simp at hl
    | cons ph phys' => exact ⟨b, X1, ph, phys', rfl, rfl, h.1, h.2⟩

theorem onBonds_head {l r : BondInfo Q} {X : List (BondInfo Q)} {phys : List (List (BondInfo Q))} {T : SpT Q K} {ts : List (SpT Q K)}
    (h : OnBonds (l :: X ++ [r]) phys (T :: ts)) :
    ∃ b X1 ph phys', X ++ [r] = b :: X1 ∧ phys = ph :: phys' ∧ Conforms (l :: ph ++ [b]) T ∧ OnBonds (b :: X1) phys' ts := by
  cases phys with
  | nil => cases X <;> exact h.elim
  | cons ph phys' =>
    cases X with
    | nil => exact ⟨r, [], ph, phys', rfl, rfl, h.1, h.2⟩
    | cons b X1 => exact ⟨b, X1 ++ [r], ph, phys', rfl, rfl, h.1, h.2⟩

theorem onBonds_rehead {l l' r : BondInfo Q} {X : List (BondInfo Q)} {phys : List (List (BondInfo Q))} {T N : SpT Q K} {ts : List (SpT Q K)}
    (h : OnBonds (l :: X ++ [r]) phys (T :: ts))
    (hN : ∀ legs, Conforms (l :: legs) T → Conforms (l' :: legs) N) : OnBonds (l' :: X ++ [r]) phys (N :: ts) := by
  cases phys with
  | nil => cases X <;> exact h.elim
  | cons ph phys' =>
    cases X with
    | nil => exact ⟨hN _ h.1, h.2⟩
    | cons b X1 => exact ⟨hN _ h.1, h.2⟩

theorem rightSweep_spec (qr : Arr K → Arr K × Arr K) (hqr : Factorises qr) {l r : BondInfo Q} {X : List (BondInfo Q)}
    {phys : List (List (BondInfo Q))} {T : SpT Q K} {ts : List (SpT Q K)} (h : OnBonds (l :: X ++ [r]) phys (T :: ts))
    (hg : ∀ b ∈ l :: r :: X, GoodBond b) (hp : ∀ ph ∈ phys, ∀ b ∈ ph, GoodBond b) :
    ∃ X' ts', Mps.rightSweep qr (T :: ts) = some ts' ∧ Swept l r X phys (T :: ts) ts' X' qr 0 := by
  induction ts generalizing l X phys T with
  | nil =>
    refine ⟨X, [T], rfl, h, fun b hb => hg b (by simp [hb]), fun _ _ _ _ => rfl, fun _ _ _ i hi => absurd hi (by omega), ?_, fun hu => hu, fun hc => hc⟩
    intro _ _ _ _ i h1 h2
    simp at h2
    omega
  | cons T' ts ih =>
    obtain ⟨b, X1, ph, phys', rfl, rfl, hcT, hrest⟩ := onBonds_cons_inv h (by simp)
    have gb : GoodBond b := hg b (by simp)
    obtain ⟨X', ts', hs, S⟩ := ih hrest (fun c hc => hg c (by simp at hc ⊢; tauto)) (fun c hc => hp c (by simp [hc]))
    obtain ⟨N, ts', rfl⟩ : ∃ N ts'', ts' = N :: ts'' := by
      have := S.on.lengths.1
      cases ts' with
      | nil => simp at this
      | cons N t => exact ⟨N, t, rfl⟩
    obtain ⟨b2, X2, ph', phys2, e1, rfl, hcN, hrest2⟩ := onBonds_head S.on
    have gb2 : GoodBond b2 := by
      have : b2 ∈ X' ++ [r] := by rw [e1]; simp
      rcases List.mem_append.1 this with h | h
      · exact S.good b2 h
      · simp at h; subst h; exact hg b2 (by simp)
    obtain ⟨m, gm, mle, cL, cQ, pQ, uL, pr, iso⟩ := C21_right qr hqr (ph' ++ [b2]) b N hcN
      (by intro c hc
          rcases List.mem_append.1 hc with h | h
          · exact hp ph' (by simp) c h
          · simp at h; subst h; exact gb2) gb
    obtain ⟨M, hM⟩ := tensordotN_some T (SpT.rightCanonicalize qr N).1 1
    obtain ⟨cM, uM, qM, eM⟩ := absorb_right (right_diag qr N) cL hcT gb.1 hM
    refine ⟨m :: X', M :: (SpT.rightCanonicalize qr N).2 :: ts', ?_, ?_⟩
    · show ((Mps.rightSweep qr (T' :: ts)).bind _) = _
      rw [hs]
      simp only [Option.bind_some, hM, Option.map_some]
    have honQ : OnBonds (m :: X' ++ [r]) (ph' :: phys2) ((SpT.rightCanonicalize qr N).2 :: ts') := by
      cases X' with
      | nil =>
        simp at e1
        obtain ⟨rfl, rfl⟩ := e1
        exact ⟨cQ, hrest2⟩
      | cons c X' =>
        simp at e1
        obtain ⟨rfl, rfl⟩ := e1
        exact ⟨cQ, hrest2⟩
    refine ⟨⟨cM, honQ⟩, ?_, ?_, fun _ _ _ i hi => absurd hi (by omega), ?_, ?_, ?_⟩
    · intro c hc
      rcases List.mem_cons.1 hc with rfl | hc
      · exact gm
      · exact S.good c hc
    · intro x ps y hps
      cases hps with
      | @cons p _ ps _ h1 h2 =>
        cases h2 with
        | @cons p' _ ps _ h3 h4 =>
          rw [ampl_cons, ampl_cons]
          have hN : ∀ z, Verif.ampl (T' :: ts) X1 z (p' :: ps) y =
              ((legBasis m).map fun w => entry (SpT.rightCanonicalize qr N).1 [z, w] *
                Verif.ampl ((SpT.rightCanonicalize qr N).2 :: ts') X' w (p' :: ps) y).sum := by
            intro z
            rw [← S.ampl z (p' :: ps) y (.cons h3 h4)]
            refine ampl_head (ph := ph') (fun z w => entry (SpT.rightCanonicalize qr N).1 [z, w]) ?_ ts' z p' h3 ps y
            intro w p v hpl
            have := pr (p ++ [v]) w (by simp [hpl])
            exact this.symm
          rw [sum_map_congr' _ _ _ (fun w _ => by
            rw [show x :: p ++ [w] = (x :: p) ++ [w] from rfl, eM (x :: p) w (by simp [h1]), ← sum_map_mul_right'])]
          rw [sum_comm' (legBasis m) (legBasis b)]
          apply sum_map_congr'
          intro z _
          rw [hN z, ← sum_map_mul_left']
          apply sum_map_congr'
          intro w _
          rw [mul_assoc]
    · intro _ ho hu hc i h1 h2
      have huT : ∀ V ∈ T' :: ts, UniqueLabels V := fun V hV => hu V (List.mem_cons_of_mem _ hV)
      have hcT' : ∀ i < (T' :: ts).length, HasCharge (((ph' :: phys2).getD i []).length + 2) ((T' :: ts).getD i []) := by
        intro i hi
        have := hc (i + 1) (by simpa using hi)
        simpa using this
      rcases i with _ | _ | i
      · omega
      · have hN : UniqueLabels N := S.unique huT N (by simp)
        have hNc := S.charge hcT' 0 (by simp)
        simp only [List.getD_cons_zero] at hNc
        have := iso ho hN (by simpa using hNc)
        simp only [List.getD_cons_succ, List.getD_cons_zero]
        have hb2 : (m :: X' ++ [r]).getD 1 [] = b2 := by
          show ((X' ++ [r])).getD 0 [] = b2
          rw [e1]; rfl
        rw [hb2]
        exact this
      · have := S.right ho huT hcT' (i + 1) (by omega) (by simp at h2 ⊢; omega)
        simpa using this
    · intro hu V hV
      have huT : ∀ V ∈ T' :: ts, UniqueLabels V := fun V hV => hu V (List.mem_cons_of_mem _ hV)
      rcases List.mem_cons.1 hV with rfl | hV
      · exact uM
      rcases List.mem_cons.1 hV with rfl | hV
      · exact pQ.nodup_iff.2 (S.unique huT N (by simp))
      · exact S.unique huT V (by simp [hV])
    · intro hc i hi
      have hcT' : ∀ i < (T' :: ts).length, HasCharge (((ph' :: phys2).getD i []).length + 2) ((T' :: ts).getD i []) := by
        intro i hi
        have := hc (i + 1) (by simpa using hi)
        simpa using this
      rcases i with _ | _ | i
      · have := qM (by simpa using hc 0 (by simp))
        simpa using this
      · have := (S.charge hcT' 0 (by simp)).of_perm pQ
        simpa using this
      · have := S.charge hcT' (i + 1) (by simp at hi ⊢; omega)
        simpa using this

theorem sweep_spec (qr : Arr K → Arr K × Arr K) (hqr : Factorises qr) (c : Nat) {l r : BondInfo Q} {X : List (BondInfo Q)}
    {phys : List (List (BondInfo Q))} {ts : List (SpT Q K)} (hc : c < ts.length) (h : OnBonds (l :: X ++ [r]) phys ts)
    (hg : ∀ b ∈ l :: r :: X, GoodBond b) (hp : ∀ ph ∈ phys, ∀ b ∈ ph, GoodBond b) :
    ∃ X' ts', sweep qr c ts = some ts' ∧ Swept l r X phys ts ts' X' qr c := by
  induction c generalizing l X phys ts with
  | zero =>
    cases ts with
    | nil => simp at hc
    | cons T ts => exact rightSweep_spec qr hqr h hg hp
  | succ c ih =>
    rcases ts with _ | ⟨T, _ | ⟨T', ts⟩⟩
    · simp at hc
    · simp at hc
    obtain ⟨b, X1, ph, phys', rfl, rfl, hcT, hrest⟩ := onBonds_cons_inv h (by simp)
    have gb : GoodBond b := hg b (by simp)
    have gl : GoodBond l := hg l (by simp)
    obtain ⟨m, gm, mle, cQ, cR, pQ, uR, pr, iso⟩ := C21_left qr hqr (l :: ph) b T hcT
      (by intro c hc
          rcases List.mem_cons.1 hc with h | h
          · subst h; exact gl
          · exact hp ph (by simp) c h) gb
    obtain ⟨N, hN⟩ := tensordotN_some (SpT.leftCanonicalize qr T).2 T' 1
    have hab := fun {legs : List (BondInfo Q)} (hc : Conforms (b :: legs) T') => absorb_left (left_diag qr T) cR hc gb.1 hN
    have honN : OnBonds (m :: X1 ++ [r]) phys' (N :: ts) := onBonds_rehead hrest fun legs hc => (hab hc).1
    obtain ⟨X', ts', hs, S⟩ := ih (by simp at hc ⊢; omega) honN
      (by intro c hc
          simp at hc
          rcases hc with rfl | hc | hc
          · exact gm
          · exact hg c (by simp [hc])
          · exact hg c (by simp [hc]))
      (fun c hc => hp c (by simp [hc]))
    obtain ⟨b2, X2, ph', phys2, e1, rfl, hcT', hrest2⟩ := onBonds_head hrest
    obtain ⟨cN, uN, qN, eN⟩ := hab hcT'
    refine ⟨m :: X', (SpT.leftCanonicalize qr T).1 :: ts', ?_, ?_⟩
    · simp only [sweep, hN, Option.bind_some, hs, Option.map_some]
    have hu' : (∀ V ∈ T :: T' :: ts, UniqueLabels V) → ∀ V ∈ N :: ts, UniqueLabels V := by
      intro hu V hV
      rcases List.mem_cons.1 hV with rfl | hV
      · exact uN
      · exact hu V (by simp [hV])
    have hc' : (∀ i < (T :: T' :: ts).length, HasCharge (((ph :: ph' :: phys2).getD i []).length + 2) ((T :: T' :: ts).getD i [])) →
        ∀ i < (N :: ts).length, HasCharge (((ph' :: phys2).getD i []).length + 2) ((N :: ts).getD i []) := by
      intro hc i hi
      cases i with
      | zero =>
        have := qN (by simpa using hc 1 (by simp))
        simpa using this
      | succ i =>
        have := hc (i + 2) (by simpa using hi)
        simpa using this
    refine ⟨⟨cQ, S.on⟩, ?_, ?_, ?_, ?_, ?_, ?_⟩
    · intro c hc
      rcases List.mem_cons.1 hc with rfl | hc
      · exact gm
      · exact S.good c hc
    · intro x ps y hps
      cases hps with
      | @cons p _ ps _ h1 h2 =>
        rw [ampl_cons, ampl_cons]
        rw [sum_map_congr' _ _ _ (fun z _ => by rw [S.ampl z ps y h2])]
        cases h2 with
        | @cons p' _ ps _ h3 h4 =>
          have hNa : ∀ z, Verif.ampl (N :: ts) X1 z (p' :: ps) y =
              ((legBasis b).map fun w => entry (SpT.leftCanonicalize qr T).2 [z, w] * Verif.ampl (T' :: ts) X1 w (p' :: ps) y).sum := by
            intro z
            refine ampl_head (ph := ph') (fun z w => entry (SpT.leftCanonicalize qr T).2 [z, w]) ?_ ts z p' h3 ps y
            intro w p v hpl
            exact eN w (p ++ [v]) (by simp [hpl])
          rw [sum_map_congr' _ _ _ (fun z _ => by rw [hNa z, ← sum_map_mul_left'])]
          rw [sum_comm' (legBasis m) (legBasis b)]
          apply sum_map_congr'
          intro w _
          have := pr (x :: p) w (by simp [h1])
          rw [show x :: p ++ [w] = (x :: p) ++ [w] from rfl, ← this, ← sum_map_mul_right']
          apply sum_map_congr'
          intro z _
          rw [mul_assoc]
    · intro _ ho hu hc i hi
      cases i with
      | zero =>
        have := iso ho (hu T (by simp)) (by simpa using hc 0 (by simp))
        simpa using this
      | succ i =>
        have := S.left ho (hu' hu) (hc' hc) i (by omega)
        simpa using this
    · intro _ ho hu hc i h1 h2
      cases i with
      | zero => omega
      | succ i =>
        have := S.right ho (hu' hu) (hc' hc) i (by omega) (by simp at h2 ⊢; omega)
        simpa using this
    · intro hu V hV
      rcases List.mem_cons.1 hV with rfl | hV
      · exact pQ.nodup_iff.2 (hu T (by simp))
      · exact S.unique (hu' hu) V hV
    · intro hc i hi
      cases i with
      | zero =>
        have := (hc 0 (by simp))
        simp only [List.getD_cons_zero] at this ⊢
        exact this.of_perm pQ
      | succ i =>
        have := S.charge (hc' hc) i (by simpa using hi)
        simpa using this

/-- C21: `canonicalize` to any admissible centre (negative ones count from the end) changes neither the edges, the physical legs, the constant nor
any amplitude.  If the dense routine returns orthonormal columns and every site tensor has a definite charge and no repeated labels, then all
tensors before the centre are isometries to the right and all tensors behind it are isometries to the left. -/
theorem C21_canonicalize (qr : Arr K → Arr K × Arr K) (hqr : Factorises qr) (l r : BondInfo Q) (X : List (BondInfo Q))
    (phys : List (List (BondInfo Q))) (a : Mps Q K) (center : Int) (c : Nat)
    (hcen : center = c ∨ center = (c : Int) - a.tensors.length) (hc : c < a.tensors.length)
    (hon : OnBonds (l :: X ++ [r]) phys a.tensors)
    (hg : ∀ b ∈ l :: r :: X, GoodBond b) (hp : ∀ ph ∈ phys, ∀ b ∈ ph, GoodBond b) :
    ∃ X' b, a.canonicalize qr center = some b ∧ b.const = a.const ∧ OnBonds (l :: X' ++ [r]) phys b.tensors ∧ (∀ b ∈ X', GoodBond b) ∧
      (∀ x ps y, List.Forall₂ (fun (p : List (Q × Nat)) ph => p.length = ph.length) ps phys →
        ampl b.tensors X' x ps y = ampl a.tensors X x ps y) ∧
      ∀ [StarRing K], OrthonormalColumns qr → (∀ T ∈ a.tensors, UniqueLabels T) →
        (∀ i < a.tensors.length, HasCharge ((phys.getD i []).length + 2) (a.tensors.getD i [])) →
        (∀ i < c, LeftIsometric ((l :: X').getD i [] :: phys.getD i []) (X'.getD i []) (b.tensors.getD i [])) ∧
        ∀ i, c < i → i < a.tensors.length →
          RightIsometric ((l :: X').getD i []) (phys.getD i [] ++ [(X' ++ [r]).getD i []]) (b.tensors.getD i []) := by
  obtain ⟨X', ts', hs, S⟩ := sweep_spec qr hqr c hc hon hg hp
  have hcc : (if center < 0 then (a.tensors.length : Int) + center else center) = c := by
    split <;> omega
  refine ⟨X', ⟨ts', a.const⟩, ?_, rfl, S.on, S.good, S.ampl, fun ho hu hq => ⟨S.left ho hu hq, S.right ho hu hq⟩⟩
  unfold Mps.canonicalize
  simp only [hcc]
  rw [if_pos ⟨by omega, by omega⟩]
  rw [sweep_eq] at hs
  simp only [Int.toNat_natCast]
  cases hl : Mps.leftSweep qr c a.tensors with
  | none => rw [hl] at hs; simp at hs
  | some ts =>
    rw [hl] at hs
    simp only [Option.bind_some] at hs ⊢
    cases hr : Mps.rightSweep qr (ts.drop c) with
    | none => rw [hr] at hs; simp at hs
    | some r' =>
      rw [hr] at hs
      simp only [Option.map_some, Option.some.injEq] at hs ⊢
      rw [hs]

/-- C21: any other centre is rejected. -/
theorem C21_reject (qr : Arr K → Arr K × Arr K) (a : Mps Q K) (center : Int)
    (h : ∀ c : Nat, c < a.tensors.length → center ≠ c ∧ center ≠ (c : Int) - a.tensors.length) : a.canonicalize qr center = none := by
  unfold Mps.canonicalize
  simp only
  rw [if_neg]
  rintro ⟨h1, h2⟩
  split at h1
  · rename_i h0
    rw [if_pos h0] at h2
    have := h ((a.tensors.length : Int) + center).toNat (by omega)
    omega
  · rename_i h0
    rw [if_neg h0] at h2
    have := h center.toNat (by omega)
    omega

end
end Verif
