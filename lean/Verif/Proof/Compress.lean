import Verif.Proof.Svd

/-! Lemmas about one step of the compression. -/

set_option linter.unusedSectionVars false

namespace Verif
section
variable {Q K V : Type} [DecidableEq Q]

theorem sum_singletons {α β : Type} (l : List α) (g : α → β) : (l.map fun z => ({g z} : Multiset β)).sum = ((l.map g : List β) : Multiset β) := by
  induction l with
  | nil => rfl
  | cons a l ih => rw [List.map_cons, List.sum_cons, ih]; rfl

/-- The basis vectors of the new bond are the kept ones of the old bond. -/
theorem cameFrom_perm [Zero Q] {keep : Q × Nat → Bool} {m : BondInfo Q} (hm : GoodBond m) :
    ((legBasis (keptBond keep m)).map (cameFrom keep m)).Perm ((legBasis m).filter keep) := by
  have := kept_sum hm (keep := keep) (fun z => ({z} : Multiset (Q × Nat)))
  rw [sum_singletons, sum_singletons _ (fun z => z), List.map_id'] at this
  exact Multiset.coe_eq_coe.1 this

theorem cameFrom_mem [Zero Q] {keep : Q × Nat → Bool} {m : BondInfo Q} (hm : GoodBond m) {z : Q × Nat} (hz : z ∈ legBasis (keptBond keep m)) :
    cameFrom keep m z ∈ legBasis m ∧ keep (cameFrom keep m z) = true :=
  List.mem_filter.1 ((cameFrom_perm hm).mem_iff.1 (List.mem_map_of_mem hz))

theorem cameFrom_inj [Zero Q] {keep : Q × Nat → Bool} {m : BondInfo Q} (hm : GoodBond m) {z z' : Q × Nat} (hz : z ∈ legBasis (keptBond keep m))
    (hz' : z' ∈ legBasis (keptBond keep m)) : cameFrom keep m z = cameFrom keep m z' ↔ z = z' := by
  have : ((legBasis (keptBond keep m)).map (cameFrom keep m)).Nodup := (cameFrom_perm hm).nodup_iff.2 ((legBasis_nodup hm.1).filter _)
  exact ⟨fun e => List.inj_on_of_nodup_map this hz hz' e, fun e => e ▸ rfl⟩

theorem legIndices_len {legs : List (BondInfo Q)} {x : List (Q × Nat)} (hx : x ∈ legIndices legs) : x.length = legs.length := by
  have := ((mem_cart _ _).1 hx).length_eq
  simpa using this.symm

theorem keepLeft_labels [Zero Q] [Zero V] (s : SpT Q V) (gs : List (Nat × List Nat)) (l : SpT Q K) :
    ∀ b ∈ SpT.keepLeft s gs l, ∃ b0 ∈ l, b.1 = b0.1 := by
  induction gs generalizing l with
  | nil => intro b hb; simp [SpT.keepLeft] at hb
  | cons g gs ih =>
    intro b hb
    rw [SpT.keepLeft] at hb
    simp only [List.mem_append, List.mem_map] at hb
    rcases hb with ⟨b0, h, rfl⟩ | h
    · exact ⟨b0, (List.dropWhile_sublist _).subset ((List.takeWhile_sublist _).subset h), rfl⟩
    · obtain ⟨b0, h0, e⟩ := ih _ b h
      exact ⟨b0, (List.dropWhile_sublist _).subset ((List.dropWhile_sublist _).subset h0), e⟩

theorem keepRight_labels [Zero Q] [Zero V] (s : SpT Q V) (gs : List (Nat × List Nat)) (l : SpT Q K) :
    ∀ b ∈ SpT.keepRight s gs l, ∃ b0 ∈ l, b.1 = b0.1 := by
  induction gs generalizing l with
  | nil => intro b hb; simp [SpT.keepRight] at hb
  | cons g gs ih =>
    intro b hb
    rw [SpT.keepRight] at hb
    simp only [List.mem_append, List.mem_map] at hb
    rcases hb with ⟨b0, h, rfl⟩ | h
    · exact ⟨b0, (List.dropWhile_sublist _).subset ((List.takeWhile_sublist _).subset h), rfl⟩
    · obtain ⟨b0, h0, e⟩ := ih _ b h
      exact ⟨b0, (List.dropWhile_sublist _).subset ((List.dropWhile_sublist _).subset h0), e⟩

end

section
variable {Q K V : Type} [DecidableEq Q] [AddCommGroup Q] [CommRing K] [CommRing V] [LinearOrder V] [IsStrictOrderedRing V]

/-- The options ask for no truncation. -/
def NoCut (o : TruncOpts V) : Prop := o.maxDw = 0 ∧ o.cutoff = 0 ∧ o.maxBondDim = -1

/-- What is known about the truncated factors of `T` along a cut. -/
structure CutOK (c : V →+* K) (o : TruncOpts V) (legsL legsR : List (BondInfo Q)) (T l : SpT Q K) (m : BondInfo Q) (r : SpT Q K)
    (t : SpT.Truncation Q K V) (b : BondInfo Q) (D : List (Q × Nat) → List (Q × Nat) → K) : Prop where
  good : GoodBond b
  left : Conforms (legsL ++ [b]) t.l
  values : Conforms [b] t.s
  right : Conforms (b :: legsR) t.r
  split : ∀ x y, x.length = legsL.length → y.length = legsR.length → entry T (x ++ y) =
    ((legBasis b).map fun w => entry t.l (x ++ [w]) * c (entry t.s [w]) * entry t.r (w :: y)).sum + D x y
  noCut : NoCut o → t.error = 0 ∧ ∀ x y, D x y = 0
  dim : 0 ≤ o.maxBondDim → (legBasis b).length ≤ o.maxBondDim.toNat
  nonneg : o.eigenValues = false → 0 ≤ t.error
  labelsL : ∀ x ∈ t.l, ∃ x0 ∈ l, x.1 = x0.1
  labelsR : ∀ x ∈ t.r, ∃ x0 ∈ r, x.1 = x0.1
  iso : ∀ [StarRing K], (∀ v, star (c v) = c v) → LeftIsometric legsL m l → RightIsometric m legsR r →
    LeftIsometric legsL b t.l ∧ RightIsometric b legsR t.r ∧
    (∀ y ∈ legIndices legsR, ∀ w ∈ legBasis b, ((legIndices legsL).map fun x => star (D x y) * entry t.l (x ++ [w])).sum = 0) ∧
    (∀ x ∈ legIndices legsL, ∀ w ∈ legBasis b, ((legIndices legsR).map fun y => star (D x y) * entry t.r (w :: y)).sum = 0) ∧
    (o.eigenValues = false → ((legIndices legsL).map fun x => ((legIndices legsR).map fun y => star (D x y) * D x y).sum).sum = c t.error)

theorem cut_ok (c : V →+* K) (o : TruncOpts V) (sqrt : V → V) (big : Arr K → Bool) (hbig : RemovesZeros big) {legsL legsR : List (BondInfo Q)}
    {T l : SpT Q K} {s : SpT Q V} {r : SpT Q K} (h : BlockSvd c legsL legsR T l s r) :
    ∃ b D, CutOK c o legsL legsR T l (valueBond s) r (SpT.truncateSvd o sqrt big l s r) b D := by
  obtain ⟨keep, hR, herr, -, hdim, -, hall, -⟩ := C22_truncate o sqrt big l s r legsL legsR h.values h.left h.right h.leftSorted h.rightSorted hbig
  have hm := h.values.good
  refine ⟨keptBond keep (valueBond s), fun x y => (((legBasis (valueBond s)).filter fun z => !keep z).map fun z =>
    entry l (x ++ [z]) * c (entry s [z]) * entry r (z :: y)).sum, keptBond_good hm, hR.left, hR.values, hR.right, ?_, ?_, ?_, ?_, ?_, ?_, ?_⟩
  · intro x y hx hy
    rw [← h.product x y hx hy, C22_product c hm hR x y hx hy, sum_filter', sum_filter', ← sum_map_add']
    apply sum_map_congr'
    intro z _
    cases keep z <;> simp
  · rintro ⟨h1, h2, h3⟩
    have hk := hall h1 h2 h3
    have : ((legBasis (valueBond s)).filter fun z => !keep z) = [] := by
      rw [List.filter_eq_nil_iff]
      intro z hz
      simp [hk z hz]
    rw [herr, this]
    simp
  · intro h0
    have := (cameFrom_perm hm (keep := keep)).length_eq
    rw [List.length_map] at this
    rw [this]
    exact hdim h0
  · intro he
    rw [herr]
    apply List.sum_nonneg
    intro v hv
    obtain ⟨z, _, rfl⟩ := List.mem_map.1 hv
    simp only [TruncOpts.weight, he]
    exact mul_self_nonneg _
  · intro x hx
    exact keepLeft_labels _ _ _ x (List.mem_filter.1 hx).1
  · intro x hx
    exact keepRight_labels _ _ _ x (List.mem_filter.1 hx).1
  · intro _ hc hl hr
    have horL : ∀ y, ∀ w ∈ legBasis (keptBond keep (valueBond s)), ((legIndices legsL).map fun x =>
        star ((((legBasis (valueBond s)).filter fun z => !keep z).map fun z => entry l (x ++ [z]) * c (entry s [z]) * entry r (z :: y)).sum) *
          entry (SpT.truncateSvd o sqrt big l s r).l (x ++ [w])).sum = 0 := by
      intro y w hw
      obtain ⟨hw1, hw2⟩ := cameFrom_mem hm hw
      rw [sum_map_congr' _ _ _ (fun x hx => by
        rw [hR.leftEntry x (legIndices_len hx) w hw, star_sum_list, ← sum_map_mul_right'])]
      rw [sum_comm']
      apply sum_map_zero'
      intro z hz
      rw [List.mem_filter] at hz
      have hne : z ≠ cameFrom keep (valueBond s) w := by
        rintro rfl
        rw [hw2] at hz
        simp at hz
      have := hl z hz.1 _ hw1
      rw [if_neg hne] at this
      calc _ = ((legIndices legsL).map fun x => (star (c (entry s [z])) * star (entry r (z :: y))) *
            (star (entry l (x ++ [z])) * entry l (x ++ [cameFrom keep (valueBond s) w]))).sum := by
              apply sum_map_congr'
              intro x _
              rw [star_mul', star_mul']
              ring
        _ = 0 := by rw [sum_map_mul_left', this, mul_zero]
    have horR : ∀ x, ∀ w ∈ legBasis (keptBond keep (valueBond s)), ((legIndices legsR).map fun y =>
        star ((((legBasis (valueBond s)).filter fun z => !keep z).map fun z => entry l (x ++ [z]) * c (entry s [z]) * entry r (z :: y)).sum) *
          entry (SpT.truncateSvd o sqrt big l s r).r (w :: y)).sum = 0 := by
      intro x w hw
      obtain ⟨hw1, hw2⟩ := cameFrom_mem hm hw
      rw [sum_map_congr' _ _ _ (fun y hy => by
        rw [hR.rightEntry y (legIndices_len hy) w hw, star_sum_list, ← sum_map_mul_right'])]
      rw [sum_comm']
      apply sum_map_zero'
      intro z hz
      rw [List.mem_filter] at hz
      have hne : z ≠ cameFrom keep (valueBond s) w := by
        rintro rfl
        rw [hw2] at hz
        simp at hz
      have := hr z hz.1 _ hw1
      rw [if_neg hne] at this
      calc _ = ((legIndices legsR).map fun y => (star (c (entry s [z])) * star (entry l (x ++ [z]))) *
            (star (entry r (z :: y)) * entry r (cameFrom keep (valueBond s) w :: y))).sum := by
              apply sum_map_congr'
              intro y _
              rw [star_mul', star_mul']
              ring
        _ = 0 := by rw [sum_map_mul_left', this, mul_zero]
    refine ⟨?_, ?_, fun y _ => horL y, fun x _ => horR x, ?_⟩
    · intro z hz z' hz'
      rw [sum_map_congr' _ _ _ (fun x hx => by
        rw [hR.leftEntry x (legIndices_len hx) z hz, hR.leftEntry x (legIndices_len hx) z' hz'])]
      rw [hl _ (cameFrom_mem hm hz).1 _ (cameFrom_mem hm hz').1]
      simp only [cameFrom_inj hm hz hz']
    · intro z hz z' hz'
      rw [sum_map_congr' _ _ _ (fun x hx => by
        rw [hR.rightEntry x (legIndices_len hx) z hz, hR.rightEntry x (legIndices_len hx) z' hz'])]
      rw [hr _ (cameFrom_mem hm hz).1 _ (cameFrom_mem hm hz').1]
      simp only [cameFrom_inj hm hz hz']
    · intro he
      rw [parseval c hc hl hr _ (fun z hz => (List.mem_filter.1 hz).1) ((legBasis_nodup hm.1).filter _), herr, map_list_sum, List.map_map]
      apply sum_map_congr'
      intro z _
      simp [TruncOpts.weight, he]

end
end Verif

namespace Verif
section
variable {Q K V : Type} [DecidableEq Q] [AddCommGroup Q] [CommRing K] [CommRing V]

/-! ### Absorbing the singular values -/

theorem length_one_of_conforms {K : Type} {b : BondInfo Q} {s : SpT Q K} (h : Conforms [b] s) : ∀ x ∈ s, ∃ q n, x.1 = [q] ∧ x.2.shape = [n] ∧ Dict.get? b q = some n := by
  intro x hx
  have := h x hx
  generalize x.1 = qs at *
  generalize x.2.shape = sh at *
  cases this with
  | cons h1 h2 => cases h2; exact ⟨_, _, rfl, rfl, h1⟩

theorem diagOf_labels (c : V →+* K) {b : BondInfo Q} {s : SpT Q V} (h : Conforms [b] s) : DiagLabels (SpT.diagOf c s) := by
  intro x hx
  obtain ⟨y, hy, rfl⟩ := List.mem_map.1 hx
  obtain ⟨q, n, e, -⟩ := length_one_of_conforms h y hy
  exact ⟨q, by rw [e]; rfl⟩

theorem diagOf_conforms (c : V →+* K) {b : BondInfo Q} {s : SpT Q V} (h : Conforms [b] s) : Conforms [b, b] (SpT.diagOf c s) := by
  intro x hx
  obtain ⟨y, hy, rfl⟩ := List.mem_map.1 hx
  obtain ⟨q, n, e, e2, e3⟩ := length_one_of_conforms h y hy
  simp only [e, e2]
  exact .cons e3 (.cons e3 .nil)

theorem diagOf_entry (c : V →+* K) {b : BondInfo Q} {s : SpT Q V} (h : Conforms [b] s) (z w : Q × Nat) :
    entry (SpT.diagOf c s) [z, w] = if z = w then c (entry s [z]) else 0 := by
  unfold SpT.diagOf entry
  rw [List.map_map]
  have key : ∀ x ∈ s, blockEntry (x.1 ++ x.1, (⟨[x.2.shape.headD 0, x.2.shape.headD 0], fun ix => if ix.getD 0 0 = ix.getD 1 0 then c (x.2.get [ix.getD 0 0]) else 0⟩ : Arr K))
      [z, w] = if z = w then c (blockEntry x [z]) else 0 := by
    intro x hx
    obtain ⟨q, n, e, e2, e3⟩ := length_one_of_conforms h x hx
    obtain ⟨q1, t⟩ := z
    obtain ⟨q2, u⟩ := w
    unfold blockEntry
    simp only [e, e2, List.headD_cons, List.singleton_append, List.map_cons, List.map_nil, List.cons.injEq, and_true, inBox, Bool.and_true,
      Bool.and_eq_true, decide_eq_true_eq, List.getD_cons_zero, List.getD_cons_succ, Prod.mk.injEq]
    by_cases h1 : q = q1
    · subst h1
      by_cases h2 : q = q2
      · subst h2
        by_cases h3 : t = u
        · subst h3
          by_cases h4 : t < n <;> simp [h4]
        · simp [h3]
      · simp [h2]
    · by_cases h3 : q1 = q2
      · subst h3; simp [h1]
      · simp [h1]
  refine (congrArg List.sum (List.map_congr_left key)).trans ?_
  by_cases e : z = w
  · simp only [e, if_true]
    rw [map_list_sum, List.map_map]
    rfl
  · simp only [e, if_false]
    exact sum_map_zero' _ _ (fun _ _ => rfl)

theorem diag_mul {A B N : SpT Q K} {a b d : BondInfo Q} (hA : DiagLabels A) (hB : DiagLabels B) (cA : Conforms [a, b] A) (cB : Conforms [b, d] B)
    (hb : Dict.WF b) (h : SpT.tensordotN A B 1 = some N) : DiagLabels N := by
  have hc := (absorb_left hA cA cB hb h).1
  have := C13_charge A B N [-1] [0] 2 2 [1] [0] [true, false] [true, false] 0 0
      (fun c hc => by have := (cA c hc).lengths; simpa using this)
      (fun c hc => by have := (cB c hc).lengths; simpa using this)
      rfl rfl (by simp [NamesAxis]) (by simp [NamesAxis]) (by simp) (by simp) (by simp) (hA.conserves true) (hB.conserves true) (by simpa [SpT.tensordotN] using h)
  rw [freeAxes_last 1, freeAxes_zero 1] at this
  intro x hx
  have hl := (hc x hx).lengths.1
  have hx := this x hx
  obtain ⟨q, q', e⟩ := List.length_eq_two.1 hl
  rw [e] at hx ⊢
  simp [signedSum, List.range_succ] at hx
  refine ⟨q, ?_⟩
  have : q = q' := by
    rw [← sub_eq_add_neg] at hx
    exact sub_eq_zero.1 hx
  rw [this]

theorem values_left (c : V →+* K) {b r : BondInfo Q} {s : SpT Q V} {R N : SpT Q K} (hs : Conforms [b] s) (hR : Conforms [b, r] R) (hd : DiagLabels R)
    (hb : Dict.WF b) (h : SpT.tensordotN (SpT.diagOf c s) R 1 = some N) :
    Conforms [b, r] N ∧ DiagLabels N ∧ ∀ w ∈ legBasis b, ∀ z, entry N [w, z] = c (entry s [w]) * entry R [w, z] := by
  obtain ⟨h1, -, -, h4⟩ := absorb_left (diagOf_labels c hs) (diagOf_conforms c hs) hR hb h
  refine ⟨h1, diag_mul (diagOf_labels c hs) hd (diagOf_conforms c hs) hR hb h, ?_⟩
  intro w hw z
  rw [h4 w [z] rfl]
  rw [sum_map_congr' _ _ (fun v => if v = w then c (entry s [w]) * entry R [v, z] else 0) (fun v _ => by
    rw [diagOf_entry c hs]
    by_cases e : w = v
    · simp [e]
    · simp [e, Ne.symm e])]
  rw [sum_map_ite_eq' _ (legBasis_nodup hb), if_pos hw]

theorem values_right (c : V →+* K) {b l : BondInfo Q} {s : SpT Q V} {L N : SpT Q K} (hs : Conforms [b] s) (hL : Conforms [l, b] L) (hd : DiagLabels L)
    (hb : Dict.WF b) (h : SpT.tensordotN L (SpT.diagOf c s) 1 = some N) :
    Conforms [l, b] N ∧ DiagLabels N ∧ ∀ w ∈ legBasis b, ∀ z, entry N [z, w] = entry L [z, w] * c (entry s [w]) := by
  obtain ⟨h1, -, -, h4⟩ := absorb_right (legs := [l]) (diagOf_labels c hs) (diagOf_conforms c hs) hL hb h
  refine ⟨h1, diag_mul hd (diagOf_labels c hs) hL (diagOf_conforms c hs) hb h, ?_⟩
  intro w hw z
  have := h4 [z] w rfl
  simp only [List.singleton_append] at this
  rw [this]
  rw [sum_map_congr' _ _ (fun v => if v = w then entry L [z, v] * c (entry s [v]) else 0) (fun v _ => by
    rw [diagOf_entry c hs]
    by_cases e : v = w
    · simp [e]
    · simp [e])]
  rw [sum_map_ite_eq' _ (legBasis_nodup hb), if_pos hw]

end
end Verif
