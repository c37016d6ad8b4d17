import Verif.Proof.Sparse
import Verif.Thm.Fusing

/-!
Properties C10-C14: block-sparse tensors against the dense tensors they stand for.
-/

set_option linter.unusedSectionVars false

namespace Verif
variable {Q K : Type} [DecidableEq Q]

/-! ### C10 -/

section C10
variable [AddCommGroup Q]

theorem signedLabels_length (qs : List Q) (p : List Bool) :
    (BondFusingInfo.signedLabels qs p).length = min qs.length p.length := by
  simp [BondFusingInfo.signedLabels]

theorem dropLast_sum (l : List Q) (h : l ≠ []) :
    l.dropLast.foldl (· + ·) 0 + l.getLastD 0 = l.sum := by
  rw [← List.sum_eq_foldl]
  conv_rhs => rw [← List.dropLast_append_getLast h]
  rw [List.sum_append, List.getLastD_eq_getLast?, List.getLast?_eq_some_getLast h]
  simp

/-- C10: a skeleton over at least two legs contains exactly the combinations of labels whose signed sum is
the target charge (zero by default), with their multiplicities as shape. -/
theorem C10_skeleton_blocks (le : Q → Q → Bool) (infos : List (BondInfo Q)) (pattern : Option (List Bool))
    (dq : Option Q) (l : List (List Nat × List Q)) (hlen : 2 ≤ infos.length)
    (hp : ∀ p ∈ pattern, p.length = infos.length) (hw : ∀ b ∈ infos, Dict.WF b)
    (h : SpT.skeleton le infos pattern dq = some l) (sh : List Nat) (qs : List Q) :
    (sh, qs) ∈ l ↔ IsCombination infos qs sh ∧
      signedSum (pattern.getD (List.replicate (infos.length - 1) true ++ [false])) qs = dq.getD 0 := by
  unfold SpT.skeleton at h
  split_ifs at h
  simp only [Option.some.injEq] at h
  subst h
  set pat := pattern.getD (List.replicate (infos.length - 1) true ++ [false]) with hpat
  have hpl : pat.length = infos.length := by
    cases pattern with
    | none => simp [hpat]; omega
    | some p => simpa [hpat] using hp p rfl
  have key : ∀ x : List (Q × Nat), x.length = infos.length →
      (((BondFusingInfo.signedLabels (x.map Prod.fst) pat).length = 1 ∨
        (BondFusingInfo.signedLabels (x.map Prod.fst) pat).dropLast.foldl (· + ·) 0 =
        (match dq with
          | none => -(BondFusingInfo.signedLabels (x.map Prod.fst) pat).getLastD 0
          | some d => d - (BondFusingInfo.signedLabels (x.map Prod.fst) pat).getLastD 0)) ↔
       signedSum pat (x.map Prod.fst) = dq.getD 0) := by
    intro x hx
    have hl := signedLabels_length (x.map Prod.fst) pat
    rw [List.length_map, hx, hpl, Nat.min_self] at hl
    have hne : BondFusingInfo.signedLabels (x.map Prod.fst) pat ≠ [] := by
      intro h0; rw [h0] at hl; simp at hl; omega
    have hs := dropLast_sum _ hne
    have hc := BondFusingInfo.combine_eq (x.map Prod.fst) pat
    unfold BondFusingInfo.combine at hc
    rw [← List.sum_eq_foldl] at hc
    rw [← hc, ← hs, hl]
    have : ¬ infos.length = 1 := by omega
    simp only [this, false_or]
    cases dq with
    | none => simp only [Option.getD_none]; rw [add_eq_zero_iff_eq_neg]
    | some d => simp only [Option.getD_some]; rw [eq_sub_iff_add_eq]
  rw [← mem_items le infos hw, List.mem_filterMap]
  simp only [List.mem_map]
  have hmem : ∀ x, x ∈ cart (infos.map fun q => sortBy (fun x y => le x.1 y.1) q) → x.length = infos.length := by
    intro x hx
    have := ((mem_cart _ _).1 hx).length_eq
    simpa using this.symm
  constructor
  · rintro ⟨x, hx, hif⟩
    rw [Option.ite_none_right_eq_some] at hif
    obtain ⟨h1, h2⟩ := hif
    simp only [Option.some.injEq, Prod.mk.injEq] at h2
    obtain ⟨rfl, rfl⟩ := h2
    exact ⟨⟨x, hx, rfl⟩, (key x (hmem x hx)).1 h1⟩
  · rintro ⟨⟨x, hx, e⟩, h2⟩
    simp only [Prod.mk.injEq] at e
    obtain ⟨rfl, rfl⟩ := e
    refine ⟨x, hx, ?_⟩
    rw [Option.ite_none_right_eq_some]
    exact ⟨(key x (hmem x hx)).2 h2, rfl⟩

/-- C10: no combination of labels occurs twice. -/
theorem C10_skeleton_nodup (le : Q → Q → Bool) (infos : List (BondInfo Q)) (pattern : Option (List Bool))
    (dq : Option Q) (l : List (List Nat × List Q)) (hw : ∀ b ∈ infos, Dict.WF b)
    (h : SpT.skeleton le infos pattern dq = some l) : (l.map Prod.snd).Nodup := by
  unfold SpT.skeleton at h
  split_ifs at h
  simp only [Option.some.injEq] at h
  subst h
  have hn := items_nodup le infos hw
  rw [List.map_map] at hn
  have e : (Prod.fst ∘ fun x : List (Q × Nat) => (x.map Prod.fst, x.map Prod.snd)) = List.map Prod.fst := rfl
  rw [e] at hn
  refine hn.sublist ?_
  rw [List.map_filterMap, ← List.filterMap_eq_map]
  generalize cart (infos.map fun q => sortBy (fun x y => le x.1 y.1) q) = L
  induction L with
  | nil => simp
  | cons x t ih =>
    simp only [List.filterMap_cons, Function.comp]
    split
    · exact List.Sublist.cons _ ih
    · next y hy =>
      rw [Option.map_eq_some_iff] at hy
      obtain ⟨z, hz, rfl⟩ := hy
      rw [Option.ite_none_right_eq_some] at hz
      obtain ⟨_, hz⟩ := hz
      simp only [Option.some.injEq] at hz
      subst hz
      exact List.Sublist.cons_cons _ ih

/-- C10: a skeleton exists unless some bond is empty. -/
theorem C10_skeleton_total (le : Q → Q → Bool) (infos : List (BondInfo Q)) (pattern : Option (List Bool))
    (dq : Option Q) (h : ∀ b ∈ infos, b ≠ []) : (SpT.skeleton le infos pattern dq).isSome := by
  unfold SpT.skeleton
  rw [if_neg]
  · rfl
  · simpa [List.any_eq_true] using fun hm => h [] hm rfl

/-- C10: a tensor created from bonds lives on these bonds, has distinct labels and definite charge. -/
theorem C10_zeros [Zero K] (le : Q → Q → Bool) (infos : List (BondInfo Q)) (pattern : Option (List Bool))
    (dq : Option Q) (T : SpT Q K) (hlen : 2 ≤ infos.length)
    (hp : ∀ p ∈ pattern, p.length = infos.length) (hw : ∀ b ∈ infos, Dict.WF b)
    (h : SpT.zeros le infos pattern dq = some T) :
    Conforms infos T ∧ UniqueLabels T ∧
    Conserves (pattern.getD (List.replicate (infos.length - 1) true ++ [false])) (dq.getD 0) T := by
  unfold SpT.zeros at h
  rw [Option.map_eq_some_iff] at h
  obtain ⟨l, hl, rfl⟩ := h
  have hb := C10_skeleton_blocks le infos pattern dq l hlen hp hw hl
  refine ⟨?_, ?_, ?_⟩
  · intro b hb'
    obtain ⟨⟨sh, qs⟩, hm, rfl⟩ := List.mem_map.1 hb'
    exact ((hb sh qs).1 hm).1
  · unfold UniqueLabels
    rw [List.map_map]
    exact C10_skeleton_nodup le infos pattern dq l hw hl
  · intro b hb'
    obtain ⟨⟨sh, qs⟩, hm, rfl⟩ := List.mem_map.1 hb'
    exact ((hb sh qs).1 hm).2

end C10

/-! ### C11 -/

section C11

/-- C11: addition of block-sparse tensors on the same legs is entrywise addition.  Only the left
operand needs distinct labels. -/
theorem C11_add [AddCommMonoid K] (legs : List (BondInfo Q)) (A B : SpT Q K) (hA : Conforms legs A)
    (hB : Conforms legs B) (hu : UniqueLabels A) :
    Conforms legs (A.add B) ∧ UniqueLabels (A.add B) ∧
    ∀ x, entry (A.add B) x = entry A x + entry B x := by
  have e : A.foldl (fun m a => Dict.set m a.1 a.2) [] = A := by
    simpa using foldl_set_append (m := []) A hu
  unfold SpT.add
  rw [e]
  exact foldl_accumulate B A hA hB hu

theorem blockEntry_sub [AddCommGroup K] (q : List Q) (o w : Arr K) (h : o.shape = w.shape)
    (x : List (Q × Nat)) :
    blockEntry (q, o.sub w) x = blockEntry (q, o) x + blockEntry (q, w.neg) x := by
  unfold blockEntry Arr.sub Arr.neg
  simp only [h]
  split_ifs <;> simp [sub_eq_add_neg]

theorem blockEntry_neg [AddCommGroup K] (q : List Q) (w : Arr K) (x : List (Q × Nat)) :
    blockEntry (q, w.neg) x = -blockEntry (q, w) x := by
  unfold blockEntry Arr.neg
  simp only
  split_ifs <;> simp

/-- C11: subtraction of block-sparse tensors on the same legs is entrywise subtraction. -/
theorem C11_subtract [AddCommGroup K] (legs : List (BondInfo Q)) (A B : SpT Q K) (hA : Conforms legs A)
    (hB : Conforms legs B) (hu : UniqueLabels A) :
    Conforms legs (A.subtract B) ∧ UniqueLabels (A.subtract B) ∧
    ∀ x, entry (A.subtract B) x = entry A x - entry B x := by
  have e : A.foldl (fun m a => Dict.set m a.1 a.2) [] = A := by
    simpa using foldl_set_append (m := []) A hu
  unfold SpT.subtract
  rw [e]
  clear e
  induction B generalizing A with
  | nil => simp [hA, hu]
  | cons b t ih =>
    obtain ⟨hb, ht⟩ := Conforms.cons.1 hB
    simp only [List.foldl_cons]
    cases hg : Dict.get? A b.1 with
    | none =>
      simp only
      have := ih (Dict.set A b.1 b.2.neg) (hA.set (v := b.2.neg) hb) ht (Dict.WF.set hu _ _)
      refine ⟨this.1, this.2.1, fun x => ?_⟩
      rw [this.2.2, entry_set A b.1 _ x hg, blockEntry_neg, entry_cons]
      abel
    | some o =>
      simp only
      have hs : o.shape = b.2.shape := (hA.get hg).shape_unique hb
      have hsub : IsCombination legs b.1 (o.sub b.2).shape := by
        have := hA.get hg
        exact this
      have := ih (Dict.set A b.1 (o.sub b.2)) (hA.set hsub) ht (Dict.WF.set hu _ _)
      refine ⟨this.1, this.2.1, fun x => ?_⟩
      rw [this.2.2, entry_replace A b.1 o _ _ x hg (blockEntry_sub b.1 o b.2 hs x), blockEntry_neg, entry_cons]
      abel

/-- C11: multiplying by a number multiplies every entry. -/
theorem C11_smul [CommSemiring K] (c : K) (A : SpT Q K) (x : List (Q × Nat)) :
    entry (A.smul c) x = c * entry A x := by
  unfold entry SpT.smul
  rw [List.map_map, ← sum_map_mul_left']
  apply sum_map_congr'
  intro b _
  unfold blockEntry Arr.mapK
  simp only [Function.comp]
  split_ifs <;> simp

/-- C11: negation negates every entry. -/
theorem C11_neg [AddCommGroup K] (A : SpT Q K) (x : List (Q × Nat)) :
    entry A.neg x = -entry A x := by
  unfold SpT.neg
  induction A with
  | nil => simp
  | cons b t ih =>
    rw [List.map_cons, entry_cons, entry_cons, ih, blockEntry_neg, neg_add]

/-- A one-entry block, for examples. -/
def unitBlock (q : List Int) (v : Int) : List Int × Arr Int := (q, ⟨q.map fun _ => 1, fun _ => v⟩)

/-- C11, violation: with a label repeated in the left operand the addition loses a block.
Here `A` holds 1 + 2 at the only position, and `A + 0` holds 2. -/
theorem C11_duplicate_label_lost :
    let A : SpT Int Int := [unitBlock [0, 0] 1, unitBlock [0, 0] 2]
    entry A [(0, 0), (0, 0)] = 3 ∧ entry (A.add []) [(0, 0), (0, 0)] = 2 := by decide

/-- Operands with a common block and a block of their own meet the hypotheses of C11. -/
example : let A : SpT Int Int := [unitBlock [0, 0] 1, unitBlock [1, 1] 2]
    let B : SpT Int Int := [unitBlock [2, 2] 5, unitBlock [1, 1] 4]
    UniqueLabels A ∧ (A.add B).map Prod.fst = [[0, 0], [1, 1], [2, 2]] ∧
    entry (A.add B) [(1, 0), (1, 0)] = 6 ∧ entry (A.subtract B) [(2, 0), (2, 0)] = -5 := by
  decide

end C11

/-! ### C12 -/

section C12
variable [Zero Q] [CommSemiring K]

theorem freeAxes_eq (n : Nat) (idx : List Nat) : freeAxes n idx = SpT.outAxes n idx := by
  unfold freeAxes SpT.outAxes
  apply List.filter_congr
  simp

theorem ndim_eq {legs : List (BondInfo Q)} {T : SpT Q K} (h : Conforms legs T) (hne : T ≠ []) :
    T.ndim = legs.length := by
  cases T with
  | nil => simp at hne
  | cons b t => exact (h b List.mem_cons_self).lengths.2

theorem normAxis_eq {n : Nat} {x : Int} {i : Nat} (h : NamesAxis n x i) : SpT.normAxis n x = i := by
  obtain ⟨h1, h2⟩ := h
  unfold SpT.normAxis
  rcases h2 with rfl | rfl
  · simp
  · rw [if_neg (by omega)]; omega

theorem normAxes_eq {n : Nat} {ax : List Int} {idx : List Nat} (h : List.Forall₂ (NamesAxis n) ax idx) :
    ax.map (SpT.normAxis n) = idx := by
  induction h with
  | nil => rfl
  | cons h1 _ ih => simp [normAxis_eq h1, ih]

/-- The multi-index with `c` on contracted and `f` on free legs exists and is given by `unpick`. -/
theorem hasIndices_iff {n : Nat} {idx : List Nat} (hnd : idx.Nodup) (hlt : ∀ i ∈ idx, i < n)
    {c f y : List (Q × Nat)} (hc : c.length = idx.length) (hf : f.length = (freeAxes n idx).length) :
    HasIndices idx c f y ↔ y = unpick (idx ++ SpT.outAxes n idx) (c ++ f) := by
  have hp := idx_out_perm hnd hlt
  have hn := perm_range_length hp
  rw [freeAxes_eq] at hf
  rw [List.length_append] at hn
  constructor
  · rintro ⟨h1, h2, h3⟩
    have hy : y.length = n := by omega
    rw [hy, freeAxes_eq] at h3
    rw [eq_unpick_iff hp y _ hy (by simp; omega), pick_append, h2, h3]
  · rintro rfl
    have hl : (unpick (idx ++ SpT.outAxes n idx) (c ++ f)).length = n := by simp; omega
    have := pick_unpick hp (c ++ f) (by simp; omega)
    rw [pick_append] at this
    obtain ⟨e1, e2⟩ := List.append_inj this (by simp [hc])
    refine ⟨by omega, e1, ?_⟩
    rw [hl, freeAxes_eq, e2]

/-- C12: contraction of block-sparse tensors.  `A` lives on `legsA`, `B` on `legsB`; the axes name the
legs `idxa` of `A` and `idxb` of `B`, which carry the same bonds `legs`.  The contraction succeeds, lives on
the free legs, has distinct labels, and its entry at `(fa, fb)` is the sum over all basis vectors `c` of
the contracted legs of the products of entries. -/
theorem C12_tensordot (A B : SpT Q K) (axesA axesB : List Int) (legsA legsB legs : List (BondInfo Q))
    (idxa idxb : List Nat) (hA : Conforms legsA A) (hB : Conforms legsB B)
    (ha : List.Forall₂ (NamesAxis legsA.length) axesA idxa)
    (hb : List.Forall₂ (NamesAxis legsB.length) axesB idxb)
    (hnda : idxa.Nodup) (hndb : idxb.Nodup)
    (hla : idxa.map (fun i => legsA.getD i []) = legs) (hlb : idxb.map (fun i => legsB.getD i []) = legs)
    (hw : ∀ b ∈ legs, Dict.WF b) :
    ∃ R, SpT.tensordot A B axesA axesB = some R ∧
      Conforms ((freeAxes legsA.length idxa).map (fun i => legsA.getD i []) ++
        (freeAxes legsB.length idxb).map (fun i => legsB.getD i [])) R ∧
      UniqueLabels R ∧
      ∀ fa fb, fa.length = (freeAxes legsA.length idxa).length →
        fb.length = (freeAxes legsB.length idxb).length →
        ∀ (ya yb : List (Q × Nat) → List (Q × Nat)),
          (∀ c ∈ legIndices legs, HasIndices idxa c fa (ya c)) →
          (∀ c ∈ legIndices legs, HasIndices idxb c fb (yb c)) →
          entry R (fa ++ fb) = ((legIndices legs).map fun c => entry A (ya c) * entry B (yb c)).sum := by
  have hlta : ∀ i ∈ idxa, i < legsA.length := by
    intro i hi
    obtain ⟨j, hj, rfl⟩ := List.getElem_of_mem hi
    have := (List.forall₂_iff_get.1 ha).2 j (by rw [ha.length_eq]; exact hj) hj
    exact this.1
  have hltb : ∀ i ∈ idxb, i < legsB.length := by
    intro i hi
    obtain ⟨j, hj, rfl⟩ := List.getElem_of_mem hi
    have := (List.forall₂_iff_get.1 hb).2 j (by rw [hb.length_eq]; exact hj) hj
    exact this.1
  have hll : idxa.length = idxb.length := by
    have h1 := congrArg List.length hla
    have h2 := congrArg List.length hlb
    simp only [List.length_map] at h1 h2
    omega
  have hlen : ∀ c ∈ legIndices legs, c.length = idxa.length := by
    intro c hc
    have h := ((mem_cart _ _).1 hc).length_eq
    rw [List.length_map] at h
    rw [← h, ← hla, List.length_map]
  unfold SpT.tensordot
  simp only [List.length_map, ha.length_eq, hb.length_eq, hll, if_true]
  by_cases hne : A = [] ∨ B = []
  · have hR : ∀ o1 o2 i1 i2, SpT.tensordotCore A B i1 i2 o1 o2 = [] := by
      intro o1 o2 i1 i2
      rcases hne with rfl | rfl
      · rfl
      · rw [tensordotCore_eq]
        unfold contributions
        have : ∀ l : SpT Q K, (l.flatMap fun a => (List.filter (fun b => decide (pick i2 b.1 = pick i1 a.1))
          ([] : SpT Q K)).map fun b => (pick o1 a.1 ++ pick o2 b.1, a.2.tensordot b.2 i1 i2 o1 o2)) = [] := by
          intro l; induction l <;> simp
        rw [this]; rfl
    refine ⟨_, rfl, ?_, ?_, ?_⟩
    · rw [hR]; intro b hb; simp at hb
    · rw [hR]; simp [UniqueLabels]
    · intro fa fb _ _ ya yb _ _
      rw [hR, entry_nil]
      rw [sum_map_zero']
      intro c _
      rcases hne with rfl | rfl <;> simp
  · have hne : A ≠ [] ∧ B ≠ [] := by tauto
    rw [ndim_eq hA hne.1, ndim_eq hB hne.2, normAxes_eq ha, normAxes_eq hb]
    simp only [freeAxes_eq]
    refine ⟨_, rfl, ?_⟩
    rw [tensordotCore_eq]
    have hcon : Conforms ((SpT.outAxes legsA.length idxa).map (fun i => legsA.getD i []) ++
        (SpT.outAxes legsB.length idxb).map (fun i => legsB.getD i []))
        (contributions A B idxa idxb (SpT.outAxes legsA.length idxa) (SpT.outAxes legsB.length idxb)) := by
      intro d hd
      unfold contributions at hd
      rw [List.mem_flatMap] at hd
      obtain ⟨a, hma, hd⟩ := hd
      obtain ⟨b, hmb, rfl⟩ := List.mem_map.1 hd
      have h1 := (hA a hma).pick (axes := SpT.outAxes legsA.length idxa)
        (fun i hi => (mem_outAxes.1 hi).1)
      have h2 := (hB b (List.mem_of_mem_filter hmb)).pick (axes := SpT.outAxes legsB.length idxb)
        (fun i hi => (mem_outAxes.1 hi).1)
      exact h1.append h2
    have hfold := foldl_accumulate (contributions A B idxa idxb (SpT.outAxes legsA.length idxa)
      (SpT.outAxes legsB.length idxb)) [] (by intro b hb; simp at hb) hcon (by simp [UniqueLabels])
    refine ⟨hfold.1, hfold.2.1, ?_⟩
    intro fa fb hfa hfb ya yb hya hyb
    rw [hfold.2.2, entry_nil, zero_add]
    have hya' : ∀ c ∈ legIndices legs, ya c = unpick (idxa ++ SpT.outAxes legsA.length idxa) (c ++ fa) :=
      fun c hc => (hasIndices_iff hnda hlta (hlen c hc) (by rw [freeAxes_eq]; exact hfa)).1 (hya c hc)
    have hyb' : ∀ c ∈ legIndices legs, yb c = unpick (idxb ++ SpT.outAxes legsB.length idxb) (c ++ fb) :=
      fun c hc => (hasIndices_iff hndb hltb ((hlen c hc).trans hll)
        (by rw [freeAxes_eq]; exact hfb)).1 (hyb c hc)
    have expand : ∀ c ∈ legIndices legs, entry A (ya c) * entry B (yb c) =
        (A.map fun a => (B.map fun b =>
          blockEntry a (unpick (idxa ++ SpT.outAxes legsA.length idxa) (c ++ fa)) *
          blockEntry b (unpick (idxb ++ SpT.outAxes legsB.length idxb) (c ++ fb))).sum).sum := by
      intro c hc
      rw [hya' c hc, hyb' c hc]
      unfold entry
      rw [← sum_map_mul_right']
      apply sum_map_congr'
      intro a _
      rw [sum_map_mul_left']
    rw [sum_map_congr' _ _ _ expand, sum_comm']
    unfold contributions entry
    rw [sum_flatMap']
    apply sum_map_congr'
    intro a hma
    rw [List.map_map, sum_filter', sum_comm']
    apply sum_map_congr'
    intro b hmb
    rw [pair_entry legsA legsB legs hw a b idxa idxb (hA a hma) (hB b hmb) hnda hndb hlta hltb hla hlb
      fa fb hfa hfb]
    simp

/-- C12: `axes=N` contracts the last `N` legs of `a` with the first `N` legs of `b`, in order. -/
theorem C12_tensordot_int (A B : SpT Q K) (n : Nat) (legsA legsB : List (BondInfo Q)) (legs : List (BondInfo Q))
    (hA : Conforms (legsA ++ legs) A) (hB : Conforms (legs ++ legsB) B) (hn : legs.length = n)
    (hw : ∀ b ∈ legs, Dict.WF b) :
    ∃ R, SpT.tensordotN A B n = some R ∧ Conforms (legsA ++ legsB) R ∧ UniqueLabels R ∧
      ∀ fa fb, fa.length = legsA.length → fb.length = legsB.length →
        entry R (fa ++ fb) = ((legIndices legs).map fun c => entry A (fa ++ c) * entry B (c ++ fb)).sum := by
  subst hn
  have fa_eq : freeAxes (legsA ++ legs).length ((List.range legs.length).map (· + legsA.length)) =
      List.range legsA.length := by
    unfold freeAxes
    rw [List.length_append, List.range_add, List.filter_append, List.filter_eq_self.2, List.filter_eq_nil_iff.2]
    · simp
    · intro a ha
      obtain ⟨i, hi, rfl⟩ := List.mem_map.1 ha
      simp at hi
      simpa [Nat.add_comm] using hi
    · intro a ha
      simp only [List.mem_range] at ha
      simp only [List.mem_map, List.mem_range, not_exists, not_and, decide_eq_true_eq]
      intro i _; omega
  have fb_eq : freeAxes (legs ++ legsB).length (List.range legs.length) =
      (List.range legsB.length).map (legs.length + ·) := by
    unfold freeAxes
    rw [List.length_append, List.range_add, List.filter_append, List.filter_eq_nil_iff.2, List.filter_eq_self.2]
    · simp
    · intro a ha
      obtain ⟨i, hi, rfl⟩ := List.mem_map.1 ha
      simp
    · intro a ha
      simpa using ha
  have pick_r : ∀ {α : Type} [Zero α] (u v : List α), pick ((List.range v.length).map (· + u.length)) (u ++ v) = v := by
    intro α _ u v
    apply List.ext_getElem
    · simp
    · intro i h1 h2
      simp only [pick, List.getElem_map, List.getElem_range, List.getD_eq_getElem?_getD]
      rw [List.getElem?_append_right (by omega)]; simp [h2]
  have pick_l : ∀ {α : Type} [Zero α] (u v : List α), pick (List.range u.length) (u ++ v) = u := by
    intro α _ u v
    apply List.ext_getElem
    · simp
    · intro i h1 h2
      simp only [pick, List.getElem_map, List.getElem_range, List.getD_eq_getElem?_getD]
      rw [List.getElem?_append_left h2]; simp [h2]
  have pick_r' : ∀ {α : Type} [Zero α] (u v : List α), pick ((List.range v.length).map (u.length + ·)) (u ++ v) = v := by
    intro α _ u v
    conv_rhs => rw [← pick_r u v]
    congr 1
    apply List.map_congr_left
    intro i _; omega
  have h := C12_tensordot A B ((List.range legs.length).map fun i : Nat => (i : Int) - (legs.length : Int))
    ((List.range legs.length).map fun i : Nat => (i : Int)) (legsA ++ legs) (legs ++ legsB) legs
    ((List.range legs.length).map (· + legsA.length)) (List.range legs.length) hA hB
    (by
      rw [List.forall₂_map_left_iff, List.forall₂_map_right_iff, List.forall₂_same]
      intro i hi
      simp only [List.mem_range] at hi
      refine ⟨by simp; omega, Or.inr ?_⟩
      simp only [List.length_append]; push_cast; omega)
    (by
      rw [List.forall₂_map_left_iff, List.forall₂_same]
      intro i hi
      simp only [List.mem_range] at hi
      exact ⟨by simp; omega, Or.inl rfl⟩)
    (by
      apply List.Nodup.map _ List.nodup_range
      intro a b h; simpa using h)
    List.nodup_range (pick_r legsA legs) (pick_l legs legsB) hw
  obtain ⟨R, h1, h2, h3, h4⟩ := h
  refine ⟨R, h1, ?_, h3, ?_⟩
  · rw [fa_eq, fb_eq] at h2
    have e1 := pick_l legsA legs
    have e2 := pick_r' legs legsB
    unfold pick at e1 e2
    change Conforms ((List.range legsA.length).map (fun i => (legsA ++ legs).getD i 0) ++
      ((List.range legsB.length).map (legs.length + ·)).map (fun i => (legs ++ legsB).getD i 0)) R at h2
    rw [e1, e2] at h2
    exact h2
  · intro fa fb hfa hfb
    refine h4 fa fb (by rw [fa_eq]; simpa using hfa) (by rw [fb_eq]; simpa using hfb)
      (fun c => fa ++ c) (fun c => c ++ fb) ?_ ?_
    · intro c hc
      have hcl : c.length = legs.length := by
        have h := ((mem_cart _ _).1 hc).length_eq
        simpa using h.symm
      refine ⟨by simp [Nat.add_comm], ?_, ?_⟩
      · rw [← hfa, ← hcl]; exact pick_r fa c
      · have : (fa ++ c).length = (legsA ++ legs).length := by simp [hfa, hcl]
        rw [this, fa_eq, ← hfa]; exact pick_l fa c
    · intro c hc
      have hcl : c.length = legs.length := by
        have h := ((mem_cart _ _).1 hc).length_eq
        simpa using h.symm
      refine ⟨by simp, ?_, ?_⟩
      · rw [← hcl]; exact pick_l c fb
      · have : (c ++ fb).length = (legs ++ legsB).length := by simp [hfb, hcl]
        rw [this, fb_eq, ← hfb, ← hcl]; exact pick_r' c fb

/-- C12: axis lists of different length are rejected. -/
theorem C12_reject (A B : SpT Q K) (axesA axesB : List Int) (h : axesA.length ≠ axesB.length) :
    SpT.tensordot A B axesA axesB = none := by
  unfold SpT.tensordot
  simp [h]

end C12

/-! ### C13 -/

section C13
variable [AddCommGroup Q]

/-- Signed sum as a sum over leg numbers. -/
theorem signedSum_range (p : List Bool) (qs : List Q) (h : p.length = qs.length) :
    signedSum p qs = ((List.range qs.length).map fun i =>
      if p.getD i false then qs.getD i 0 else -qs.getD i 0).sum := by
  induction qs generalizing p with
  | nil => simp [signedSum]
  | cons q t ih =>
    cases p with
    | nil => simp at h
    | cons s p =>
      have := ih p (by simpa using h)
      unfold signedSum at this ⊢
      simp only [List.zip_cons_cons, List.map_cons, List.sum_cons, this, List.length_cons,
        List.range_succ_eq_map, List.map_map]
      rfl

theorem signedSum_pick (p : List Bool) (qs : List Q) (axes : List Nat) :
    signedSum (axes.map fun i => p.getD i false) (pick axes qs) =
      (axes.map fun i => if p.getD i false then qs.getD i 0 else -qs.getD i 0).sum := by
  unfold signedSum pick
  rw [List.zip_map', List.map_map]; rfl

theorem signedSum_append (p1 p2 : List Bool) (q1 q2 : List Q) (h : p1.length = q1.length) :
    signedSum (p1 ++ p2) (q1 ++ q2) = signedSum p1 q1 + signedSum p2 q2 := by
  unfold signedSum
  rw [List.zip_append h, List.map_append, List.sum_append]

theorem mem_accumulate_labels [Add K] (l : List (List Q × Arr K)) (m : SpT Q K) (b : List Q × Arr K)
    (h : b ∈ l.foldl (fun m b => SpT.accumulate m b.1 b.2) m) :
    b.1 ∈ m.map Prod.fst ∨ b.1 ∈ l.map Prod.fst := by
  induction l generalizing m with
  | nil => exact Or.inl (List.mem_map.2 ⟨b, h, rfl⟩)
  | cons a t ih =>
    rcases ih _ h with h | h
    · unfold SpT.accumulate at h
      have : b.1 = a.1 ∨ b.1 ∈ m.map Prod.fst := by
        simp only at h
        split at h <;> exact Dict.mem_map_fst_set.1 h
      rcases this with h | h
      · exact Or.inr (by simp [h])
      · exact Or.inl h
    · exact Or.inr (by simp only [List.map_cons, List.mem_cons]; exact Or.inr h)

/-- C13: if `A` has charge `dqa` with signs `pa`, `B` has charge `dqb` with signs `pb`, and contracted legs carry
opposite signs, then every block of the contraction has charge `dqa + dqb` with the signs of the free legs. -/
theorem C13_charge [CommSemiring K] (A B R : SpT Q K) (axesA axesB : List Int) (na nb : Nat)
    (idxa idxb : List Nat) (pa pb : List Bool) (dqa dqb : Q)
    (hra : ∀ b ∈ A, b.1.length = na ∧ b.2.shape.length = na)
    (hrb : ∀ b ∈ B, b.1.length = nb ∧ b.2.shape.length = nb)
    (hpa : pa.length = na) (hpb : pb.length = nb)
    (ha : List.Forall₂ (NamesAxis na) axesA idxa) (hb : List.Forall₂ (NamesAxis nb) axesB idxb)
    (hnda : idxa.Nodup) (hndb : idxb.Nodup)
    (hopp : List.Forall₂ (fun i j => pa.getD i false = !pb.getD j false) idxa idxb)
    (hA : Conserves pa dqa A) (hB : Conserves pb dqb B)
    (hR : SpT.tensordot A B axesA axesB = some R) :
    Conserves ((freeAxes na idxa).map (fun i => pa.getD i false) ++
      (freeAxes nb idxb).map (fun i => pb.getD i false)) (dqa + dqb) R := by
  have hlta : ∀ i ∈ idxa, i < na := by
    intro i hi
    obtain ⟨j, hj, rfl⟩ := List.getElem_of_mem hi
    have := (List.forall₂_iff_get.1 ha).2 j (by rw [ha.length_eq]; exact hj) hj
    exact this.1
  have hltb : ∀ i ∈ idxb, i < nb := by
    intro i hi
    obtain ⟨j, hj, rfl⟩ := List.getElem_of_mem hi
    have := (List.forall₂_iff_get.1 hb).2 j (by rw [hb.length_eq]; exact hj) hj
    exact this.1
  unfold SpT.tensordot at hR
  simp only at hR
  split_ifs at hR
  simp only [Option.some.injEq] at hR
  subst hR
  intro r hr
  by_cases hA0 : A = []
  · subst hA0; simp [SpT.tensordotCore] at hr
  have hdA : A.ndim = na := by
    cases A with
    | nil => simp at hA0
    | cons b t => exact (hra b List.mem_cons_self).2
  rw [tensordotCore_eq] at hr
  have hm := mem_accumulate_labels _ _ _ hr
  simp only [List.map_nil, List.not_mem_nil, false_or] at hm
  unfold contributions at hm
  rw [List.mem_map] at hm
  obtain ⟨d, hd, hde⟩ := hm
  rw [List.mem_flatMap] at hd
  obtain ⟨a, hma, hd⟩ := hd
  obtain ⟨b, hmb, rfl⟩ := List.mem_map.1 hd
  rw [List.mem_filter] at hmb
  obtain ⟨hmb, hlab⟩ := hmb
  have hdB : B.ndim = nb := by
    cases B with
    | nil => simp at hmb
    | cons b' t => exact (hrb b' List.mem_cons_self).2
  rw [hdA, hdB, normAxes_eq ha, normAxes_eq hb] at hde hlab
  simp only [decide_eq_true_eq] at hlab
  simp only at hde
  rw [← hde, freeAxes_eq, freeAxes_eq, signedSum_append _ _ _ _ (by simp), signedSum_pick, signedSum_pick]
  have sA := hA a hma
  have sB := hB b hmb
  rw [signedSum_range _ _ (by rw [hpa, (hra a hma).1]), (hra a hma).1] at sA
  rw [signedSum_range _ _ (by rw [hpb, (hrb b hmb).1]), (hrb b hmb).1] at sB
  have pA := ((idx_out_perm hnda hlta).map fun i =>
    if pa.getD i false then a.1.getD i 0 else -a.1.getD i 0).sum_eq
  have pB := ((idx_out_perm hndb hltb).map fun i =>
    if pb.getD i false then b.1.getD i 0 else -b.1.getD i 0).sum_eq
  rw [List.map_append, List.sum_append, sA] at pA
  rw [List.map_append, List.sum_append, sB] at pB
  have canc : (idxa.map fun i => if pa.getD i false then a.1.getD i 0 else -a.1.getD i 0).sum +
      (idxb.map fun i => if pb.getD i false then b.1.getD i 0 else -b.1.getD i 0).sum = 0 := by
    clear pA pB hde hd ha hb hnda hndb hlta hltb hr
    induction hopp with
    | nil => simp
    | @cons i j is js h1 h2 ih =>
      simp only [pick_cons, List.cons.injEq] at hlab
      have ih := ih hlab.2
      simp only [List.map_cons, List.sum_cons]
      rw [h1, hlab.1]
      have : ∀ (u v w z : Q), u + v = 0 → w + z = 0 → (u + w) + (v + z) = 0 := by
        intro u v w z h1 h2
        rw [add_add_add_comm, h1, h2, add_zero]
      apply this _ _ _ _ _ ih
      cases pb.getD j false <;> simp
  rw [← pA, ← pB]
  generalize (idxa.map fun i => if pa.getD i false then a.1.getD i 0 else -a.1.getD i 0).sum = u at canc ⊢
  generalize (idxb.map fun i => if pb.getD i false then b.1.getD i 0 else -b.1.getD i 0).sum = v at canc ⊢
  rw [add_add_add_comm, canc, zero_add]

end C13

/-! ### C14 -/

section C14
variable [Zero Q] [AddCommMonoid K]

/-- C14: the entries of the transposed tensor are those of the original at the permuted index: axis `i` of
the result is axis `axes[i]` of the input. -/
theorem C14_entry (legs : List (BondInfo Q)) (T : SpT Q K) (hT : Conforms legs T) (axes : List Nat)
    (hax : axes.Perm (List.range legs.length)) (x : List (Q × Nat)) (hx : x.length = legs.length) :
    entry (T.transpose (some axes)) (axes.map fun i => x.getD i 0) = entry T x := by
  unfold entry SpT.transpose
  rw [List.map_map]
  apply sum_map_congr'
  intro b hb
  have hl := (hT b hb).lengths
  change blockEntry (pick axes b.1, b.2.transpose axes) (pick axes x) = blockEntry b x
  unfold blockEntry Arr.transpose
  rw [map_pick Prod.fst rfl, map_pick Prod.snd rfl]
  simp only
  have e1 : (pick axes b.1 = pick axes (x.map Prod.fst)) ↔ b.1 = x.map Prod.fst := by
    constructor
    · intro h
      rw [← unpick_pick hax b.1 hl.1, h, unpick_pick hax _ (by simp [hx])]
    · intro h; rw [h]
  have e2 := inBox_unpick hax b.2.shape (pick axes (x.map Prod.snd)) hl.2
    (by rw [pick_length, perm_range_length hax])
  rw [← e2, unpick_pick hax _ (by simp [hx])]
  simp only [e1]

/-- C14: the transposed tensor lives on the permuted legs. -/
theorem C14_conforms (legs : List (BondInfo Q)) (T : SpT Q K) (hT : Conforms legs T) (axes : List Nat)
    (hax : axes.Perm (List.range legs.length)) :
    Conforms (axes.map fun i => legs.getD i []) (T.transpose (some axes)) := by
  intro b hb
  obtain ⟨a, ha, rfl⟩ := List.mem_map.1 hb
  exact (hT a ha).pick (axes := axes) (fun i hi => by simpa using hax.mem_iff.1 hi)

/-- C14: transposing by `p` and then by `q` is transposing once by `i ↦ p[q[i]]`. -/
theorem C14_compose (legs : List (BondInfo Q)) (T : SpT Q K) (hT : Conforms legs T) (p q : List Nat)
    (hp : p.Perm (List.range legs.length)) (hq : q.Perm (List.range legs.length))
    (x : List (Q × Nat)) (hx : x.length = legs.length) :
    entry ((T.transpose (some p)).transpose (some q)) x =
      entry (T.transpose (some (q.map fun i => p.getD i 0))) x := by
  have hnp := perm_range_length hp
  have hnq := perm_range_length hq
  -- write `x` as the image of its original index
  have hcomp : (q.map fun i => p.getD i 0).Perm (List.range legs.length) := by
    have h1 : (q.map fun i => p.getD i 0).Perm ((List.range legs.length).map fun i => p.getD i 0) :=
      hq.map _
    have h2 : ((List.range legs.length).map fun i => p.getD i 0) = p := by
      have := pick_range p
      rw [hnp] at this; exact this
    rw [h2] at h1
    exact h1.trans hp
  have hcomp_pick : ∀ v : List (Q × Nat), pick (q.map fun i => p.getD i 0) v = pick q (pick p v) := by
    intro v
    unfold pick
    rw [List.map_map]
    apply List.map_congr_left
    intro i hi
    have hi' : i < p.length := by rw [hnp]; simpa using hq.mem_iff.1 hi
    simp [List.getD_eq_getElem?_getD, hi']
  set y := unpick (q.map fun i => p.getD i 0) x with hy
  have hyl : y.length = legs.length := by rw [hy, unpick_length, perm_range_length hcomp]
  have hxy : x = pick (q.map fun i => p.getD i 0) y := (pick_unpick hcomp x hx).symm
  rw [hxy]
  have e1 := C14_entry legs T hT (q.map fun i => p.getD i 0) hcomp y hyl
  have hl2 : (p.map fun i => legs.getD i []).length = legs.length := by simp [hnp]
  have e2 := C14_entry (p.map fun i => legs.getD i []) (T.transpose (some p)) (C14_conforms legs T hT p hp) q
    (by rw [hl2]; exact hq) (pick p y) (by rw [hl2, pick_length, hnp])
  have e3 := C14_entry legs T hT p hp y hyl
  change entry _ (pick _ _) = _ at e1 e2 e3
  rw [e1, hcomp_pick, e2, e3]

/-- C14: transposing by a permutation and then by its inverse gives the tensor back. -/
theorem C14_inverse (legs : List (BondInfo Q)) (T : SpT Q K) (hT : Conforms legs T) (p q : List Nat)
    (hp : p.Perm (List.range legs.length)) (hq : q.Perm (List.range legs.length))
    (hinv : (q.map fun i => p.getD i 0) = List.range legs.length)
    (x : List (Q × Nat)) (hx : x.length = legs.length) :
    entry ((T.transpose (some p)).transpose (some q)) x = entry T x := by
  rw [C14_compose legs T hT p q hp hq x hx, hinv]
  have := C14_entry legs T hT (List.range legs.length) (List.Perm.refl _) x hx
  have e := pick_range x
  unfold pick at e
  rw [← hx] at this ⊢
  rw [e] at this
  exact this

/-- C14: without axes the legs are reversed. -/
theorem C14_default (legs : List (BondInfo Q)) (T : SpT Q K) (hT : Conforms legs T)
    (x : List (Q × Nat)) (hx : x.length = legs.length) :
    entry (T.transpose none) x.reverse = entry T x := by
  have hr : (List.range legs.length).reverse.Perm (List.range legs.length) := List.reverse_perm _
  have h := C14_entry legs T hT (List.range legs.length).reverse hr x hx
  have e1 : T.transpose none = T.transpose (some (List.range legs.length).reverse) := by
    unfold SpT.transpose
    apply List.map_congr_left
    intro b hb
    simp only [Option.getD_none, Option.getD_some, (hT b hb).lengths.2]
  have e2 : ((List.range legs.length).reverse.map fun i => x.getD i 0) = x.reverse := by
    rw [List.map_reverse]
    congr 1
    have := pick_range x
    unfold pick at this
    rw [hx] at this; exact this
  rw [e1, ← e2, h]

end C14

/-! ### Concrete cases meeting the hypotheses -/

/-- A skeleton over three legs with two allowed blocks. -/
example : let b : BondInfo Int := [(1, 3), (0, 2)]
    (∀ x ∈ [b, b, b], Dict.WF x) ∧
    SpT.skeleton (fun x y => decide (x ≤ y)) [b, b, b] none (some 1) =
      some [([2, 3, 2], [0, 1, 0]), ([3, 2, 2], [1, 0, 0]), ([3, 3, 3], [1, 1, 1])] := by decide

/-- Bonds and tensors used in the examples: sectors 0 (dimension 2) and 1 (dimension 1). -/
def exBond : BondInfo Int := [(0, 2), (1, 1)]
def exA : SpT Int Int :=
  [([0, 0], ⟨[2, 2], fun i => 10 * (i.getD 0 0 : Int) + i.getD 1 0 + 1⟩), ([1, 1], ⟨[1, 1], fun _ => 7⟩)]
def exB : SpT Int Int :=
  [([0, 0], ⟨[2, 2], fun i => (i.getD 0 0 : Int) - 3 * i.getD 1 0⟩), ([1, 1], ⟨[1, 1], fun _ => 5⟩)]

/-- Contraction over the last leg of `exA` (named -1) and the second leg of `exB` (named 1): hypotheses of C12
and C13 hold, and one entry is `1 * 1 + 2 * (1 - 3)`. -/
example : Conforms [exBond, exBond] exA ∧ Conforms [exBond, exBond] exB ∧ Dict.WF exBond ∧
    List.Forall₂ (NamesAxis 2) [-1] [1] ∧ List.Forall₂ (NamesAxis 2) [1] [1] ∧
    Conserves [true, false] 0 exA ∧ Conserves [false, true] 0 exB ∧
    (SpT.tensordot exA exB [-1] [1]).map (fun R => entry R [(0, 0), (0, 1)]) = some (1 * 1 + 2 * (1 - 3)) := by
  refine ⟨by decide, by decide, by decide, ?_, ?_, by decide, by decide, by decide⟩ <;>
  · refine .cons ?_ .nil
    unfold NamesAxis
    decide

/-- A transposition by a cyclic permutation of three legs. -/
example : let T : SpT Int Int := [([0, 1, 1], ⟨[2, 1, 1], fun i => i.getD 0 0 + 5⟩)]
    Conforms [exBond, exBond, exBond] T ∧ [1, 2, 0].Perm (List.range 3) ∧
    entry (T.transpose (some [1, 2, 0])) [(1, 0), (1, 0), (0, 1)] = 6 := by decide

end Verif
