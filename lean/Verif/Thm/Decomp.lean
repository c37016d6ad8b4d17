import Verif.Proof.Decomp

/-! C62: the splitting of the tensor of two sites by the density matrix. -/

set_option linter.unusedSectionVars false

namespace Verif
namespace Decomp

section
variable {Q K V : Type} [DecidableEq Q]

theorem keepLeft_sublist [Zero Q] [Zero V] (s : SpT Q V) (gs : List (Nat × List Nat)) (l : SpT Q K) : ((SpT.keepLeft s gs l).map Prod.fst).Sublist (l.map Prod.fst) := by
  induction gs generalizing l with
  | nil => simp [SpT.keepLeft]
  | cons g gs ih =>
    rw [SpT.keepLeft]
    set l1 := l.dropWhile fun b => decide (b.1.getLastD 0 ≠ (SpT.svBlock s g.1).1)
    rw [List.map_append, List.map_map]
    have h1 : l1.Sublist l := List.dropWhile_sublist _
    refine List.Sublist.trans ?_ (h1.map Prod.fst)
    conv_rhs => rw [← List.takeWhile_append_dropWhile (p := fun b => decide (b.1.getLastD 0 = (SpT.svBlock s g.1).1)) (l := l1)]
    rw [List.map_append]
    exact List.Sublist.append (List.Sublist.refl _) (ih _)

theorem keepRight_sublist [Zero Q] [Zero V] (s : SpT Q V) (gs : List (Nat × List Nat)) (l : SpT Q K) : ((SpT.keepRight s gs l).map Prod.fst).Sublist (l.map Prod.fst) := by
  induction gs generalizing l with
  | nil => simp [SpT.keepRight]
  | cons g gs ih =>
    rw [SpT.keepRight]
    set l1 := l.dropWhile fun b => decide (b.1.getD 0 0 ≠ (SpT.svBlock s g.1).1)
    rw [List.map_append, List.map_map]
    have h1 : l1.Sublist l := List.dropWhile_sublist _
    refine List.Sublist.trans ?_ (h1.map Prod.fst)
    conv_rhs => rw [← List.takeWhile_append_dropWhile (p := fun b => decide (b.1.getD 0 0 = (SpT.svBlock s g.1).1)) (l := l1)]
    rw [List.map_append]
    exact List.Sublist.append (List.Sublist.refl _) (ih _)

theorem mapM_some {α β : Type} {f : α → Option β} {g : α → β} {l : List α} (h : ∀ a ∈ l, f a = some (g a)) : l.mapM f = some (l.map g) := by
  induction l with
  | nil => rfl
  | cons a l ih =>
    rw [List.mapM_cons, h a (by simp), ih fun b hb => h b (by simp [hb])]
    rfl

theorem sum_list {α : Type} [DecidableEq α] {l : List α} (h : l.Nodup) (g : α → ℝ) : ∑ x ∈ l.toFinset, g x = (l.map g).sum := List.sum_toFinset g h

theorem sum_zip {α : Type} (l : List α) (g : α → ℝ) : ∑ i : Fin l.length, g (l.get i) = (l.map g).sum := by
  conv_rhs => rw [← List.ofFn_get l, List.map_ofFn, List.sum_ofFn]
  rfl

end

section
variable {Q : Type} [DecidableEq Q] [AddCommGroup Q]

/-- Singular vectors of a truncated decomposition of a square matrix. -/
structure CutDm (legs : List (BondInfo Q)) (patL patR : List Bool) (dm : SpT Q ℝ) (o : TruncOpts ℝ) (l : SpT Q ℝ) (s : SpT Q ℝ) (r : SpT Q ℝ) (t : SpT.Truncation Q ℝ ℝ)
    (keep : Q × Nat → Bool) : Prop where
  goodS : GoodBond (valueBond s)
  left : Conforms (legs ++ [keptBond keep (valueBond s)]) t.l ∧ UniqueLabels t.l ∧ Conserves (patL ++ [false]) 0 t.l
  right : Conforms (keptBond keep (valueBond s) :: legs) t.r ∧ UniqueLabels t.r ∧ Conserves (true :: patR) 0 t.r
  leftEntry : ∀ x, x.length = legs.length → ∀ z ∈ legBasis (keptBond keep (valueBond s)), entry t.l (x ++ [z]) = entry l (x ++ [cameFrom keep (valueBond s) z])
  rightEntry : ∀ x, x.length = legs.length → ∀ z ∈ legBasis (keptBond keep (valueBond s)), entry t.r (z :: x) = entry r (cameFrom keep (valueBond s) z :: x)
  isoL : LeftIsometric legs (valueBond s) l
  isoR : RightIsometric (valueBond s) legs r
  nonneg : ∀ z ∈ legBasis (valueBond s), 0 ≤ entry s [z]
  product : ∀ x x', x.length = legs.length → x'.length = legs.length →
    ((legBasis (valueBond s)).map fun z => entry l (x ++ [z]) * entry s [z] * entry r (z :: x')).sum = entry dm (x ++ x')
  error : t.error = (((legBasis (valueBond s)).filter fun z => !keep z).map fun z => entry s [z]).sum
  largest : ∀ z ∈ legBasis (valueBond s), ∀ z' ∈ legBasis (valueBond s), keep z = true → keep z' = false → entry s [z'] ≤ entry s [z]
  dim : 0 ≤ o.maxBondDim → (legBasis (keptBond keep (valueBond s))).length ≤ o.maxBondDim.toNat
  all : o.cutoff = 0 → o.maxBondDim = -1 → ∀ z ∈ legBasis (valueBond s), keep z = true
  cut : o.cutoff ≠ 0 → o.maxBondDim = -1 → ∀ z ∈ legBasis (valueBond s), keep z = decide (o.cutoff ≤ entry s [z])

theorem cut_dm {leL : List Q → List Q → Bool} (ho : TSvd.IsOrder leL) {svd : Arr ℝ → Arr ℝ × Arr ℝ × Arr ℝ} (h1 : IsSvd id svd) (h2 : SvdUnitary svd)
    (h3 : FermSplit.SvdSorted svd) {big : Arr ℝ → Bool} (hbig : RemovesZeros big) (sqrt : ℝ → ℝ) (cutoff : ℝ) (dim : Int) {legs : List (BondInfo Q)} {patL patR : List Bool}
    {dm : SpT Q ℝ} (hin : TSvd.Input legs legs patL patR dm) (hne : dm ≠ []) (hl : legs ≠ []) :
    ∃ l s r keep, dm.tensorSvd leL svd id legs.length (patL ++ patR) = some (l, s, r) ∧
      CutDm legs patL patR dm ⟨dim, cutoff, 0, true⟩ l s r (SpT.truncateSvd ⟨dim, cutoff, 0, true⟩ sqrt big l s r) keep := by
  obtain ⟨l, s, r, e, v, cl, cr, ul, ur, sl, sr, kl, kr, hp, hi, hs⟩ := TSvd.C61_decomposition id h1 ho (real := id) rfl hin hne hl hl
  obtain ⟨keep, hR, herr, hbigg, hdim, -, hall, hc1, hc2, -⟩ := C22_truncate ⟨dim, cutoff, 0, true⟩ sqrt big l s r legs legs v cl cr sl sr hbig
  refine ⟨l, s, r, keep, e, v.good, ⟨hR.left, ?_, ?_⟩, ⟨hR.right, ?_, ?_⟩, hR.leftEntry, hR.rightEntry, (hi h2).1, (hi h2).2, hs h3, ?_, ?_, hbigg, ?_, hall rfl, ?_⟩
  · exact List.Nodup.sublist (((List.filter_sublist).map Prod.fst).trans (keepLeft_sublist _ _ _)) ul
  · intro b hb
    obtain ⟨b0, h0, e0⟩ := keepLeft_labels _ _ _ b (List.mem_filter.1 hb).1
    rw [e0]; exact kl b0 h0
  · exact List.Nodup.sublist (((List.filter_sublist).map Prod.fst).trans (keepRight_sublist _ _ _)) ur
  · intro b hb
    obtain ⟨b0, h0, e0⟩ := keepRight_labels _ _ _ b (List.mem_filter.1 hb).1
    rw [e0]; exact kr b0 h0
  · intro x x' hx hx'
    have := hp x x' hx hx'
    simpa using this
  · rw [herr]; rfl
  · intro h0
    have := (cameFrom_perm v.good (keep := keep)).length_eq
    rw [List.length_map] at this
    rw [this]
    exact hdim h0
  · intro hc hd z hz
    have a := hc1 hc z hz
    have b := hc2 rfl hc hd z hz
    simp only [if_true] at a b
    cases hk : keep z
    · have : ¬ cutoff ≤ entry s [z] := fun h => by rw [b h] at hk; exact Bool.noConfusion hk
      simp [this]
    · simp [a hk]

variable {e a p q b f : BondInfo Q} {dq : Q} {patL patR : List Bool} {dm : SpT Q ℝ} {o : TruncOpts ℝ} {l r s : SpT Q ℝ} {t : SpT.Truncation Q ℝ ℝ}
  {keep : Q × Nat → Bool} {legs : List (BondInfo Q)}

theorem CutDm.iso (h : CutDm legs patL patR dm o l s r t keep) :
    LeftIsometric legs (keptBond keep (valueBond s)) t.l ∧ RightIsometric (keptBond keep (valueBond s)) legs t.r := by
  constructor
  · intro z hz z' hz'
    rw [sum_map_congr' _ _ _ fun x hx => by rw [h.leftEntry x (legIndices_len hx) z hz, h.leftEntry x (legIndices_len hx) z' hz']]
    rw [h.isoL _ (cameFrom_mem h.goodS hz).1 _ (cameFrom_mem h.goodS hz').1]
    simp only [cameFrom_inj h.goodS hz hz']
  · intro z hz z' hz'
    rw [sum_map_congr' _ _ _ fun x hx => by rw [h.rightEntry x (legIndices_len hx) z hz, h.rightEntry x (legIndices_len hx) z' hz']]
    rw [h.isoR _ (cameFrom_mem h.goodS hz).1 _ (cameFrom_mem h.goodS hz').1]
    simp only [cameFrom_inj h.goodS hz hz']

/-- Sums over the kept values. -/
theorem CutDm.kept (h : CutDm legs patL patR dm o l s r t keep) (g : Q × Nat → ℝ) :
    ((legBasis (keptBond keep (valueBond s))).map fun z => g (cameFrom keep (valueBond s) z)).sum =
      ∑ z ∈ (legBasis (valueBond s)).toFinset.filter (fun z => keep z = true), g z := by
  rw [kept_sum h.goodS, ← List.toFinset_filter, sum_list ((legBasis_nodup h.goodS.1).filter _)]

theorem CutDm.card (h : CutDm legs patL patR dm o l s r t keep) :
    ((legBasis (valueBond s)).toFinset.filter (fun z => keep z = true)).card = (legBasis (keptBond keep (valueBond s))).length := by
  rw [← List.toFinset_filter, List.toFinset_card_of_nodup ((legBasis_nodup h.goodS.1).filter _), ← (cameFrom_perm h.goodS (keep := keep)).length_eq, List.length_map]

theorem CutDm.errorSum (h : CutDm legs patL patR dm o l s r t keep) :
    t.error = ∑ z ∈ (legBasis (valueBond s)).toFinset \ (legBasis (valueBond s)).toFinset.filter (fun z => keep z = true), entry s [z] := by
  rw [h.error, ← sum_list ((legBasis_nodup h.goodS.1).filter _)]
  refine Finset.sum_congr ?_ fun _ _ => rfl
  ext z
  simp only [List.mem_toFinset, List.mem_filter, Finset.mem_sdiff, Finset.mem_filter]
  cases keep z <;> simp

/-- The factors as a singular value decomposition in terms of entries. -/
theorem CutDm.svd (h : CutDm legs patL patR dm o l s r t keep) (hg : ∀ x ∈ legs, Dict.WF x) :
    DensMat.IsSvdOf (legIndices legs).toFinset (legBasis (valueBond s)).toFinset (fun x x' => entry dm (x ++ x')) (fun z x => entry l (x ++ [z])) (fun z => entry s [z])
      (fun z x => entry r (z :: x)) := by
  have hn : (legIndices legs).Nodup := legIndices_nodup hg
  have hz := legBasis_nodup h.goodS.1
  refine ⟨?_, ?_, ?_, ?_⟩
  · intro z h1 z' h2
    rw [sum_list hn]
    have := h.isoL z (by simpa using h1) z' (by simpa using h2)
    simpa [star_trivial] using this
  · intro z h1 z' h2
    rw [sum_list hn]
    have := h.isoR z (by simpa using h1) z' (by simpa using h2)
    simpa [star_trivial] using this
  · intro z h1
    exact h.nonneg z (by simpa using h1)
  · intro x hx x' hx'
    rw [sum_list hz]
    exact h.product x x' (legIndices_len (by simpa using hx)) (legIndices_len (by simpa using hx'))

/-- What a list of states with weights amounts to as numbers. -/
theorem weighted_sum (wfns : List (SpT Q ℝ)) (ws : List ℝ) (g : SpT Q ℝ → ℝ) :
    weighted wfns ws g = ∑ i : Fin (wfns.zip ws).length, ((wfns.zip ws).get i).2 * g ((wfns.zip ws).get i).1 := (sum_zip (wfns.zip ws) fun p => p.2 * g p.1).symm

/-- The sum of density matrices in terms of entries. -/
theorem dens_eq (fw : Bool) {legsX legsY : List (BondInfo Q)} (hY : ∀ x ∈ legsY, Dict.WF x) (idx : List (Q × Nat) → List (Q × Nat) → List (Q × Nat))
    (wfns : List (SpT Q ℝ)) (ws : List ℝ) (x x' : List (Q × Nat)) :
    DensMat.dens (legIndices legsY).toFinset Finset.univ (fun i : Fin (wfns.zip ws).length => ((wfns.zip ws).get i).2)
      (fun i x y => entry ((wfns.zip ws).get i).1 (idx x y)) x x' =
      ((wfns.zip ws).map fun p => p.2 * ((legIndices legsY).map fun y => entry p.1 (idx x y) * entry p.1 (idx x' y)).sum).sum := by
  unfold DensMat.dens
  rw [← sum_zip (wfns.zip ws)]
  refine Finset.sum_congr rfl fun i _ => ?_
  rw [sum_list (legIndices_nodup hY)]

/-- The weights are as many as the states and not negative. -/
theorem used_ok {weights : Option (List ℝ)} {n : Nat} (h : ∀ w ∈ weights, w.length = n ∧ ∀ v ∈ w, 0 ≤ v) :
    (usedWeights weights n).length = n ∧ ∀ v ∈ usedWeights weights n, 0 ≤ v := by
  cases weights with
  | none =>
    refine ⟨by simp [usedWeights], fun v hv => ?_⟩
    simp only [usedWeights, Option.getD_none] at hv
    rw [List.eq_of_mem_replicate hv]
    positivity
  | some w => exact h w rfl

theorem conj_real (T : SpT Q ℝ) : T.conj = T := by
  unfold SpT.conj
  conv_rhs => rw [← List.map_id T]
  rfl

theorem three {x y z : BondInfo Q} {i : List (Q × Nat)} (h : i ∈ legIndices [x, y, z]) : i.length = 3 := legIndices_len h

variable {wfns : List (SpT Q ℝ)} {weights : Option (List ℝ)}

/-- The tensor of the right site, made by contraction with the tensor of the left site. -/
theorem left_rest (hw : Window e a p q b f) {m : BondInfo Q} {T W : SpT Q ℝ} (hT : Conforms ([e, a, p] ++ [m]) T) (kT : Conserves [false, true, true, false] 0 T)
    (hW : TwoSite e a p q b f dq W) : ∃ R, SpT.tensordot T.conj W [0, 1, 2] [0, 1, 2] = some R ∧ Conforms (m :: [q, b, f]) R ∧ UniqueLabels R ∧
      Conserves [true, true, false, true] dq R ∧
      ∀ y, y.length = 3 → ∀ z, entry R (z :: y) = ((legIndices [e, a, p]).map fun x => entry T (x ++ [z]) * entry W (x ++ y)).sum := by
  have hX : ∀ x ∈ [e, a, p], Dict.WF x := fun x hx => (hw.good x (by simp at hx ⊢; tauto)).1
  have cl : Conforms ([] ++ [e, a, p] ++ [m]) T.conj := by rw [conj_real]; exact hT
  have cW : Conforms ([] ++ [e, a, p] ++ [q, b, f]) W := hW.conf
  obtain ⟨R, r1, r2, r3, r4, r5⟩ := sp_contract [] [e, a, p] [m] [] [q, b, f] hX T.conj W cl cW
  refine ⟨R, r1, r2, r3, ?_, ?_⟩
  · intro x hx
    obtain ⟨u, v, n, u', v', l1, l2, l3, l4, l5, ⟨A, hA, eA⟩, ⟨B, hB, eB⟩, e0⟩ := r5 x hx
    rw [conj_real] at hA
    have cA := kT A hA
    have cB := hW.charge B hB
    have zB := label_zero hw.edgeL (hW.conf B hB) 0 rfl
    rw [e0]
    rw [eA] at cA
    rw [eB] at cB zB
    obtain ⟨v0, rfl⟩ := List.length_eq_one_iff.1 l2
    obtain ⟨n0, n1, n2, rfl⟩ := List.length_eq_three.1 l3
    obtain ⟨w0, w1, w2, rfl⟩ := List.length_eq_three.1 l5
    obtain rfl := List.length_eq_zero_iff.1 l1
    obtain rfl := List.length_eq_zero_iff.1 l4
    simp [signedSum] at cA cB zB ⊢
    subst zB
    simp only [neg_zero, zero_add] at cA cB
    have : v0 = n1 + n2 := by
      rw [← sub_eq_zero]
      have : v0 - (n1 + n2) = -(n1 + (n2 + -v0)) := by abel
      rw [this, cA, neg_zero]
    rw [this, ← cB]; abel
  · intro y hy z
    have := r4 [] [z] [] y rfl rfl rfl hy
    simpa [conj_real] using this

/-- The tensor of the left site, made by contraction with the tensor of the right site. -/
theorem right_rest (hw : Window e a p q b f) {m : BondInfo Q} {T W : SpT Q ℝ} (hT : Conforms (m :: [q, b, f]) T) (kT : Conserves [true, true, false, false] 0 T)
    (hW : TwoSite e a p q b f dq W) : ∃ L, SpT.tensordot W T.conj [-3, -2, -1] [-3, -2, -1] = some L ∧ Conforms ([e, a, p] ++ [m]) L ∧ UniqueLabels L ∧
      Conserves [true, true, true, false] dq L ∧
      ∀ x, x.length = 3 → ∀ z, entry L (x ++ [z]) = ((legIndices [q, b, f]).map fun y => entry T (z :: y) * entry W (x ++ y)).sum := by
  have hY : ∀ x ∈ [q, b, f], Dict.WF x := fun x hx => (hw.good x (by simp at hx ⊢; tauto)).1
  have cr : Conforms ([m] ++ [q, b, f] ++ []) T.conj := by rw [conj_real]; exact hT
  have cW : Conforms ([e, a, p] ++ [q, b, f] ++ []) W := by simpa using hW.conf
  obtain ⟨L, r1, r2, r3, r4, r5⟩ := sp_contract [e, a, p] [q, b, f] [] [m] [] hY W T.conj cW cr
  refine ⟨L, ?_, r2, r3, ?_, ?_⟩
  · rw [neg_axes cW cr (na := 3) (nb := 1) rfl rfl]
    exact r1
  · intro x hx
    obtain ⟨u, v, n, u', v', l1, l2, l3, l4, l5, ⟨B, hB, eB⟩, ⟨A, hA, eA⟩, e0⟩ := r5 x hx
    rw [conj_real] at hA
    have cA := kT A hA
    have cB := hW.charge B hB
    have zB := label_zero hw.edgeR (hW.conf B hB) 5 rfl
    rw [e0]
    rw [eA] at cA
    rw [eB] at cB zB
    obtain ⟨v0, rfl⟩ := List.length_eq_one_iff.1 l4
    obtain ⟨n0, n1, n2, rfl⟩ := List.length_eq_three.1 l3
    obtain ⟨w0, w1, w2, rfl⟩ := List.length_eq_three.1 l1
    obtain rfl := List.length_eq_zero_iff.1 l2
    obtain rfl := List.length_eq_zero_iff.1 l5
    simp [signedSum] at cA cB zB ⊢
    subst zB
    simp only [neg_zero, add_zero] at cA cB
    have : -v0 = n0 + -n1 := by
      rw [← sub_eq_zero]
      have : -v0 - (n0 + -n1) = -(v0 + (n0 + -n1)) := by abel
      rw [this, cA, neg_zero]
    rw [this, ← cB]
  · intro x hx z
    have := r4 x [] [z] [] hx rfl rfl rfl
    simp only [List.append_nil, conj_real] at this
    rw [this]
    exact sum_map_congr' _ _ _ fun y _ => mul_comm _ _

/-- C62: the sweep to the right.  The tensors of the states are split as `LeftSplit` says; the new bond is not larger than asked for, and without cutoff and limit
nothing is lost. -/
theorem C62_left {leL : List Q → List Q → Bool} (ho : TSvd.IsOrder leL) {svd : Arr ℝ → Arr ℝ × Arr ℝ × Arr ℝ} (h1 : IsSvd id svd) (h2 : SvdUnitary svd)
    (h3 : FermSplit.SvdSorted svd) {big : Arr ℝ → Bool} (hbig : RemovesZeros big) (sqrt : ℝ → ℝ) (cutoff : ℝ) (dim : Int) (hw : Window e a p q b f)
    (hW : ∀ W ∈ wfns, TwoSite e a p q b f dq W) (hws : ∀ w ∈ weights, w.length = wfns.length ∧ ∀ v ∈ w, 0 ≤ v)
    (hpos : weighted wfns (usedWeights weights wfns.length) (normSq [e, a, p] [q, b, f]) ≠ 0) :
    ∃ m L R error, decompTwoSite leL svd id sqrt big cutoff dim some true wfns weights = some (wfns.map fun W => (L, R W), error) ∧
      LeftSplit e a p q b f dq wfns (usedWeights weights wfns.length) m L R error ∧
      (0 ≤ dim → (legBasis m).length ≤ dim.toNat) ∧ (cutoff = 0 → dim = -1 → error = 0) := by
  obtain ⟨hlen, hnn⟩ := used_ok hws
  set ws := usedWeights weights wfns.length with hwsdef
  have hX : ∀ x ∈ [e, a, p], Dict.WF x := fun x hx => (hw.good x (by simp at hx ⊢; tauto)).1
  have hY : ∀ x ∈ [q, b, f], Dict.WF x := fun x hx => (hw.good x (by simp at hx ⊢; tauto)).1
  have hne : wfns ≠ [] := by
    rintro rfl
    exact hpos (by simp [weighted])
  obtain ⟨dm, d1, d2, d3, d4, d5⟩ := densitySum_spec true (n := 3) (fun W x x' => ((legIndices [q, b, f]).map fun y => entry W (x ++ y) * entry W (x' ++ y)).sum)
    hne hlen fun W hm => densityOf_left hw (hW W hm)
  have hdm : dm ≠ [] := by
    rintro rfl
    apply hpos
    have : weighted wfns ws (normSq [e, a, p] [q, b, f]) = ((legIndices [e, a, p]).map fun x => entry ([] : SpT Q ℝ) (x ++ x)).sum := by
      rw [sum_map_congr' _ _ _ fun x hx => d5 x x (three hx) (three hx), sum_comm']
      unfold weighted
      apply sum_map_congr'
      intro P _
      rw [sum_map_mul_left']
      unfold normSq
      congr 1
      exact sum_map_congr' _ _ _ fun x _ => sum_map_congr' _ _ _ fun y _ => pow_two _
    rw [this]
    exact sum_map_zero' _ _ fun x _ => by simp [entry_nil]
  have hin : TSvd.Input [e, a, p] [e, a, p] [false, true, true] [false, false, false] dm :=
    ⟨d2, d3, fun x hx => hw.good x (by simp at hx ⊢; tauto), rfl, rfl, d4⟩
  obtain ⟨l, s, r, keep, c1, c2⟩ := cut_dm ho h1 h2 h3 hbig sqrt cutoff dim hin hdm (by simp)
  set t := SpT.truncateSvd ⟨dim, cutoff, 0, true⟩ sqrt big l s r with ht
  set m := keptBond keep (valueBond s) with hmdef
  have hc : ∀ W ∈ wfns, ∃ R, SpT.tensordot t.l.conj W [0, 1, 2] [0, 1, 2] = some R ∧ Conforms (m :: [q, b, f]) R ∧ UniqueLabels R ∧
      Conserves [true, true, false, true] dq R ∧
      ∀ y, y.length = 3 → ∀ z, entry R (z :: y) = ((legIndices [e, a, p]).map fun x => entry t.l (x ++ [z]) * entry W (x ++ y)).sum := by
    intro W hm
    exact left_rest hw c2.left.1 c2.left.2.2 (hW W hm)
  choose! R R1 R2 R3 R4 R5 using hc
  have hrest : ∀ W ∈ wfns, ∀ y, y.length = 3 → ∀ z ∈ legBasis m, entry (R W) (z :: y) = ((legIndices [e, a, p]).map fun x => entry t.l (x ++ [z]) * entry W (x ++ y)).sum :=
    fun W hm y hy z _ => R5 W hm y hy z
  -- numbers
  let I : Finset (Fin (wfns.zip ws).length) := Finset.univ
  let w : Fin (wfns.zip ws).length → ℝ := fun i => ((wfns.zip ws).get i).2
  let A : Fin (wfns.zip ws).length → List (Q × Nat) → List (Q × Nat) → ℝ := fun i x y => entry ((wfns.zip ws).get i).1 (x ++ y)
  have hi : ∀ i, ((wfns.zip ws).get i).1 ∈ wfns ∧ ((wfns.zip ws).get i).2 ∈ ws := fun i => List.of_mem_zip ((wfns.zip ws).get_mem i)
  have hw0 : ∀ i ∈ I, 0 ≤ w i := fun i _ => hnn _ (hi i).2
  have hsvd : DensMat.IsSvdOf (legIndices [e, a, p]).toFinset (legBasis (valueBond s)).toFinset (DensMat.dens (legIndices [q, b, f]).toFinset I w A)
      (fun z x => entry l (x ++ [z])) (fun z => entry s [z]) (fun z x => entry r (z :: x)) := by
    have := c2.svd hX
    refine ⟨this.left, this.right, this.nonneg, fun x hx x' hx' => (this.product x hx x' hx').trans ?_⟩
    rw [dens_eq true (legsX := [e, a, p]) hY (fun x y => x ++ y)]
    exact d5 x x' (three (by simpa using hx)) (three (by simpa using hx'))
  set Kp := (legBasis (valueBond s)).toFinset.filter (fun z => keep z = true) with hKp
  have hK : Kp ⊆ (legBasis (valueBond s)).toFinset := Finset.filter_subset _ _
  have hloss : weighted wfns ws (fun W => distSq [e, a, p] [q, b, f] m W t.l (R W)) =
      DensMat.lost (legIndices [e, a, p]).toFinset (legIndices [q, b, f]).toFinset I w A Kp (fun z x => entry l (x ++ [z])) := by
    rw [weighted_sum]
    unfold DensMat.lost
    refine Finset.sum_congr rfl fun i _ => ?_
    congr 1
    unfold distSq
    rw [sum_list (legIndices_nodup hX)]
    refine sum_map_congr' _ _ _ fun x hx => ?_
    rw [sum_list (legIndices_nodup hY)]
    refine sum_map_congr' _ _ _ fun y hy => ?_
    congr 2
    unfold joined
    rw [sum_map_congr' _ _ _ fun z hz => by rw [hrest _ (hi i).1 y (three hy) z hz, c2.leftEntry x (three hx) z hz,
      sum_map_congr' _ _ _ fun x' hx' => by rw [c2.leftEntry x' (three hx') z hz]]]
    rw [c2.kept fun z => entry l (x ++ [z]) * ((legIndices [e, a, p]).map fun x' => entry l (x' ++ [z]) * entry ((wfns.zip ws).get i).1 (x' ++ y)).sum]
    refine Finset.sum_congr rfl fun z _ => ?_
    rw [sum_list (legIndices_nodup hX)]
  have herr : t.error = DensMat.lost (legIndices [e, a, p]).toFinset (legIndices [q, b, f]).toFinset I w A Kp (fun z x => entry l (x ++ [z])) := by
    rw [DensMat.lost_svd hw0 hsvd hK, c2.errorSum]
  refine ⟨m, t.l, R, t.error, ?_, ⟨keptBond_good c2.goodS, c2.left, fun W hm => ⟨R2 W hm, R3 W hm, R4 W hm⟩, c2.iso.1, hrest, hloss.trans herr.symm, ?_⟩, c2.dim, ?_⟩
  · unfold decompTwoSite
    have e1 : weights.getD (List.replicate wfns.length (1 / (wfns.length : ℝ))) = ws := rfl
    simp only [e1, d1, Option.bind_some, if_true]
    have e2 : SpT.tensorSvd leL svd id 3 [false, true, true, false, false, false] dm = some (l, s, r) := c1
    rw [e2, Option.bind_some]
    simp only
    rw [mapM_some (g := fun W => (t.l, R W)) fun W hm => by rw [R1 W hm]; rfl]
    rfl
  · intro n v hv hn
    have hq : DensMat.Ortho (legIndices [e, a, p]).toFinset (Finset.univ : Finset (Fin n)) v := by
      intro i _ j _
      rw [sum_list (legIndices_nodup hX)]
      exact hv i j
    have := DensMat.lost_least hw0 hsvd hK (by
      intro z hz z' hz'
      rw [hKp, Finset.mem_filter, List.mem_toFinset] at hz
      rw [hKp, Finset.mem_sdiff, Finset.mem_filter, List.mem_toFinset] at hz'
      refine c2.largest z hz.1 z' hz'.1 hz.2 ?_
      by_contra hk
      exact hz'.2 ⟨hz'.1, by simpa using hk⟩) hq (by rw [c2.card]; simpa using hn)
    rw [herr]
    refine le_trans this (le_of_eq ?_)
    rw [weighted_sum]
    unfold DensMat.lost
    refine Finset.sum_congr rfl fun i _ => ?_
    congr 1
    unfold leftRest
    rw [sum_list (legIndices_nodup hX)]
    refine sum_map_congr' _ _ _ fun x hx => ?_
    rw [sum_list (legIndices_nodup hY)]
    refine sum_map_congr' _ _ _ fun y hy => ?_
    congr 2
    refine Finset.sum_congr rfl fun j _ => ?_
    rw [sum_list (legIndices_nodup hX)]
  · intro hc hd
    rw [c2.error]
    have : ((legBasis (valueBond s)).filter fun z => !keep z) = [] := by
      rw [List.filter_eq_nil_iff]
      intro z hz
      simp [c2.all hc hd z hz]
    rw [this]; rfl

/-- C62: the sweep to the left.  The tensors of the states are split as `RightSplit` says; the new bond is not larger than asked for, and without cutoff and limit
nothing is lost. -/
theorem C62_right {leL : List Q → List Q → Bool} (ho : TSvd.IsOrder leL) {svd : Arr ℝ → Arr ℝ × Arr ℝ × Arr ℝ} (h1 : IsSvd id svd) (h2 : SvdUnitary svd)
    (h3 : FermSplit.SvdSorted svd) {big : Arr ℝ → Bool} (hbig : RemovesZeros big) (sqrt : ℝ → ℝ) (cutoff : ℝ) (dim : Int) (hw : Window e a p q b f)
    (hW : ∀ W ∈ wfns, TwoSite e a p q b f dq W) (hws : ∀ w ∈ weights, w.length = wfns.length ∧ ∀ v ∈ w, 0 ≤ v)
    (hpos : weighted wfns (usedWeights weights wfns.length) (normSq [e, a, p] [q, b, f]) ≠ 0) :
    ∃ m L R error, decompTwoSite leL svd id sqrt big cutoff dim some false wfns weights = some (wfns.map fun W => (L W, R), error) ∧
      RightSplit e a p q b f dq wfns (usedWeights weights wfns.length) m L R error ∧
      (0 ≤ dim → (legBasis m).length ≤ dim.toNat) ∧ (cutoff = 0 → dim = -1 → error = 0) := by
  obtain ⟨hlen, hnn⟩ := used_ok hws
  set ws := usedWeights weights wfns.length with hwsdef
  have hX : ∀ x ∈ [e, a, p], Dict.WF x := fun x hx => (hw.good x (by simp at hx ⊢; tauto)).1
  have hY : ∀ x ∈ [q, b, f], Dict.WF x := fun x hx => (hw.good x (by simp at hx ⊢; tauto)).1
  have hne : wfns ≠ [] := by
    rintro rfl
    exact hpos (by simp [weighted])
  obtain ⟨dm, d1, d2, d3, d4, d5⟩ := densitySum_spec false (n := 3) (fun W y y' => ((legIndices [e, a, p]).map fun x => entry W (x ++ y) * entry W (x ++ y')).sum)
    hne hlen fun W hm => densityOf_right hw (hW W hm)
  have hdm : dm ≠ [] := by
    rintro rfl
    apply hpos
    have : weighted wfns ws (normSq [e, a, p] [q, b, f]) = ((legIndices [q, b, f]).map fun x => entry ([] : SpT Q ℝ) (x ++ x)).sum := by
      rw [sum_map_congr' _ _ _ fun x hx => d5 x x (three hx) (three hx), sum_comm']
      unfold weighted
      apply sum_map_congr'
      intro P _
      rw [sum_map_mul_left']
      unfold normSq
      rw [sum_comm']
      congr 1
      exact sum_map_congr' _ _ _ fun x _ => sum_map_congr' _ _ _ fun y _ => pow_two _
    rw [this]
    exact sum_map_zero' _ _ fun x _ => by simp [entry_nil]
  have hin : TSvd.Input [q, b, f] [q, b, f] [false, true, false] [true, false, false] dm :=
    ⟨d2, d3, fun x hx => hw.good x (by simp at hx ⊢; tauto), rfl, rfl, d4⟩
  obtain ⟨l, s, r, keep, c1, c2⟩ := cut_dm ho h1 h2 h3 hbig sqrt cutoff dim hin hdm (by simp)
  set t := SpT.truncateSvd ⟨dim, cutoff, 0, true⟩ sqrt big l s r with ht
  set m := keptBond keep (valueBond s) with hmdef
  have hc : ∀ W ∈ wfns, ∃ L, SpT.tensordot W t.r.conj [-3, -2, -1] [-3, -2, -1] = some L ∧ Conforms ([e, a, p] ++ [m]) L ∧ UniqueLabels L ∧
      Conserves [true, true, true, false] dq L ∧
      ∀ x, x.length = 3 → ∀ z, entry L (x ++ [z]) = ((legIndices [q, b, f]).map fun y => entry t.r (z :: y) * entry W (x ++ y)).sum := by
    intro W hm
    exact right_rest hw c2.right.1 c2.right.2.2 (hW W hm)
  choose! L R1 R2 R3 R4 R5 using hc
  have hrest : ∀ W ∈ wfns, ∀ x, x.length = 3 → ∀ z ∈ legBasis m, entry (L W) (x ++ [z]) = ((legIndices [q, b, f]).map fun y => entry t.r (z :: y) * entry W (x ++ y)).sum :=
    fun W hm x hx z _ => R5 W hm x hx z
  -- numbers
  let I : Finset (Fin (wfns.zip ws).length) := Finset.univ
  let w : Fin (wfns.zip ws).length → ℝ := fun i => ((wfns.zip ws).get i).2
  let A : Fin (wfns.zip ws).length → List (Q × Nat) → List (Q × Nat) → ℝ := fun i y x => entry ((wfns.zip ws).get i).1 (x ++ y)
  have hi : ∀ i, ((wfns.zip ws).get i).1 ∈ wfns ∧ ((wfns.zip ws).get i).2 ∈ ws := fun i => List.of_mem_zip ((wfns.zip ws).get_mem i)
  have hw0 : ∀ i ∈ I, 0 ≤ w i := fun i _ => hnn _ (hi i).2
  have hsvd : DensMat.IsSvdOf (legIndices [q, b, f]).toFinset (legBasis (valueBond s)).toFinset (DensMat.dens (legIndices [e, a, p]).toFinset I w A)
      (fun z x => entry r (z :: x)) (fun z => entry s [z]) (fun z x => entry l (x ++ [z])) := by
    have := c2.svd hY
    refine ⟨this.right, this.left, this.nonneg, fun x' hx' x hx => ?_⟩
    have e0 := this.product x hx x' hx'
    refine (Finset.sum_congr rfl fun z _ => by ring : _ = _).trans (e0.trans ?_)
    rw [DensMat.dens_symm, dens_eq false (legsX := [q, b, f]) hX (fun y x => x ++ y)]
    exact d5 x x' (three (by simpa using hx)) (three (by simpa using hx'))
  set Kp := (legBasis (valueBond s)).toFinset.filter (fun z => keep z = true) with hKp
  have hK : Kp ⊆ (legBasis (valueBond s)).toFinset := Finset.filter_subset _ _
  have hloss : weighted wfns ws (fun W => distSq [e, a, p] [q, b, f] m W (L W) t.r) =
      DensMat.lost (legIndices [q, b, f]).toFinset (legIndices [e, a, p]).toFinset I w A Kp (fun z x => entry r (z :: x)) := by
    rw [weighted_sum]
    unfold DensMat.lost
    refine Finset.sum_congr rfl fun i _ => ?_
    congr 1
    unfold distSq
    rw [sum_comm', sum_list (legIndices_nodup hY)]
    refine sum_map_congr' _ _ _ fun y hy => ?_
    rw [sum_list (legIndices_nodup hX)]
    refine sum_map_congr' _ _ _ fun x hx => ?_
    congr 2
    unfold joined
    rw [sum_map_congr' _ _ _ fun z hz => by rw [hrest _ (hi i).1 x (three hx) z hz, c2.rightEntry y (three hy) z hz,
      sum_map_congr' _ _ _ fun y' hy' => by rw [c2.rightEntry y' (three hy') z hz], mul_comm]]
    rw [c2.kept fun z => entry r (z :: y) * ((legIndices [q, b, f]).map fun y' => entry r (z :: y') * entry ((wfns.zip ws).get i).1 (x ++ y')).sum]
    refine Finset.sum_congr rfl fun z _ => ?_
    rw [sum_list (legIndices_nodup hY)]
  have herr : t.error = DensMat.lost (legIndices [q, b, f]).toFinset (legIndices [e, a, p]).toFinset I w A Kp (fun z x => entry r (z :: x)) := by
    rw [DensMat.lost_svd hw0 hsvd hK, c2.errorSum]
  refine ⟨m, L, t.r, t.error, ?_, ⟨keptBond_good c2.goodS, fun W hm => ⟨R2 W hm, R3 W hm, R4 W hm⟩, c2.right, c2.iso.2, hrest, hloss.trans herr.symm, ?_⟩, c2.dim, ?_⟩
  · unfold decompTwoSite
    have e1 : weights.getD (List.replicate wfns.length (1 / (wfns.length : ℝ))) = ws := rfl
    simp only [e1, d1, Option.bind_some, Bool.false_eq_true, if_false]
    have e2 : SpT.tensorSvd leL svd id 3 [false, true, false, true, false, false] dm = some (l, s, r) := c1
    rw [e2, Option.bind_some]
    simp only
    rw [mapM_some (g := fun W => (L W, t.r)) fun W hm => by rw [R1 W hm]; rfl]
    rfl
  · intro n v hv hn
    have hq : DensMat.Ortho (legIndices [q, b, f]).toFinset (Finset.univ : Finset (Fin n)) v := by
      intro i _ j _
      rw [sum_list (legIndices_nodup hY)]
      exact hv i j
    have := DensMat.lost_least hw0 hsvd hK (by
      intro z hz z' hz'
      rw [hKp, Finset.mem_filter, List.mem_toFinset] at hz
      rw [hKp, Finset.mem_sdiff, Finset.mem_filter, List.mem_toFinset] at hz'
      refine c2.largest z hz.1 z' hz'.1 hz.2 ?_
      by_contra hk
      exact hz'.2 ⟨hz'.1, by simpa using hk⟩) hq (by rw [c2.card]; simpa using hn)
    rw [herr]
    refine le_trans this (le_of_eq ?_)
    rw [weighted_sum]
    unfold DensMat.lost
    refine Finset.sum_congr rfl fun i _ => ?_
    congr 1
    unfold rightRest
    rw [sum_comm', sum_list (legIndices_nodup hY)]
    refine sum_map_congr' _ _ _ fun y hy => ?_
    rw [sum_list (legIndices_nodup hX)]
    refine sum_map_congr' _ _ _ fun x hx => ?_
    congr 2
    refine Finset.sum_congr rfl fun j _ => ?_
    rw [sum_list (legIndices_nodup hY)]
  · intro hc hd
    rw [c2.error]
    have : ((legBasis (valueBond s)).filter fun z => !keep z) = [] := by
      rw [List.filter_eq_nil_iff]
      intro z hz
      simp [c2.all hc hd z hz]
    rw [this]; rfl

/-- C62: a state with a positive weight is the product of its two tensors if the reported error is zero. -/
theorem C62_exact {ws : List ℝ} (hnn : ∀ v ∈ ws, 0 ≤ v) {m : BondInfo Q} {L : SpT Q ℝ} {R : SpT Q ℝ → SpT Q ℝ} (h : LeftSplit e a p q b f dq wfns ws m L R 0)
    {P : SpT Q ℝ × ℝ} (hP : P ∈ wfns.zip ws) (hpos : 0 < P.2) :
    ∀ x ∈ legIndices [e, a, p], ∀ y ∈ legIndices [q, b, f], joined m L (R P.1) x y = entry P.1 (x ++ y) := by
  have zero : ∀ {β : Type} (l : List β) (g : β → ℝ), (∀ x ∈ l, 0 ≤ g x) → (l.map g).sum = 0 → ∀ x ∈ l, g x = 0 := by
    intro β l
    induction l with
    | nil => simp
    | cons c l ih =>
      intro g hg hs x hx
      rw [List.map_cons, List.sum_cons] at hs
      have h1 := hg c (by simp)
      have h2 : 0 ≤ (l.map g).sum := List.sum_nonneg fun v hv => by
        obtain ⟨d, hd, rfl⟩ := List.mem_map.1 hv
        exact hg d (by simp [hd])
      rcases List.mem_cons.1 hx with rfl | hx
      · linarith
      · exact ih g (fun d hd => hg d (by simp [hd])) (by linarith) x hx
  have inner0 : ∀ W x, 0 ≤ ((legIndices [q, b, f]).map fun y => (entry W (x ++ y) - joined m L (R W) x y) ^ 2).sum := fun W x =>
    List.sum_nonneg fun v hv => by obtain ⟨y, _, rfl⟩ := List.mem_map.1 hv; exact sq_nonneg _
  have outer0 : ∀ W, 0 ≤ distSq [e, a, p] [q, b, f] m W L (R W) := fun W =>
    List.sum_nonneg fun v hv => by obtain ⟨x, _, rfl⟩ := List.mem_map.1 hv; exact inner0 W x
  have h1 := zero _ _ (fun P hP => mul_nonneg (hnn _ (List.of_mem_zip (a := P.1) (b := P.2) hP).2) (outer0 P.1)) h.loss P hP
  have h2 : distSq [e, a, p] [q, b, f] m P.1 L (R P.1) = 0 := by
    rcases mul_eq_zero.1 h1 with h | h
    · exact absurd h hpos.ne'
    · exact h
  intro x hx y hy
  have h3 := zero _ _ (fun x _ => inner0 P.1 x) h2 x hx
  have h4 := zero _ _ (fun y _ => sq_nonneg _) h3 y hy
  have : entry P.1 (x ++ y) - joined m L (R P.1) x y = 0 := by simpa using h4
  linarith

/-- C62: with noise, which is any change of the density matrix that keeps its legs and its charge, the tensor of the left site is still an isometry and the
product of the two tensors is still the projection of the state to its space; noise chooses the space and does not get into the states. -/
theorem C62_noise_left {leL : List Q → List Q → Bool} (ho : TSvd.IsOrder leL) {svd : Arr ℝ → Arr ℝ × Arr ℝ × Arr ℝ} (h1 : IsSvd id svd) (h2 : SvdUnitary svd)
    (h3 : FermSplit.SvdSorted svd) {big : Arr ℝ → Bool} (hbig : RemovesZeros big) (sqrt : ℝ → ℝ) (cutoff : ℝ) (dim : Int) (hw : Window e a p q b f)
    (hW : ∀ W ∈ wfns, TwoSite e a p q b f dq W) (hws : ∀ w ∈ weights, w.length = wfns.length ∧ ∀ v ∈ w, 0 ≤ v) (hne : wfns ≠ [])
    {noise : SpT Q ℝ → Option (SpT Q ℝ)}
    (hnoise : ∀ dm, TSvd.Input [e, a, p] [e, a, p] [false, true, true] [false, false, false] dm →
      ∃ dm', noise dm = some dm' ∧ TSvd.Input [e, a, p] [e, a, p] [false, true, true] [false, false, false] dm' ∧ dm' ≠ []) :
    ∃ (m : BondInfo Q) (L : SpT Q ℝ) (R : SpT Q ℝ → SpT Q ℝ) (error : ℝ), decompTwoSite leL svd id sqrt big cutoff dim noise true wfns weights = some (wfns.map fun W => (L, R W), error) ∧
      GoodBond m ∧ Conforms ([e, a, p] ++ [m]) L ∧ LeftIsometric [e, a, p] m L ∧ (0 ≤ dim → (legBasis m).length ≤ dim.toNat) ∧
      ∀ W ∈ wfns, Conforms (m :: [q, b, f]) (R W) ∧ ∀ y, y.length = 3 → ∀ z ∈ legBasis m,
        entry (R W) (z :: y) = ((legIndices [e, a, p]).map fun x => entry L (x ++ [z]) * entry W (x ++ y)).sum := by
  obtain ⟨hlen, hnn⟩ := used_ok hws
  obtain ⟨dm, d1, d2, d3, d4, d5⟩ := densitySum_spec true (n := 3) (fun W x x' => ((legIndices [q, b, f]).map fun y => entry W (x ++ y) * entry W (x' ++ y)).sum)
    hne hlen fun W hm => densityOf_left hw (hW W hm)
  obtain ⟨dm', e1, hin, hdm⟩ := hnoise dm ⟨d2, d3, fun x hx => hw.good x (by simp at hx ⊢; tauto), rfl, rfl, d4⟩
  obtain ⟨l, s, r, keep, c1, c2⟩ := cut_dm ho h1 h2 h3 hbig sqrt cutoff dim hin hdm (by simp)
  have hc := fun W (hm : W ∈ wfns) => left_rest hw c2.left.1 c2.left.2.2 (hW W hm)
  choose! R R1 R2 R3 R4 R5 using hc
  refine ⟨_, _, R, (SpT.truncateSvd ⟨dim, cutoff, 0, true⟩ sqrt big l s r).error, ?_, keptBond_good c2.goodS, c2.left.1, c2.iso.1, c2.dim, fun W hm => ⟨R2 W hm, fun y hy z _ => R5 W hm y hy z⟩⟩
  unfold decompTwoSite
  have e0 : weights.getD (List.replicate wfns.length (1 / (wfns.length : ℝ))) = usedWeights weights wfns.length := rfl
  simp only [e0, d1, e1, Option.bind_some, if_true]
  have e2 : SpT.tensorSvd leL svd id 3 [false, true, true, false, false, false] dm' = some (l, s, r) := c1
  rw [e2, Option.bind_some]
  simp only
  rw [mapM_some (g := fun W => ((SpT.truncateSvd ⟨dim, cutoff, 0, true⟩ sqrt big l s r).l, R W)) fun W hm => by rw [R1 W hm]; rfl]
  rfl

end

/-! ### Concrete case -/

/-- A state of two sites that is not a product: one particle on the first or on the second site. -/
def exW : SpT Int ℝ := [([0, 0, 0, 1, 1, 0], ⟨[1, 1, 1, 1, 1, 1], fun _ => 3⟩), ([0, 0, 1, 0, 1, 0], ⟨[1, 1, 1, 1, 1, 1], fun _ => 4⟩)]

theorem exW_window : Window (Q := Int) [(0, 1)] [(0, 1)] [(0, 1), (1, 1)] [(0, 1), (1, 1)] [(1, 1)] [(0, 1)] := by
  refine ⟨?_, by simp, by simp⟩
  intro x hx
  simp only [List.mem_cons, List.not_mem_nil, or_false] at hx
  rcases hx with rfl | rfl | rfl | rfl | rfl | rfl <;> simp [GoodBond, Dict.WF]

theorem exW_state : TwoSite [((0 : Int), 1)] [(0, 1)] [(0, 1), (1, 1)] [(0, 1), (1, 1)] [(1, 1)] [(0, 1)] 0 exW := by
  refine ⟨?_, by simp [UniqueLabels, exW], ?_⟩
  · intro b hb
    simp only [exW, List.mem_cons, List.not_mem_nil, or_false] at hb
    rcases hb with rfl | rfl
    all_goals exact .cons rfl (.cons rfl (.cons rfl (.cons rfl (.cons rfl (.cons rfl .nil)))))
  · intro b hb
    simp only [exW, List.mem_cons, List.not_mem_nil, or_false] at hb
    rcases hb with rfl | rfl <;> simp [signedSum]

theorem exW_norm : normSq [[((0 : Int), 1)], [(0, 1)], [(0, 1), (1, 1)]] [[(0, 1), (1, 1)], [(1, 1)], [(0, 1)]] exW = 25 := by
  simp [normSq, legIndices, cart, legBasis, exW, entry, blockEntry, inBox]
  norm_num

/-- All hypotheses of `C62_left` hold for this state, with a bond of dimension one. -/
example : ∃ svd : Arr ℝ → Arr ℝ × Arr ℝ × Arr ℝ, ∃ m L R error,
    decompTwoSite TSvd.leInt svd id Real.sqrt (fun _ => true) 0 1 some true [exW] none = some ([(L, R exW)], error) ∧
    LeftSplit [((0 : Int), 1)] [(0, 1)] [(0, 1), (1, 1)] [(0, 1), (1, 1)] [(1, 1)] [(0, 1)] 0 [exW] (usedWeights none 1) m L R error ∧ (legBasis m).length ≤ 1 := by
  obtain ⟨svd, s1, s2, s3⟩ := FermSplit.C51_contract ℝ
  obtain ⟨m, L, R, error, h1, h2, h3, _⟩ := C62_left TSvd.leInt_order (wfns := [exW]) (weights := none) s1 s2 s3 (big := fun _ => true) (fun a ix _ h => by simp at h)
    Real.sqrt 0 1 exW_window (by simpa using exW_state) (by simp) (by simp [weighted, usedWeights, exW_norm])
  exact ⟨svd, m, L, R, error, h1, h2, h3 (by norm_num)⟩

end Decomp
end Verif
