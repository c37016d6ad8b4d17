import Verif.Proof.Phase
import Verif.Thm.Sparse

/-!
Properties C24-C26: signs of fermionic tensors.
-/

set_option linter.unusedSectionVars false

namespace Verif
variable {Q K : Type}

/-! ### C24 -/

/-- C24: pulling the legs `axes` to the front gives minus one to the number of pairs of odd legs whose order changes. -/
theorem C24_left (plist axes : List Nat) (hnd : axes.Nodup) (hlt : ∀ i ∈ axes, i < plist.length) :
    computePhase plist axes false = reorderSign (plist.map fun p => decide (p % 2 = 1))
      (axes ++ freeAxes plist.length axes) := by
  rw [freeAxes_eq]
  exact computePhase_left plist axes hnd hlt

/-- C24: pulling the legs `axes` to the back one after the other (so the first one ends last). -/
theorem C24_right (plist axes : List Nat) (hnd : axes.Nodup) (hlt : ∀ i ∈ axes, i < plist.length) :
    computePhase plist axes true = reorderSign (plist.map fun p => decide (p % 2 = 1))
      (freeAxes plist.length axes ++ axes.reverse) := by
  rw [freeAxes_eq]
  exact computePhase_right plist axes hnd hlt

/-- C24: the phase is 1 or -1. -/
theorem C24_sign (plist axes : List Nat) (right : Bool) (hnd : axes.Nodup) (hlt : ∀ i ∈ axes, i < plist.length) :
    computePhase plist axes right = 1 ∨ computePhase plist axes right = -1 := by
  cases right
  · rw [computePhase_left plist axes hnd hlt]; exact reorderSign_cases _ _
  · rw [computePhase_right plist axes hnd hlt]; exact reorderSign_cases _ _

/-- C24: only parities matter. -/
theorem C24_parity_only (plist plist' axes : List Nat) (right : Bool) (hnd : axes.Nodup)
    (hlt : ∀ i ∈ axes, i < plist.length) (h : plist.map (· % 2) = plist'.map (· % 2)) :
    computePhase plist axes right = computePhase plist' axes right := by
  have hl : plist.length = plist'.length := by simpa using congrArg List.length h
  have ho : odds plist = odds plist' := by
    have := congrArg (List.map fun p => decide (p = 1)) h
    simpa [odds, List.map_map, Function.comp_def] using this
  cases right
  · rw [computePhase_left plist axes hnd hlt, computePhase_left plist' axes hnd (hl ▸ hlt), ho, hl]
  · rw [computePhase_right plist axes hnd hlt, computePhase_right plist' axes hnd (hl ▸ hlt), ho, hl]

/-- C24: the phase is what reordering a product costs: in any ring, if odd elements anticommute with each other and all other
pairs commute, the product in the original order is the phase times the product with `axes` moved to the front. -/
theorem C24_graded_product {R : Type} [Ring R] (plist axes : List Nat) (hnd : axes.Nodup)
    (hlt : ∀ i ∈ axes, i < plist.length) (e : Nat → R)
    (hodd : ∀ i j, i ≠ j → plist.getD i 0 % 2 = 1 → plist.getD j 0 % 2 = 1 → e i * e j = - (e j * e i))
    (heven : ∀ i j, i ≠ j → ¬ (plist.getD i 0 % 2 = 1 ∧ plist.getD j 0 % 2 = 1) → e i * e j = e j * e i) :
    ((List.range plist.length).map e).prod =
      (computePhase plist axes false : R) * ((axes ++ freeAxes plist.length axes).map e).prod ∧
    ((List.range plist.length).map e).prod =
      (computePhase plist axes true : R) * ((freeAxes plist.length axes ++ axes.reverse).map e).prod := by
  have he : ∀ i j, i ≠ j → e i * e j = if (odds plist).getD i false && (odds plist).getD j false then - (e j * e i)
      else e j * e i := by
    intro i j hij
    rw [odds_getD, odds_getD]
    by_cases h1 : plist.getD i 0 % 2 = 1
    · by_cases h2 : plist.getD j 0 % 2 = 1
      · rw [hodd i j hij h1 h2, decide_eq_true h1, decide_eq_true h2]; rfl
      · rw [heven i j hij (fun h => h2 h.2), decide_eq_false h2]; simp
    · rw [heven i j hij (fun h => h1 h.1), decide_eq_false h1]; simp
  have hp := idx_out_perm hnd hlt
  rw [freeAxes_eq, computePhase_left plist axes hnd hlt, computePhase_right plist axes hnd hlt, reorderSign_eq, reorderSign_eq]
  have h0 : pairProd (swapSign (odds plist)) (List.range plist.length) = 1 := by
    rw [← reorderSign_eq]; exact reorderSign_range _ _
  constructor
  · have := graded_perm (odds plist) e he hp.symm List.nodup_range
    rw [h0, Int.cast_one, one_mul] at this
    exact this
  · have hp2 : (List.range plist.length).Perm (SpT.outAxes plist.length axes ++ axes.reverse) :=
      hp.symm.trans (List.perm_append_comm.trans (List.Perm.append_left _ (List.reverse_perm _).symm))
    have := graded_perm (odds plist) e he hp2 List.nodup_range
    rw [h0, Int.cast_one, one_mul] at this
    exact this

example : computePhase [1, 1, 0, 1] [3, 0] false = 1 ∧ computePhase [1, 1, 0, 1] [1] false = -1 ∧
    computePhase [1, 1, 0, 1] [0, 1] true = -1 ∧ computePhase [1, 1, 0, 1] [1, 0] true = 1 := by decide

/-! ### C25 -/

/-- Which legs are odd at a multi-index of a tensor. -/
def legOdd (par : Q → Nat) (x : List (Q × Nat)) : List Bool := x.map fun p => decide (par p.1 % 2 = 1)

theorem legOdd_eq (par : Q → Nat) (x : List (Q × Nat)) : legOdd par x = odds ((x.map Prod.fst).map par) := by
  unfold legOdd odds
  simp [List.map_map, Function.comp_def]

@[simp] theorem legOdd_length (par : Q → Nat) (x : List (Q × Nat)) : (legOdd par x).length = x.length := by simp [legOdd]

theorem legOdd_append (par : Q → Nat) (x y : List (Q × Nat)) : legOdd par (x ++ y) = legOdd par x ++ legOdd par y := by
  simp [legOdd]

theorem legOdd_reverse (par : Q → Nat) (x : List (Q × Nat)) : legOdd par x.reverse = (legOdd par x).reverse := by
  simp [legOdd]

theorem legOdd_pick [Zero Q] (par : Q → Nat) (p : List Nat) (x : List (Q × Nat)) (h : ∀ i ∈ p, i < x.length) :
    legOdd par (pick p x) = p.map fun i => (legOdd par x).getD i false := by
  unfold legOdd pick
  rw [List.map_map]
  apply List.map_congr_left
  intro i hi
  simp [List.getElem?_eq_getElem (h i hi)]

/-- Multiply each block by a number depending on its labels. -/
def scaleBlocks [Mul K] (f : List Q → K) (T : SpT Q K) : SpT Q K := T.map fun b => (b.1, b.2.mapK (· * f b.1))

theorem pick_pick {α : Type} [Zero α] (p q : List Nat) (v : List α) (h : ∀ i ∈ q, i < p.length) :
    pick (q.map fun i => p.getD i 0) v = pick q (pick p v) := by
  unfold pick
  rw [List.map_map]
  apply List.map_congr_left
  intro i hi
  simp [List.getD_eq_getElem?_getD, h i hi]

theorem perm_comp {n : Nat} {p q : List Nat} (hp : p.Perm (List.range n)) (hq : q.Perm (List.range n)) :
    (q.map fun i => p.getD i 0).Perm (List.range n) := by
  have hnp := perm_range_length hp
  have h1 : (q.map fun i => p.getD i 0).Perm ((List.range n).map fun i => p.getD i 0) := hq.map _
  have h2 : ((List.range n).map fun i => p.getD i 0) = p := by
    have := pick_range p
    rw [hnp] at this; exact this
  rw [h2] at h1
  exact h1.trans hp

section
variable [DecidableEq Q] [CommRing K]

theorem entry_scaleBlocks (f : List Q → K) (T : SpT Q K) (x : List (Q × Nat)) :
    entry (scaleBlocks f T) x = f (x.map Prod.fst) * entry T x := by
  unfold entry scaleBlocks
  rw [List.map_map, ← sum_map_mul_left']
  apply sum_map_congr'
  intro b _
  unfold blockEntry Arr.mapK
  simp only [Function.comp]
  by_cases h : b.1 = x.map Prod.fst ∧ inBox b.2.shape (x.map Prod.snd) = true
  · rw [if_pos h, if_pos h, h.1, mul_comm]
  · rw [if_neg h, if_neg h, mul_zero]

theorem conforms_scaleBlocks {legs : List (BondInfo Q)} (f : List Q → K) {T : SpT Q K} (h : Conforms legs T) :
    Conforms legs (scaleBlocks f T) := by
  intro b hb
  obtain ⟨a, ha, rfl⟩ := List.mem_map.1 hb
  exact h a ha

variable [Zero Q]

theorem transpose_blocks (par : Q → Nat) (ax : List Nat) (A : FermT Q K) :
    (A.transpose par (some ax)).blocks =
      SpT.transpose (some ax) (scaleBlocks (fun q => ((computePhase (q.map par) ax false : Int) : K)) A.blocks) := by
  unfold FermT.transpose SpT.transpose scaleBlocks
  simp only [Option.getD_some, List.map_map]
  rfl

/-- C25: entries of the transposed fermionic tensor: the original entry times the sign of the reordering. -/
theorem C25_entry (par : Q → Nat) (legs : List (BondInfo Q)) (A : FermT Q K) (hA : Conforms legs A.blocks) (ax : List Nat)
    (hax : ax.Perm (List.range legs.length)) (x : List (Q × Nat)) (hx : x.length = legs.length) :
    entry (A.transpose par (some ax)).blocks (ax.map fun i => x.getD i 0) =
      ((reorderSign (legOdd par x) ax : Int) : K) * entry A.blocks x := by
  rw [transpose_blocks, C14_entry legs _ (conforms_scaleBlocks _ hA) ax hax x hx, entry_scaleBlocks]
  congr 2
  have hl : ((x.map Prod.fst).map par).length = legs.length := by simp [hx]
  have hlt : ∀ i ∈ ax, i < ((x.map Prod.fst).map par).length := by
    intro i hi
    rw [hl]
    simpa using hax.mem_iff.1 hi
  rw [computePhase_left _ _ (hax.nodup_iff.2 List.nodup_range) hlt, legOdd_eq]
  have : SpT.outAxes ((x.map Prod.fst).map par).length ax = [] := by
    unfold SpT.outAxes
    rw [List.filter_eq_nil_iff]
    intro i hi
    rw [hl] at hi
    simp [hax.mem_iff.2 hi]
  rw [this, List.append_nil]

/-- C25: the transposed tensor lives on the permuted legs. -/
theorem C25_conforms (par : Q → Nat) (legs : List (BondInfo Q)) (A : FermT Q K) (hA : Conforms legs A.blocks) (ax : List Nat)
    (hax : ax.Perm (List.range legs.length)) :
    Conforms (ax.map fun i => legs.getD i []) (A.transpose par (some ax)).blocks := by
  rw [transpose_blocks]
  exact C14_conforms legs _ (conforms_scaleBlocks _ hA) ax hax

/-- C25: transposing by `p` and then by `q` is transposing once by `i ↦ p[q[i]]`, signs included. -/
theorem C25_compose (par : Q → Nat) (legs : List (BondInfo Q)) (A : FermT Q K) (hA : Conforms legs A.blocks) (p q : List Nat)
    (hp : p.Perm (List.range legs.length)) (hq : q.Perm (List.range legs.length))
    (x : List (Q × Nat)) (hx : x.length = legs.length) :
    entry ((A.transpose par (some p)).transpose par (some q)).blocks x =
      entry (A.transpose par (some (q.map fun i => p.getD i 0))).blocks x := by
  have hnp := perm_range_length hp
  have hnq := perm_range_length hq
  have hcomp := perm_comp hp hq
  have hplt : ∀ i ∈ p, i < legs.length := fun i hi => by simpa using hp.mem_iff.1 hi
  have hqlt : ∀ i ∈ q, i < legs.length := fun i hi => by simpa using hq.mem_iff.1 hi
  set y := unpick (q.map fun i => p.getD i 0) x with hy
  have hyl : y.length = legs.length := by rw [hy, unpick_length, perm_range_length hcomp]
  have hxy : x = pick (q.map fun i => p.getD i 0) y := (pick_unpick hcomp x hx).symm
  rw [hxy]
  have e1 := C25_entry par legs A hA (q.map fun i => p.getD i 0) hcomp y hyl
  have hl2 : (p.map fun i => legs.getD i []).length = legs.length := by simp [hnp]
  have e2 := C25_entry par (p.map fun i => legs.getD i []) (A.transpose par (some p)) (C25_conforms par legs A hA p hp) q
    (by rw [hl2]; exact hq) (pick p y) (by rw [pick_length, hl2, hnp])
  have e3 := C25_entry par legs A hA p hp y hyl
  change entry _ (pick _ _) = _ at e1 e2 e3
  rw [e1, pick_pick p q y (by rw [hnp]; exact hqlt), e2, e3,
    legOdd_pick par p y (by rw [hyl]; exact hplt), reorderSign_compose (legOdd par y) hp hq]
  push_cast
  ring

/-- C25: transposing by a permutation and then by its inverse gives the tensor back. -/
theorem C25_inverse (par : Q → Nat) (legs : List (BondInfo Q)) (A : FermT Q K) (hA : Conforms legs A.blocks) (p q : List Nat)
    (hp : p.Perm (List.range legs.length)) (hq : q.Perm (List.range legs.length))
    (hinv : (q.map fun i => p.getD i 0) = List.range legs.length)
    (x : List (Q × Nat)) (hx : x.length = legs.length) :
    entry ((A.transpose par (some p)).transpose par (some q)).blocks x = entry A.blocks x := by
  rw [C25_compose par legs A hA p q hp hq x hx, hinv]
  have := C25_entry par legs A hA (List.range legs.length) (List.Perm.refl _) x hx
  have e := pick_range x
  unfold pick at e
  rw [← hx] at this ⊢
  rw [e, reorderSign_range] at this
  simpa using this

/-- C25: without axes the legs are reversed; all pairs of odd legs change their order. -/
theorem C25_default (par : Q → Nat) (legs : List (BondInfo Q)) (A : FermT Q K) (hA : Conforms legs A.blocks)
    (x : List (Q × Nat)) (hx : x.length = legs.length) :
    entry (A.transpose par none).blocks x.reverse =
      ((reorderSign (legOdd par x) (List.range legs.length).reverse : Int) : K) * entry A.blocks x := by
  have hr : (List.range legs.length).reverse.Perm (List.range legs.length) := List.reverse_perm _
  have h := C25_entry par legs A hA (List.range legs.length).reverse hr x hx
  have e2 : ((List.range legs.length).reverse.map fun i => x.getD i 0) = x.reverse := by
    rw [List.map_reverse]
    congr 1
    have := pick_range x
    unfold pick at this
    rw [hx] at this; exact this
  rw [e2] at h
  rw [← h]
  by_cases hne : A.blocks = []
  · unfold FermT.transpose
    simp [hne]
  · unfold FermT.transpose
    rw [ndim_eq hA hne]
    rfl

/-! ### C26 -/

/-- The products accumulated by the fermionic contraction are those of the plain contraction of rescaled blocks. -/
theorem fermCore_eq (par : Q → Nat) (A B : SpT Q K) (idxa idxb outa outb : List Nat) :
    FermT.tensordotCore par A B idxa idxb outa outb =
      SpT.tensordotCore (scaleBlocks (fun q => ((computePhase (q.map par) idxa true : Int) : K)) A)
        (scaleBlocks (fun q => ((computePhase (q.map par) idxb false : Int) : K)) B) idxa idxb outa outb := by
  rw [tensordotCore_eq]
  unfold FermT.tensordotCore contributions
  simp only
  generalize ([] : Dict (List Q) (Arr K)) = m
  induction A generalizing m with
  | nil => simp [scaleBlocks]
  | cons a t ih =>
    have hsc : ∀ f : List Q → K, scaleBlocks f (a :: t) = (a.1, a.2.mapK (· * f a.1)) :: scaleBlocks f t := fun f => rfl
    rw [hsc]
    simp only [List.foldl_cons, List.flatMap_cons, List.foldl_append]
    rw [ih]
    congr 1
    have h := get?_collectB B idxb outb (pick idxa a.1)
    have hfil : (scaleBlocks (fun q => ((computePhase (q.map par) idxb false : Int) : K)) B).filter
        (fun b => decide (pick idxb b.1 = pick idxa a.1)) =
        scaleBlocks (fun q => ((computePhase (q.map par) idxb false : Int) : K))
          (B.filter fun b => decide (pick idxb b.1 = pick idxa a.1)) := by
      unfold scaleBlocks
      rw [List.filter_map]
      rfl
    rw [hfil]
    cases hg : Dict.get? (SpT.collectB B idxb outb) (pick idxa a.1) with
    | none =>
      rw [hg] at h
      have h' : B.filter (fun b => pick idxb b.1 = pick idxa a.1) = [] := by
        simpa using h
      simp [h', scaleBlocks]
    | some l =>
      rw [hg] at h
      simp only [Option.getD_some] at h
      simp only [h, List.foldl_map, scaleBlocks]
      congr 1
      funext m b
      congr 1
      unfold Arr.tensordot Arr.mapK
      simp only [Arr.mk.injEq, true_and]
      funext ix
      rw [← sum_map_mul_right']
      apply sum_map_congr'
      intro c _
      push_cast
      ring

/-- Contracted legs have opposite signs in the two patterns. -/
def OppositePatterns (A B : FermT Q K) (idxa idxb : List Nat) : Prop :=
  List.Forall₂ (fun i j => A.pattern.getD i true = !B.pattern.getD j true) idxa idxb

theorem contractPatterns_flips (A B : FermT Q K) (idxa idxb : List Nat) (h : OppositePatterns A B idxa idxb) :
    (FermT.contractPatterns A.pattern B.pattern idxa idxb).2 = [] := by
  unfold FermT.contractPatterns
  simp only
  rw [if_neg]
  simp only [ne_eq, not_not, List.map_map]
  unfold OppositePatterns at h
  induction h with
  | nil => rfl
  | cons h1 _ ih => simp only [List.map_cons, ih, h1]; rfl

/-- When fermionic tensors can be contracted: the operands live on `legsA`, `legsB`; the axes name the legs `idxa`, `idxb`,
which are distinct and carry the same bonds `legs` with opposite signs.  (A tensor without blocks does not know its rank; the
first operand must have a block.) -/
structure Contractible (A B : FermT Q K) (axesA axesB : List Int) (legsA legsB legs : List (BondInfo Q))
    (idxa idxb : List Nat) : Prop where
  onA : Conforms legsA A.blocks
  onB : Conforms legsB B.blocks
  axA : List.Forall₂ (NamesAxis legsA.length) axesA idxa
  axB : List.Forall₂ (NamesAxis legsB.length) axesB idxb
  ndA : idxa.Nodup
  ndB : idxb.Nodup
  legA : idxa.map (fun i => legsA.getD i []) = legs
  legB : idxb.map (fun i => legsB.getD i []) = legs
  wf : ∀ b ∈ legs, Dict.WF b
  ne : A.blocks ≠ []
  pat : OppositePatterns A B idxa idxb

/-- C26: contraction of fermionic tensors succeeds, lives on the free legs, and it equals: transpose the first operand so
that the contracted legs stand last in reverse order, transpose the second so that they stand first, then contract neighbouring
legs (innermost pair first) without any sign. -/
theorem C26_tensordot (par : Q → Nat) (A B : FermT Q K) (axesA axesB : List Int) (legsA legsB legs : List (BondInfo Q))
    (idxa idxb : List Nat) (hcon : Contractible A B axesA axesB legsA legsB legs idxa idxb) :
    ∃ R, FermT.tensordot par A B axesA axesB = some R ∧
      Conforms ((freeAxes legsA.length idxa).map (fun i => legsA.getD i []) ++
        (freeAxes legsB.length idxb).map (fun i => legsB.getD i [])) R.blocks ∧
      UniqueLabels R.blocks ∧
      ∀ fa fb, fa.length = (freeAxes legsA.length idxa).length →
        fb.length = (freeAxes legsB.length idxb).length →
          entry R.blocks (fa ++ fb) = ((legIndices legs).map fun c =>
            entry (A.transpose par (some (freeAxes legsA.length idxa ++ idxa.reverse))).blocks (fa ++ c.reverse) *
            entry (B.transpose par (some (idxb ++ freeAxes legsB.length idxb))).blocks (c ++ fb)).sum := by
  obtain ⟨hA, hB, ha, hb, hnda, hndb, hla, hlb, hw, hneA, hpat⟩ := hcon
  have hlta : ∀ i ∈ idxa, i < legsA.length := by
    intro i hi
    obtain ⟨j, hj, rfl⟩ := List.getElem_of_mem hi
    have := (List.forall₂_iff_get.1 ha).2 j (by rw [ha.length_eq]; exact hj) hj
    exact this.1
  have hltb : ∀ i ∈ idxb, i < legsB.length := by
    intro i hi
    obtain ⟨j, hj, rfl⟩ := List.getElem_of_mem hi
    have := (List.forall₂_iff_get.1 hb).2 j (by rw [hb.length_eq]; exact hj) hj
    exact this.1
  have hll : idxa.length = idxb.length := hpat.length_eq
  set fA : List Q → K := fun q => ((computePhase (q.map par) idxa true : Int) : K) with hfA
  set fB : List Q → K := fun q => ((computePhase (q.map par) idxb false : Int) : K) with hfB
  obtain ⟨R0, h1, h2, h3, h4⟩ := C12_tensordot (scaleBlocks fA A.blocks) (scaleBlocks fB B.blocks) axesA axesB legsA legsB legs
    idxa idxb (conforms_scaleBlocks fA hA) (conforms_scaleBlocks fB hB) ha hb hnda hndb hla hlb hw
  have hnd : ∀ (f : List Q → K) (T : SpT Q K), (scaleBlocks f T).ndim = T.ndim := by
    intro f T
    cases T <;> rfl
  have hsome : ∃ R, FermT.tensordot par A B axesA axesB = some R ∧ R.blocks = R0 := by
    unfold FermT.tensordot
    unfold SpT.tensordot at h1
    simp only [hnd, List.length_map, ha.length_eq, hb.length_eq, hll, if_true, Option.some.injEq] at h1
    simp only [List.length_map, ha.length_eq, hb.length_eq, hll, ne_eq, not_true_eq_false, if_false]
    by_cases hne : B.blocks = []
    · have hz : ∀ A' : SpT Q K, ∀ i1 i2 o1 o2, SpT.tensordotCore A' [] i1 i2 o1 o2 = [] := by
        intro A' i1 i2 o1 o2
        rw [tensordotCore_eq]
        unfold contributions
        have : ∀ l : SpT Q K, (l.flatMap fun a => (List.filter (fun b => decide (pick i2 b.1 = pick i1 a.1))
            ([] : SpT Q K)).map fun b => (pick o1 a.1 ++ pick o2 b.1, a.2.tensordot b.2 i1 i2 o1 o2)) = [] := by
          intro l; induction l <;> simp
        rw [this]; rfl
      have hs : ∀ f : List Q → K, scaleBlocks f ([] : SpT Q K) = [] := fun _ => rfl
      rw [hne, hs, hz] at h1
      simp only [hne, not_true_eq_false, and_false, if_false]
      refine ⟨_, rfl, ?_⟩
      rw [← h1]
      simp only
      rw [fermCore_eq, hs, hz]
    · rw [ndim_eq hA hneA, ndim_eq hB hne, normAxes_eq ha, normAxes_eq hb] at h1 ⊢
      rw [contractPatterns_flips A B idxa idxb hpat]
      simp only [not_true_eq_false, false_and, if_false]
      refine ⟨_, rfl, ?_⟩
      rw [← h1, fermCore_eq]
  obtain ⟨R, hR, rfl⟩ := hsome
  refine ⟨R, hR, h2, h3, ?_⟩
  intro fa fb hfa hfb
  have hpa := idx_out_perm hnda hlta
  have hpb := idx_out_perm hndb hltb
  have hna := perm_range_length hpa
  have hnb := perm_range_length hpb
  rw [List.length_append] at hna hnb
  have hlen : ∀ c ∈ legIndices legs, c.length = idxa.length := by
    intro c hc
    have h := ((mem_cart _ _).1 hc).length_eq
    rw [List.length_map] at h
    rw [← h, ← hla, List.length_map]
  have hia : ∀ c ∈ legIndices legs, HasIndices idxa c fa (unpick (idxa ++ SpT.outAxes legsA.length idxa) (c ++ fa)) :=
    fun c hc => (hasIndices_iff hnda hlta (hlen c hc) hfa).2 rfl
  have hib : ∀ c ∈ legIndices legs, HasIndices idxb c fb (unpick (idxb ++ SpT.outAxes legsB.length idxb) (c ++ fb)) :=
    fun c hc => (hasIndices_iff hndb hltb ((hlen c hc).trans hll) hfb).2 rfl
  rw [h4 fa fb hfa hfb _ _ hia hib]
  apply sum_map_congr'
  intro c hc
  obtain ⟨la, ca, oa⟩ := hia c hc
  obtain ⟨lb, cb, ob⟩ := hib c hc
  rw [freeAxes_eq] at hfa hfb oa ob
  rw [freeAxes_eq, freeAxes_eq]
  set ya := unpick (idxa ++ SpT.outAxes legsA.length idxa) (c ++ fa)
  set yb := unpick (idxb ++ SpT.outAxes legsB.length idxb) (c ++ fb)
  have hc' := hlen c hc
  have hya : ya.length = legsA.length := by omega
  have hyb : yb.length = legsB.length := by omega
  rw [hya] at oa
  rw [hyb] at ob
  congr 1
  · have hp2 : (SpT.outAxes legsA.length idxa ++ idxa.reverse).Perm (List.range legsA.length) :=
      (List.perm_append_comm.trans (List.Perm.append_right _ (List.reverse_perm _))).trans hpa
    have h := C25_entry par legsA A hA _ hp2 ya hya
    change entry _ (pick _ _) = _ at h
    have hpk : pick (SpT.outAxes legsA.length idxa ++ idxa.reverse) ya = fa ++ c.reverse := by
      rw [pick_append, oa]
      congr 1
      rw [← ca]
      unfold pick
      rw [List.map_reverse]
    rw [hpk] at h
    rw [h, entry_scaleBlocks, hfA]
    simp only
    rw [computePhase_right _ _ hnda (by simpa [hya] using hlta), legOdd_eq]
    simp only [List.length_map, hya]
  · have h := C25_entry par legsB B hB _ hpb yb hyb
    change entry _ (pick _ _) = _ at h
    rw [pick_append, ob, cb] at h
    rw [h, entry_scaleBlocks, hfB]
    simp only
    rw [computePhase_left _ _ hndb (by simpa [hyb] using hltb), legOdd_eq]
    simp only [List.length_map, hyb]

theorem namesAxis_lt {n : Nat} {ax : List Int} {idx : List Nat} (ha : List.Forall₂ (NamesAxis n) ax idx) :
    ∀ i ∈ idx, i < n := by
  intro i hi
  obtain ⟨j, hj, rfl⟩ := List.getElem_of_mem hi
  have := (List.forall₂_iff_get.1 ha).2 j (by rw [ha.length_eq]; exact hj) hj
  exact this.1

theorem pick_append_left {α : Type} [Zero α] (p : List Nat) (u v : List α) (h : ∀ i ∈ p, i < u.length) :
    pick p (u ++ v) = pick p u := by
  unfold pick
  apply List.map_congr_left
  intro i hi
  simp [List.getElem?_append_left (h i hi)]

theorem pick_append_right {α : Type} [Zero α] (p : List Nat) (u v : List α) :
    pick (p.map (· + u.length)) (u ++ v) = pick p v := by
  unfold pick
  rw [List.map_map]
  apply List.map_congr_left
  intro i hi
  simp [List.getElem?_append_right]

theorem pick_range_append {α : Type} [Zero α] (u v : List α) : pick (List.range u.length) (u ++ v) = u := by
  rw [pick_append_left _ _ _ (by simp), pick_range]

/-- Reordering the first `k` legs only. -/
theorem perm_left_id {k m : Nat} {τ : List Nat} (hτ : τ.Perm (List.range k)) :
    (τ ++ (List.range m).map (· + k)).Perm (List.range (k + m)) := by
  rw [List.range_add]
  have : (List.range m).map (· + k) = (List.range m).map (k + ·) := by
    apply List.map_congr_left; intro i _; omega
  rw [this]
  exact hτ.append_right _

/-- Reordering the legs after the first `k` only. -/
theorem perm_id_right {k m : Nat} {τ : List Nat} (hτ : τ.Perm (List.range m)) :
    (List.range k ++ τ.map (· + k)).Perm (List.range (k + m)) := by
  rw [List.range_add]
  have : (List.range m).map (fun x => k + x) = (List.range m).map (· + k) := by
    apply List.map_congr_left; intro i _; omega
  rw [this]
  exact (hτ.map _).append_left _

theorem sign_left (par : Q → Nat) (u v : List (Q × Nat)) (τ : List Nat) (hτ : τ.Perm (List.range u.length)) :
    reorderSign (legOdd par (u ++ v)) (τ ++ (List.range v.length).map (· + u.length)) = reorderSign (legOdd par u) τ := by
  have hlt : ∀ i ∈ τ, i < u.length := fun i hi => by simpa using hτ.mem_iff.1 hi
  rw [reorderSign_append, legOdd_append]
  · have h1 : reorderSign (legOdd par u ++ legOdd par v) τ = reorderSign (legOdd par u) τ := by
      apply reorderSign_congr
      intro i hi
      rw [List.getD_eq_getElem?_getD, List.getElem?_append_left (by simpa using hlt i hi), List.getD_eq_getElem?_getD]
    have h2 := reorderSign_shift (legOdd par u) (legOdd par v) (List.range v.length)
    rw [legOdd_length] at h2
    rw [h1, h2, reorderSign_range, mul_one]
  · intro x hx y hy
    obtain ⟨i, _, rfl⟩ := List.mem_map.1 hy
    have := hlt x hx
    omega

theorem sign_right (par : Q → Nat) (u v : List (Q × Nat)) (τ : List Nat) :
    reorderSign (legOdd par (u ++ v)) (List.range u.length ++ τ.map (· + u.length)) = reorderSign (legOdd par v) τ := by
  rw [reorderSign_append, legOdd_append]
  · have h2 := reorderSign_shift (legOdd par u) (legOdd par v) τ
    rw [legOdd_length] at h2
    rw [h2, reorderSign_range, one_mul]
  · intro x hx y hy
    obtain ⟨i, _, rfl⟩ := List.mem_map.1 hy
    have : x < u.length := by simpa using hx
    omega

/-- Entries of a transposed tensor whose first legs are reordered. -/
theorem entry_reorder_left (par : Q → Nat) (legs : List (BondInfo Q)) (T : FermT Q K) (hT : Conforms legs T.blocks)
    (u v : List (Q × Nat)) (τ : List Nat) (hτ : τ.Perm (List.range u.length)) (hl : u.length + v.length = legs.length) :
    entry (T.transpose par (some (τ ++ (List.range v.length).map (· + u.length)))).blocks (pick τ u ++ v) =
      ((reorderSign (legOdd par u) τ : Int) : K) * entry T.blocks (u ++ v) := by
  have hlt : ∀ i ∈ τ, i < u.length := fun i hi => by simpa using hτ.mem_iff.1 hi
  have h := C25_entry par legs T hT (τ ++ (List.range v.length).map (· + u.length)) (by rw [← hl]; exact perm_left_id hτ)
    (u ++ v) (by simpa using hl)
  change entry _ (pick _ _) = _ at h
  rw [pick_append, pick_append_left _ _ _ hlt, pick_append_right, pick_range, sign_left par u v τ hτ] at h
  exact h

/-- Entries of a transposed tensor whose last legs are reordered. -/
theorem entry_reorder_right (par : Q → Nat) (legs : List (BondInfo Q)) (T : FermT Q K) (hT : Conforms legs T.blocks)
    (u v : List (Q × Nat)) (τ : List Nat) (hτ : τ.Perm (List.range v.length)) (hl : u.length + v.length = legs.length) :
    entry (T.transpose par (some (List.range u.length ++ τ.map (· + u.length)))).blocks (u ++ pick τ v) =
      ((reorderSign (legOdd par v) τ : Int) : K) * entry T.blocks (u ++ v) := by
  have h := C25_entry par legs T hT (List.range u.length ++ τ.map (· + u.length)) (by rw [← hl]; exact perm_id_right hτ)
    (u ++ v) (by simpa using hl)
  change entry _ (pick _ _) = _ at h
  rw [pick_append, pick_range_append, pick_append_right, sign_right par u v τ] at h
  exact h

theorem getD_pick_lt {α : Type} (d : α) (p : List Nat) (xs : List α) {i : Nat} (h : i < p.length) :
    (p.map fun j => xs.getD j d).getD i d = xs.getD (p.getD i 0) d := by
  simp [List.getD_eq_getElem?_getD, List.getElem?_map, List.getElem?_eq_getElem h]

theorem mem_freeAxes {n i : Nat} {idx : List Nat} : i ∈ freeAxes n idx ↔ i < n ∧ i ∉ idx := by
  unfold freeAxes; simp

/-- Transposing the first operand keeps it contractible, over the same legs at their new places. -/
theorem Contractible.transposeA {A B : FermT Q K} {axesA axesB : List Int} {legsA legsB legs : List (BondInfo Q)}
    {idxa idxb : List Nat} (h : Contractible A B axesA axesB legsA legsB legs idxa idxb) (par : Q → Nat) {σ : List Nat}
    (hσ : σ.Perm (List.range legsA.length)) {axesA' : List Int} {idxa' : List Nat}
    (ha' : List.Forall₂ (NamesAxis legsA.length) axesA' idxa') (hi : idxa'.map (fun i => σ.getD i 0) = idxa) :
    Contractible (A.transpose par (some σ)) B axesA' axesB (σ.map fun i => legsA.getD i []) legsB legs idxa' idxb := by
  have hn := perm_range_length hσ
  have hlt := namesAxis_lt ha'
  refine ⟨C25_conforms par legsA A h.onA σ hσ, h.onB, by simpa [hn] using ha', h.axB, ?_, h.ndB, ?_, h.legB, h.wf, ?_, ?_⟩
  · have := h.ndA
    rw [← hi] at this
    exact List.Nodup.of_map _ this
  · rw [← h.legA, ← hi, List.map_map]
    apply List.map_congr_left
    intro i hi
    exact getD_pick_lt [] σ legsA (by rw [hn]; exact hlt i hi)
  · unfold FermT.transpose
    simpa using h.ne
  · have hp := h.pat
    unfold OppositePatterns at hp ⊢
    rw [← hi, List.forall₂_map_left_iff] at hp
    rw [List.forall₂_iff_get] at hp ⊢
    refine ⟨hp.1, ?_⟩
    intro i h1 h2
    have := hp.2 i h1 h2
    rw [← this]
    unfold FermT.transpose
    simp only [Option.getD_some]
    exact getD_pick_lt true σ A.pattern (by rw [hn]; exact hlt _ (List.getElem_mem h1))

/-- Transposing the second operand keeps it contractible, over the same legs at their new places. -/
theorem Contractible.transposeB {A B : FermT Q K} {axesA axesB : List Int} {legsA legsB legs : List (BondInfo Q)}
    {idxa idxb : List Nat} (h : Contractible A B axesA axesB legsA legsB legs idxa idxb) (par : Q → Nat) {σ : List Nat}
    (hσ : σ.Perm (List.range legsB.length)) {axesB' : List Int} {idxb' : List Nat}
    (hb' : List.Forall₂ (NamesAxis legsB.length) axesB' idxb') (hi : idxb'.map (fun i => σ.getD i 0) = idxb) :
    Contractible A (B.transpose par (some σ)) axesA axesB' legsA (σ.map fun i => legsB.getD i []) legs idxa idxb' := by
  have hn := perm_range_length hσ
  have hlt := namesAxis_lt hb'
  refine ⟨h.onA, C25_conforms par legsB B h.onB σ hσ, h.axA, by simpa [hn] using hb', h.ndA, ?_, h.legA, ?_, h.wf, h.ne, ?_⟩
  · have := h.ndB
    rw [← hi] at this
    exact List.Nodup.of_map _ this
  · rw [← h.legB, ← hi, List.map_map]
    apply List.map_congr_left
    intro i hi
    exact getD_pick_lt [] σ legsB (by rw [hn]; exact hlt i hi)
  · have hp := h.pat
    unfold OppositePatterns at hp ⊢
    rw [← hi, List.forall₂_map_right_iff] at hp
    rw [List.forall₂_iff_get] at hp ⊢
    refine ⟨hp.1, ?_⟩
    intro i h1 h2
    have := hp.2 i h1 h2
    rw [this]
    unfold FermT.transpose
    simp only [Option.getD_some]
    rw [getD_pick_lt true σ B.pattern (by rw [hn]; exact hlt _ (List.getElem_mem h2))]

theorem legIndices_length {legs : List (BondInfo Q)} {c : List (Q × Nat)} (hc : c ∈ legIndices legs) :
    c.length = legs.length := by
  have h := ((mem_cart _ _).1 hc).length_eq
  rw [List.length_map] at h
  exact h.symm

/-- C26: contracting legs whose signs do not fit is rejected, unless the second operand has no blocks. -/
theorem C26_sign_mismatch (par : Q → Nat) (A B : FermT Q K) (axesA axesB : List Int) (idxa idxb : List Nat)
    (ha : List.Forall₂ (NamesAxis A.blocks.ndim) axesA idxa) (hb : List.Forall₂ (NamesAxis B.blocks.ndim) axesB idxb)
    (hl : idxa.length = idxb.length) (hne : B.blocks ≠ []) (h : ¬ OppositePatterns A B idxa idxb) :
    FermT.tensordot par A B axesA axesB = none := by
  have ea : axesA.map (SpT.normAxis A.blocks.ndim) = idxa := normAxes_eq ha
  have eb : axesB.map (SpT.normAxis B.blocks.ndim) = idxb := normAxes_eq hb
  have hf : (FermT.contractPatterns A.pattern B.pattern idxa idxb).2 ≠ [] := by
    unfold FermT.contractPatterns
    simp only
    have key : ∀ (l l' : List Nat), l.length = l'.length →
        ¬ List.Forall₂ (fun i j => A.pattern.getD i true = !B.pattern.getD j true) l l' →
        l.map (fun i => A.pattern.getD i true) ≠ (l'.map fun i => B.pattern.getD i true).map not ∧
        ((l'.zip ((l.map fun i => A.pattern.getD i true).zip (l'.map fun i => B.pattern.getD i true))).filter fun p => p.2.1 = p.2.2).map Prod.fst ≠ [] := by
      intro l
      induction l with
      | nil =>
        intro l' hl' hn
        cases l' with
        | nil => exact absurd .nil hn
        | cons => simp at hl'
      | cons i l ih =>
        intro l' hl' hn
        cases l' with
        | nil => simp at hl'
        | cons j l' =>
          by_cases hij : A.pattern.getD i true = !B.pattern.getD j true
          · obtain ⟨k1, k2⟩ := ih l' (by simpa using hl') (fun h => hn (.cons hij h))
            refine ⟨?_, ?_⟩
            · intro e
              simp only [List.map_cons, List.cons.injEq] at e
              exact k1 e.2
            · intro e
              apply k2
              simp only [List.map_cons, List.zip_cons_cons, List.filter_cons] at e
              split_ifs at e
              · simp at e
              · exact e
          · have hij' : A.pattern.getD i true = B.pattern.getD j true := by
              cases h1 : A.pattern.getD i true <;> cases h2 : B.pattern.getD j true <;> simp_all
            refine ⟨?_, ?_⟩
            · intro e
              simp only [List.map_cons, List.cons.injEq] at e
              exact hij e.1
            · simp only [List.map_cons, List.zip_cons_cons, List.filter_cons]
              rw [if_pos (by simpa using hij')]
              simp
    obtain ⟨k1, k2⟩ := key idxa idxb hl h
    rw [if_pos k1]
    exact k2
  unfold FermT.tensordot
  simp only [ea, eb]
  rw [if_neg (by simp [hl]), if_pos ⟨hf, hne⟩]

/-- Two incoming legs cannot be contracted. -/
example : FermT.tensordot (fun q : Int => q.natAbs) (⟨[true], [([1], ⟨[1], fun _ => (1 : Int)⟩)]⟩ : FermT Int Int) ⟨[true], [([1], ⟨[1], fun _ => 1⟩)]⟩ [0] [0] = none :=
  rfl

/-- C26: reordering the legs of the first operand before the contraction only reorders (with sign) the legs of the
result.  `σ` is the reordering, `τ` the resulting order of the remaining legs. -/
theorem C26_transpose_left (par : Q → Nat) (A B R R' : FermT Q K) (axesA axesB axesA' : List Int)
    (legsA legsB legs : List (BondInfo Q)) (idxa idxb idxa' σ τ : List Nat)
    (h : Contractible A B axesA axesB legsA legsB legs idxa idxb) (hσ : σ.Perm (List.range legsA.length))
    (ha' : List.Forall₂ (NamesAxis legsA.length) axesA' idxa') (hi : idxa'.map (fun i => σ.getD i 0) = idxa)
    (hτ : τ.Perm (List.range (freeAxes legsA.length idxa).length))
    (hf : τ.map (fun i => (freeAxes legsA.length idxa).getD i 0) = (freeAxes legsA.length idxa').map fun i => σ.getD i 0)
    (hR : FermT.tensordot par A B axesA axesB = some R)
    (hR' : FermT.tensordot par (A.transpose par (some σ)) B axesA' axesB = some R')
    (x : List (Q × Nat)) (hx : x.length = (freeAxes legsA.length idxa).length + (freeAxes legsB.length idxb).length) :
    entry R'.blocks x = entry (R.transpose par (some (τ ++
      (List.range (freeAxes legsB.length idxb).length).map (· + (freeAxes legsA.length idxa).length)))).blocks x := by
  have hn := perm_range_length hσ
  have hlta' := namesAxis_lt ha'
  have hlta := namesAxis_lt h.axA
  have hnt := perm_range_length hτ
  have h' := h.transposeA par hσ ha' hi
  obtain ⟨R1, r1, r2, r3, r4⟩ := C26_tensordot par A B axesA axesB legsA legsB legs idxa idxb h
  obtain ⟨R2, s1, s2, s3, s4⟩ := C26_tensordot par _ B axesA' axesB _ legsB legs idxa' idxb h'
  rw [hR] at r1
  rw [hR'] at s1
  cases r1
  cases s1
  simp only [List.length_map, hn] at s4
  set k := (freeAxes legsA.length idxa).length with hk
  set m := (freeAxes legsB.length idxb).length with hm
  have hk' : (freeAxes legsA.length idxa').length = k := by
    have := congrArg List.length hf
    simpa [hnt] using this.symm
  -- write `x` through the original order
  set fa := unpick τ (x.take k) with hfa
  set fb := x.drop k with hfb
  have hfal : fa.length = k := by rw [hfa, unpick_length, hnt]
  have hfbl : fb.length = m := by rw [hfb, List.length_drop, hx]; omega
  have hpk : pick τ fa = x.take k := pick_unpick hτ _ (by rw [List.length_take, hx]; omega)
  have hxe : x = pick τ fa ++ fb := by rw [hpk, hfb, List.take_append_drop]
  have hτ' : τ.Perm (List.range fa.length) := by rw [hfal]; exact hτ
  rw [hxe]
  have hRl : ((freeAxes legsA.length idxa).map (fun i => legsA.getD i []) ++
        (freeAxes legsB.length idxb).map (fun i => legsB.getD i [])).length = fa.length + fb.length := by
    simp [hfal, hfbl, hk, hm]
  have e1 := entry_reorder_left par _ R r2 fa fb τ hτ' hRl.symm
  rw [hfal, hfbl] at e1
  rw [e1, r4 fa fb hfal hfbl, s4 (pick τ fa) fb (by rw [pick_length, hnt, hk']) hfbl, ← sum_map_mul_left']
  apply sum_map_congr'
  intro c hc
  have hcl : c.length = idxa.length := by rw [legIndices_length hc, ← h.legA, List.length_map]
  have hpa := idx_out_perm h.ndA hlta
  have hpa' := idx_out_perm h'.ndA hlta'
  rw [← freeAxes_eq] at hpa hpa'
  have hp1 : (freeAxes legsA.length idxa ++ idxa.reverse).Perm (List.range legsA.length) :=
    (List.perm_append_comm.trans (List.Perm.append_right _ (List.reverse_perm _))).trans hpa
  have hp2 : (freeAxes legsA.length idxa' ++ idxa'.reverse).Perm (List.range legsA.length) :=
    (List.perm_append_comm.trans (List.Perm.append_right _ (List.reverse_perm _))).trans hpa'
  have hsum : k + idxa.length = legsA.length := by
    have := perm_range_length hpa
    simp only [List.length_append] at this
    omega
  have hp3 : (τ ++ (List.range idxa.length).map (· + k)).Perm (List.range legsA.length) := by
    rw [← hsum]; exact perm_left_id hτ
  have hcomp : (freeAxes legsA.length idxa' ++ idxa'.reverse).map (fun i => σ.getD i 0) =
      (τ ++ (List.range idxa.length).map (· + k)).map fun i => (freeAxes legsA.length idxa ++ idxa.reverse).getD i 0 := by
    rw [List.map_append, List.map_append, ← hf, List.map_reverse, hi]
    congr 1
    · have := pick_append_left τ (freeAxes legsA.length idxa) idxa.reverse (fun i hi => by simpa using hτ.mem_iff.1 hi)
      exact this.symm
    · have := pick_append_right (List.range idxa.length) (freeAxes legsA.length idxa) idxa.reverse
      have e2 := pick_range idxa.reverse
      rw [List.length_reverse] at e2
      rw [e2] at this
      exact this.symm
  have hxl : (pick τ fa ++ c.reverse).length = legsA.length := by simp [hnt, hcl, hsum]
  have c1 := C25_compose par legsA A h.onA σ (freeAxes legsA.length idxa' ++ idxa'.reverse) hσ hp2 (pick τ fa ++ c.reverse) hxl
  have c2 := C25_compose par legsA A h.onA (freeAxes legsA.length idxa ++ idxa.reverse)
    (τ ++ (List.range idxa.length).map (· + k)) hp1 hp3 (pick τ fa ++ c.reverse) hxl
  rw [c1, hcomp, ← c2]
  have e2 := entry_reorder_left par _ (A.transpose par (some (freeAxes legsA.length idxa ++ idxa.reverse)))
    (C25_conforms par legsA A h.onA _ hp1) fa c.reverse τ hτ' (by simp [hfal, hcl, hk])
  rw [hfal, List.length_reverse, hcl] at e2
  rw [e2, mul_assoc]

/-- C26: reordering the legs of the second operand before the contraction only reorders (with sign) the legs of the
result. -/
theorem C26_transpose_right (par : Q → Nat) (A B R R' : FermT Q K) (axesA axesB axesB' : List Int)
    (legsA legsB legs : List (BondInfo Q)) (idxa idxb idxb' σ τ : List Nat)
    (h : Contractible A B axesA axesB legsA legsB legs idxa idxb) (hσ : σ.Perm (List.range legsB.length))
    (hb' : List.Forall₂ (NamesAxis legsB.length) axesB' idxb') (hi : idxb'.map (fun i => σ.getD i 0) = idxb)
    (hτ : τ.Perm (List.range (freeAxes legsB.length idxb).length))
    (hf : τ.map (fun i => (freeAxes legsB.length idxb).getD i 0) = (freeAxes legsB.length idxb').map fun i => σ.getD i 0)
    (hR : FermT.tensordot par A B axesA axesB = some R)
    (hR' : FermT.tensordot par A (B.transpose par (some σ)) axesA axesB' = some R')
    (x : List (Q × Nat)) (hx : x.length = (freeAxes legsA.length idxa).length + (freeAxes legsB.length idxb).length) :
    entry R'.blocks x = entry (R.transpose par (some (List.range (freeAxes legsA.length idxa).length ++
      τ.map (· + (freeAxes legsA.length idxa).length)))).blocks x := by
  have hn := perm_range_length hσ
  have hltb' := namesAxis_lt hb'
  have hltb := namesAxis_lt h.axB
  have hnt := perm_range_length hτ
  have h' := h.transposeB par hσ hb' hi
  obtain ⟨R1, r1, r2, r3, r4⟩ := C26_tensordot par A B axesA axesB legsA legsB legs idxa idxb h
  obtain ⟨R2, s1, s2, s3, s4⟩ := C26_tensordot par A _ axesA axesB' legsA _ legs idxa idxb' h'
  rw [hR] at r1
  rw [hR'] at s1
  cases r1
  cases s1
  simp only [List.length_map, hn] at s4
  set k := (freeAxes legsA.length idxa).length with hk
  set m := (freeAxes legsB.length idxb).length with hm
  have hm' : (freeAxes legsB.length idxb').length = m := by
    have := congrArg List.length hf
    simpa [hnt] using this.symm
  set fa := x.take k with hfa
  set fb := unpick τ (x.drop k) with hfb
  have hfal : fa.length = k := by rw [hfa, List.length_take, hx]; omega
  have hfbl : fb.length = m := by rw [hfb, unpick_length, hnt]
  have hpk : pick τ fb = x.drop k := pick_unpick hτ _ (by rw [List.length_drop, hx]; omega)
  have hxe : x = fa ++ pick τ fb := by rw [hpk, hfa, List.take_append_drop]
  have hτ' : τ.Perm (List.range fb.length) := by rw [hfbl]; exact hτ
  rw [hxe]
  have hRl : ((freeAxes legsA.length idxa).map (fun i => legsA.getD i []) ++
        (freeAxes legsB.length idxb).map (fun i => legsB.getD i [])).length = fa.length + fb.length := by
    simp [hfal, hfbl, hk, hm]
  have e1 := entry_reorder_right par _ R r2 fa fb τ hτ' hRl.symm
  rw [hfal] at e1
  rw [e1, r4 fa fb hfal hfbl, s4 fa (pick τ fb) hfal (by rw [pick_length, hnt, hm']), ← sum_map_mul_left']
  apply sum_map_congr'
  intro c hc
  have hcl : c.length = idxb.length := by rw [legIndices_length hc, ← h.legB, List.length_map]
  have hpb := idx_out_perm h.ndB hltb
  have hpb' := idx_out_perm h'.ndB hltb'
  rw [← freeAxes_eq] at hpb hpb'
  have hsum : idxb.length + m = legsB.length := by
    have := perm_range_length hpb
    simpa only [List.length_append] using this
  have hp3 : (List.range idxb.length ++ τ.map (· + idxb.length)).Perm (List.range legsB.length) := by
    rw [← hsum]; exact perm_id_right hτ
  have hcomp : (idxb' ++ freeAxes legsB.length idxb').map (fun i => σ.getD i 0) =
      (List.range idxb.length ++ τ.map (· + idxb.length)).map fun i => (idxb ++ freeAxes legsB.length idxb).getD i 0 := by
    rw [List.map_append, List.map_append, ← hf, hi]
    congr 1
    · exact (pick_range_append idxb (freeAxes legsB.length idxb)).symm
    · exact (pick_append_right τ idxb (freeAxes legsB.length idxb)).symm
  have hxl : (c ++ pick τ fb).length = legsB.length := by simp [hnt, hcl, hsum]
  have c1 := C25_compose par legsB B h.onB σ (idxb' ++ freeAxes legsB.length idxb') hσ hpb' (c ++ pick τ fb) hxl
  have c2 := C25_compose par legsB B h.onB (idxb ++ freeAxes legsB.length idxb)
    (List.range idxb.length ++ τ.map (· + idxb.length)) hpb hp3 (c ++ pick τ fb) hxl
  rw [c1, hcomp, ← c2]
  have e2 := entry_reorder_right par _ (B.transpose par (some (idxb ++ freeAxes legsB.length idxb)))
    (C25_conforms par legsB B h.onB _ hpb) c fb τ hτ' (by simp [hfbl, hcl, hm])
  rw [hcl] at e2
  rw [e2]
  ring


theorem mem_legIndices {legs : List (BondInfo Q)} {c : List (Q × Nat)} :
    c ∈ legIndices legs ↔ c.length = legs.length ∧ ∀ i, i < legs.length → c.getD i 0 ∈ legBasis (legs.getD i []) := by
  unfold legIndices
  rw [mem_cart, List.forall₂_map_left_iff, List.forall₂_iff_get]
  constructor
  · rintro ⟨h1, h2⟩
    refine ⟨h1.symm, fun i hi => ?_⟩
    have := h2 i hi (h1 ▸ hi)
    simpa [List.getD_eq_getElem?_getD, List.getElem?_eq_getElem hi, List.getElem?_eq_getElem (h1 ▸ hi : i < c.length)]
      using this
  · rintro ⟨h1, h2⟩
    refine ⟨h1.symm, fun i hi hi' => ?_⟩
    have := h2 i hi
    simpa [List.getD_eq_getElem?_getD, List.getElem?_eq_getElem hi, List.getElem?_eq_getElem hi'] using this

/-- Choosing basis vectors on reordered legs. -/
theorem legIndices_pick {legs : List (BondInfo Q)} (hw : ∀ b ∈ legs, Dict.WF b) {π : List Nat}
    (hπ : π.Perm (List.range legs.length)) :
    (legIndices (π.map fun i => legs.getD i [])).Perm ((legIndices legs).map (pick π)) := by
  have hn := perm_range_length hπ
  have hlt : ∀ i ∈ π, i < legs.length := fun i hi => by simpa using hπ.mem_iff.1 hi
  have hnd : ∀ l : List (BondInfo Q), (∀ b ∈ l, Dict.WF b) → (legIndices l).Nodup := by
    intro l hl
    unfold legIndices
    apply cart_nodup
    intro b hb
    obtain ⟨b', hb', rfl⟩ := List.mem_map.1 hb
    exact legBasis_nodup (hl _ hb')
  rw [List.perm_ext_iff_of_nodup]
  · intro c
    rw [List.mem_map]
    constructor
    · intro hc
      have hc' := mem_legIndices.1 hc
      have hcl : c.length = legs.length := by rw [hc'.1, List.length_map, hn]
      refine ⟨unpick π c, ?_, pick_unpick hπ c hcl⟩
      rw [mem_legIndices, unpick_length, hn]
      refine ⟨rfl, fun i hi => ?_⟩
      obtain ⟨j, hj, hji⟩ := List.getElem_of_mem (hπ.mem_iff.2 (List.mem_range.2 hi))
      have h1 := hc'.2 j (by simpa using hj)
      rw [getD_pick_lt [] π legs hj] at h1
      have hgd : π.getD j 0 = i := by rw [List.getD_eq_getElem?_getD, List.getElem?_eq_getElem hj]; exact hji
      have h2 : c.getD j 0 = (unpick π c).getD i 0 := by
        conv_lhs => rw [← pick_unpick hπ c hcl]
        rw [← hgd]
        exact getD_pick_lt 0 π (unpick π c) hj
      rw [← h2, ← hgd]
      exact h1
    · rintro ⟨d, hd, rfl⟩
      have hd' := mem_legIndices.1 hd
      rw [mem_legIndices]
      refine ⟨by simp, fun i hi => ?_⟩
      have hi' : i < π.length := by simpa using hi
      rw [getD_pick_lt [] π legs hi']
      have : (pick π d).getD i 0 = d.getD (π.getD i 0) 0 := getD_pick_lt 0 π d hi'
      rw [this]
      apply hd'.2
      apply hlt
      rw [List.getD_eq_getElem?_getD, List.getElem?_eq_getElem hi']
      exact List.getElem_mem hi'
  · apply hnd
    intro b hb
    obtain ⟨i, hi, rfl⟩ := List.mem_map.1 hb
    rw [List.getD_eq_getElem?_getD, List.getElem?_eq_getElem (hlt i hi)]
    exact hw _ (List.getElem_mem _)
  · refine List.Nodup.map_on ?_ (hnd legs hw)
    intro x hx y hy hxy
    rw [← unpick_pick hπ x (legIndices_length hx), ← unpick_pick hπ y (legIndices_length hy), hxy]

theorem pick_reverse_reverse {α : Type} [Zero α] (π : List Nat) (c : List α) (h : ∀ i ∈ π, i < c.length) :
    pick (π.reverse.map fun i => c.length - 1 - i) c.reverse = (pick π c).reverse := by
  unfold pick
  rw [List.map_map, List.map_reverse]
  congr 1
  apply List.map_congr_left
  intro i hi
  have := h i hi
  simp only [Function.comp, List.getD_eq_getElem?_getD]
  rw [List.getElem?_reverse (by omega)]
  congr 2
  omega

theorem perm_reflect {n : Nat} {π : List Nat} (hπ : π.Perm (List.range n)) :
    (π.reverse.map fun i => n - 1 - i).Perm (List.range n) := by
  have h1 : (π.reverse.map fun i => n - 1 - i).Perm ((List.range n).map fun i => n - 1 - i) :=
    ((List.reverse_perm π).trans hπ).map _
  refine h1.trans ?_
  rw [List.perm_ext_iff_of_nodup]
  · intro i
    simp only [List.mem_map, List.mem_range]
    constructor
    · rintro ⟨j, hj, rfl⟩; omega
    · intro hi; exact ⟨n - 1 - i, by omega, by omega⟩
  · refine List.Nodup.map_on ?_ List.nodup_range
    intro x hx y hy hxy
    have := List.mem_range.1 hx
    have := List.mem_range.1 hy
    omega
  · exact List.nodup_range

theorem freeAxes_congr {n : Nat} {u v : List Nat} (h : ∀ i, i ∈ u ↔ i ∈ v) : freeAxes n u = freeAxes n v := by
  unfold freeAxes
  apply List.filter_congr
  intro i _
  simp [h i]

/-- C26: the order in which the pairs of contracted legs are listed does not matter, signs included. -/
theorem C26_pair_order (par : Q → Nat) (A B R R' : FermT Q K) (axesA axesB axesA' axesB' : List Int)
    (legsA legsB legs : List (BondInfo Q)) (idxa idxb π : List Nat)
    (h : Contractible A B axesA axesB legsA legsB legs idxa idxb) (hπ : π.Perm (List.range idxa.length))
    (ha' : List.Forall₂ (NamesAxis legsA.length) axesA' (π.map fun i => idxa.getD i 0))
    (hb' : List.Forall₂ (NamesAxis legsB.length) axesB' (π.map fun i => idxb.getD i 0))
    (hR : FermT.tensordot par A B axesA axesB = some R)
    (hR' : FermT.tensordot par A B axesA' axesB' = some R')
    (x : List (Q × Nat)) (hx : x.length = (freeAxes legsA.length idxa).length + (freeAxes legsB.length idxb).length) :
    entry R'.blocks x = entry R.blocks x := by
  have hn := perm_range_length hπ
  have hll : legs.length = idxa.length := by rw [← h.legA, List.length_map]
  have hlb : idxb.length = idxa.length := by rw [← hll, ← h.legB, List.length_map]
  have hlta := namesAxis_lt h.axA
  have hltb := namesAxis_lt h.axB
  have hlt : ∀ i ∈ π, i < idxa.length := fun i hi => by simpa using hπ.mem_iff.1 hi
  have hpma : (pick π idxa).Perm idxa := by
    have := hπ.map fun i => idxa.getD i 0
    have e := pick_range idxa
    unfold pick at e
    rw [e] at this
    exact this
  have hpmb : (pick π idxb).Perm idxb := by
    have := hπ.map fun i => idxb.getD i 0
    have e := pick_range idxb
    unfold pick at e
    rw [← hlb, e] at this
    exact this
  have h' : Contractible A B axesA' axesB' legsA legsB (π.map fun i => legs.getD i []) (pick π idxa) (pick π idxb) := by
    refine ⟨h.onA, h.onB, ha', hb', hpma.nodup_iff.2 h.ndA, hpmb.nodup_iff.2 h.ndB, ?_, ?_, ?_, h.ne, ?_⟩
    · rw [← h.legA]
      unfold pick
      rw [List.map_map]
      apply List.map_congr_left
      intro i hi
      have hi' := hlt i hi
      simp [List.getD_eq_getElem?_getD, List.getElem?_eq_getElem hi']
    · rw [← h.legB]
      unfold pick
      rw [List.map_map]
      apply List.map_congr_left
      intro i hi
      have hi' : i < idxb.length := by rw [hlb]; exact hlt i hi
      simp [List.getD_eq_getElem?_getD, List.getElem?_eq_getElem hi']
    · intro b hb
      obtain ⟨i, hi, rfl⟩ := List.mem_map.1 hb
      have hi' : i < legs.length := by rw [hll]; exact hlt i hi
      rw [List.getD_eq_getElem?_getD, List.getElem?_eq_getElem hi']
      exact h.wf _ (List.getElem_mem _)
    · have hp := h.pat
      unfold OppositePatterns at hp ⊢
      unfold pick
      rw [List.forall₂_map_left_iff, List.forall₂_map_right_iff, List.forall₂_same]
      intro i hi
      have hi1 := hlt i hi
      have hi2 : i < idxb.length := by rw [hlb]; exact hi1
      rw [List.forall₂_iff_get] at hp
      have := hp.2 i hi1 hi2
      have e1 : idxa.getD i 0 = idxa[i] := by simp [List.getD_eq_getElem?_getD, hi1]
      have e2 : idxb.getD i 0 = idxb[i] := by simp [List.getD_eq_getElem?_getD, hi2]
      rw [e1, e2]
      exact this
  obtain ⟨R1, r1, r2, r3, r4⟩ := C26_tensordot par A B axesA axesB legsA legsB legs idxa idxb h
  obtain ⟨R2, s1, s2, s3, s4⟩ := C26_tensordot par A B axesA' axesB' legsA legsB _ _ _ h'
  rw [hR] at r1
  rw [hR'] at s1
  cases r1
  cases s1
  rw [freeAxes_congr (fun i => hpma.mem_iff), freeAxes_congr (fun i => hpmb.mem_iff)] at s4
  set k := (freeAxes legsA.length idxa).length with hk
  set m := (freeAxes legsB.length idxb).length with hm
  set fa := x.take k with hfa
  set fb := x.drop k with hfb
  have hfal : fa.length = k := by rw [hfa, List.length_take, hx]; omega
  have hfbl : fb.length = m := by rw [hfb, List.length_drop, hx]; omega
  have hxe : x = fa ++ fb := (List.take_append_drop _ _).symm
  rw [hxe, r4 fa fb hfal hfbl, s4 fa fb hfal hfbl]
  rw [((legIndices_pick h.wf (by rw [hll]; exact hπ)).map _).sum_eq, List.map_map]
  apply sum_map_congr'
  intro c hc
  have hcl : c.length = idxa.length := by rw [legIndices_length hc, hll]
  have hltc : ∀ i ∈ π, i < c.length := by rw [hcl]; exact hlt
  have hpa := idx_out_perm h.ndA hlta
  have hpb := idx_out_perm h.ndB hltb
  have hpa' := idx_out_perm h'.ndA (namesAxis_lt ha')
  have hpb' := idx_out_perm h'.ndB (namesAxis_lt hb')
  rw [← freeAxes_eq] at hpa hpb hpa' hpb'
  rw [freeAxes_congr (fun i => hpma.mem_iff)] at hpa'
  rw [freeAxes_congr (fun i => hpmb.mem_iff)] at hpb'
  have hp1 : (freeAxes legsA.length idxa ++ idxa.reverse).Perm (List.range legsA.length) :=
    (List.perm_append_comm.trans (List.Perm.append_right _ (List.reverse_perm _))).trans hpa
  have hsumA : k + idxa.length = legsA.length := by
    have := perm_range_length hpa
    simp only [List.length_append] at this
    omega
  have hsumB : idxb.length + m = legsB.length := by
    have := perm_range_length hpb
    simpa only [List.length_append] using this
  -- first operand
  set π' := π.reverse.map fun i => idxa.length - 1 - i with hπ'
  have hπp : π'.Perm (List.range idxa.length) := perm_reflect hπ
  have hqA : (List.range k ++ π'.map (· + k)).Perm (List.range legsA.length) := by
    rw [← hsumA]; exact perm_id_right hπp
  have hcompA : (List.range k ++ π'.map (· + k)).map (fun i => (freeAxes legsA.length idxa ++ idxa.reverse).getD i 0) =
      freeAxes legsA.length idxa ++ (pick π idxa).reverse := by
    rw [List.map_append]
    congr 1
    · exact pick_range_append (freeAxes legsA.length idxa) idxa.reverse
    · have := pick_append_right π' (freeAxes legsA.length idxa) idxa.reverse
      rw [hπ', pick_reverse_reverse π idxa hlt] at this
      exact this
  have hxlA : (fa ++ (pick π c).reverse).length = legsA.length := by simp [hn, hfal, hsumA]
  have cA := C25_compose par legsA A h.onA (freeAxes legsA.length idxa ++ idxa.reverse) _ hp1 hqA
    (fa ++ (pick π c).reverse) hxlA
  rw [hcompA] at cA
  have eA := entry_reorder_right par _ (A.transpose par (some (freeAxes legsA.length idxa ++ idxa.reverse)))
    (C25_conforms par legsA A h.onA _ hp1) fa c.reverse π' (by simpa [hcl] using hπp) (by simp [hfal, hcl, hk])
  have hpr := pick_reverse_reverse π c hltc
  rw [hcl] at hpr
  rw [hfal, hπ', hpr, ← hπ', cA] at eA
  have hsg := reorderSign_reverse (legOdd par c) π (by simpa using hltc)
  rw [legOdd_length, hcl, ← legOdd_reverse] at hsg
  rw [hsg] at eA
  -- second operand
  have hqB : (π ++ (List.range m).map (· + idxb.length)).Perm (List.range legsB.length) := by
    rw [← hsumB]; exact perm_left_id (by rw [hlb]; exact hπ)
  have hcompB : (π ++ (List.range m).map (· + idxb.length)).map
      (fun i => (idxb ++ freeAxes legsB.length idxb).getD i 0) = pick π idxb ++ freeAxes legsB.length idxb := by
    rw [List.map_append]
    congr 1
    · exact pick_append_left π idxb (freeAxes legsB.length idxb) (by rw [hlb]; exact hlt)
    · have := pick_append_right (List.range m) idxb (freeAxes legsB.length idxb)
      rw [hm, pick_range] at this
      exact this
  have hxlB : (pick π c ++ fb).length = legsB.length := by simp [hn, hfbl, ← hsumB, hlb]
  have cB := C25_compose par legsB B h.onB (idxb ++ freeAxes legsB.length idxb) _ hpb hqB (pick π c ++ fb) hxlB
  rw [hcompB] at cB
  have eB := entry_reorder_left par _ (B.transpose par (some (idxb ++ freeAxes legsB.length idxb)))
    (C25_conforms par legsB B h.onB _ hpb) c fb π (by rw [hcl]; exact hπ) (by simp [hfbl, hcl, hlb, hm])
  rw [hcl, hfbl, ← hlb, cB] at eB
  simp only [Function.comp]
  rw [eA, eB]
  have hsq : ((reorderSign (legOdd par c) π : Int) : K) * ((reorderSign (legOdd par c) π : Int) : K) = 1 := by
    rw [← Int.cast_mul, reorderSign_sq, Int.cast_one]
  rw [mul_mul_mul_comm, hsq, one_mul]

end

/-! Tensors meeting the hypotheses of C25 and C26: labels are particle numbers. -/

/-- Three legs of signs `+ + -`; two blocks. -/
def exFermA : FermT Int Int :=
  { pattern := [true, true, false]
    blocks := [([1, 0, 1], { shape := [1, 1, 1], get := fun _ => 2 }), ([1, 1, 2], { shape := [1, 1, 1], get := fun _ => 3 })] }

/-- Three legs of signs `- - +`. -/
def exFermB : FermT Int Int :=
  { pattern := [false, false, true]
    blocks := [([1, 1, 2], { shape := [1, 1, 1], get := fun _ => 5 })] }

def exFermLegs : List (BondInfo Int) := [[(0, 1), (1, 1)], [(0, 1), (1, 1)], [(0, 1), (1, 1), (2, 1)]]

example : Contractible exFermA exFermB [0, -2] [1, 0] exFermLegs exFermLegs [[(0, 1), (1, 1)], [(0, 1), (1, 1)]] [0, 1] [1, 0] :=
  { onA := by decide, onB := by decide
    axA := .cons ⟨by decide, Or.inl rfl⟩ (.cons ⟨by decide, Or.inr rfl⟩ .nil)
    axB := .cons ⟨by decide, Or.inl rfl⟩ (.cons ⟨by decide, Or.inl rfl⟩ .nil)
    ndA := by decide, ndB := by decide, legA := rfl, legB := rfl, wf := by decide, ne := by decide
    pat := .cons rfl (.cons rfl .nil) }

/-- The plain contraction would give 15; crossing the two contracted odd legs costs a sign, or not, depending on how they are
paired. -/
example : (FermT.tensordot Int.natAbs exFermA exFermB [0, -2] [1, 0]).map (fun R => entry R.blocks [(2, 0), (2, 0)]) = some 15 ∧
    (FermT.tensordot Int.natAbs exFermA exFermB [0, 1] [0, 1]).map (fun R => entry R.blocks [(2, 0), (2, 0)]) = some (-15) ∧
    (FermT.tensordot Int.natAbs exFermA exFermB [1, 0] [1, 0]).map (fun R => entry R.blocks [(2, 0), (2, 0)]) = some (-15) := by
  decide

end Verif
