import Verif.Proof.FlatFermDot
import Verif.Thm.FlatFermTrace

set_option linter.unusedSectionVars false

/-!
C79: transposing and contracting flat fermionic tensors.
-/

namespace Verif
open FlatFermT
variable {Q C K : Type} [AddCommGroup Q] [DecidableEq Q] [DecidableEq C] [Zero C] [CommRing K]

theorem oddLegs_eq (par : Q → Nat) (dec : C → Q) (q : List C) :
    oddLegs par dec q = ((q.map dec).map par).map fun p => decide (p % 2 = 1) := by
  simp [oddLegs, Function.comp_def]

theorem flat_lengths (dec : C → Q) {legs : List (BondInfo Q)} {l : List (List C × List Nat × List K)} (hl : Flat.Chunked l)
    (hc : Conforms legs (Flat.toSparse dec (Flat.pack l))) : ∀ e ∈ l, ((e.1.map dec).map par).length = legs.length := by
  intro e he
  rw [Flat.toSparse_pack dec hl] at hc
  have := (hc _ (List.mem_map.2 ⟨e, he, rfl⟩)).lengths
  simpa using this.1

theorem flat_ndim (dec : C → Q) {p : List Bool} {legs : List (BondInfo Q)} {l : List (List C × List Nat × List K)} (hl : Flat.Chunked l)
    (hc : Conforms legs (Flat.toSparse dec (Flat.pack l))) (hne : l ≠ []) : FlatFermT.ndim (⟨p, Flat.pack l⟩ : FlatFermT C K) = legs.length := by
  obtain ⟨e, t, rfl⟩ := List.exists_cons_of_ne_nil hne
  have := flat_lengths (par := fun _ => (0 : Nat)) dec hl hc e (by simp)
  simpa [FlatFermT.ndim, Flat.pack] using this

/-- C79: transposing a flat fermionic tensor gives the blocks and the signs of the transposed block tensor. -/
theorem C79_transpose (par : Q → Nat) (dec : C → Q) (T : FlatFermT C K) (legs : List (BondInfo Q)) (ax : List Nat) (hw : T.flat.WellFormed)
    (hc : Conforms legs (T.toSparse dec).blocks) (hp : ax.Perm (List.range legs.length)) (hne : T.flat.qs ≠ []) :
    let R := T.transpose par dec (some ax)
    R.flat.WellFormed ∧ R.pattern = ((T.toSparse dec).transpose par (some ax)).pattern ∧
      SameBlocks (R.toSparse dec).blocks ((T.toSparse dec).transpose par (some ax)).blocks := by
  obtain ⟨p, F⟩ := T
  obtain ⟨l, hl, rfl⟩ := Flat.exists_pack hw
  have hlne : l ≠ [] := by rintro rfl; exact hne rfl
  have hc : Conforms legs (Flat.toSparse dec (Flat.pack l)) := hc
  have hcl := flat_lengths (par := par) dec hl hc
  have hf : ∀ e ∈ l, ((FermPhase.phase1 (oddLegs par dec e.1) ax : Int) : K) = ((computePhase ((e.1.map dec).map par) ax false : Int) : K) := by
    intro e he
    have hp' : ax.Perm (List.range ((e.1.map dec).map par).length) := by rw [hcl e he]; exact hp
    rw [oddLegs_eq, (C78_same_as_python _ ax (hp.nodup_iff.2 List.nodup_range) (fun i hi => by simpa using hp'.mem_iff.1 hi)).1 hp']
  have hts := toSparse_scale dec (fun q => ((FermPhase.phase1 (oddLegs par dec q) ax : Int) : K))
    (fun q => ((computePhase (q.map par) ax false : Int) : K)) hl hf
  intro R
  have hR : R = _ := transpose_pack par dec ax p hl hlne
  have h47 := C47_transpose legs dec (Flat.pack (scaleRows (fun q => ((FermPhase.phase1 (oddLegs par dec q) ax : Int) : K)) l)) ax
    (Flat.pack_wellFormed (chunked_scaleRows _ hl)) (by rw [hts]; exact conforms_scaleBlocks _ hc) hp
  rw [hR]
  refine ⟨h47.1, rfl, ?_⟩
  rw [transpose_blocks]
  have := h47.2
  rw [hts] at this
  exact this

/-- C79: without axes the legs are reversed. -/
theorem C79_default (par : Q → Nat) (dec : C → Q) (T : FlatFermT C K) (legs : List (BondInfo Q)) (hw : T.flat.WellFormed)
    (hc : Conforms legs (T.toSparse dec).blocks) (hne : T.flat.qs ≠ []) :
    T.transpose par dec none = T.transpose par dec (some (List.range legs.length).reverse) := by
  obtain ⟨p, F⟩ := T
  obtain ⟨l, hl, rfl⟩ := Flat.exists_pack hw
  have hlne : l ≠ [] := by rintro rfl; exact hne rfl
  have := flat_ndim (p := p) dec hl hc hlne
  unfold FlatFermT.transpose
  simp only [Option.getD_none, Option.getD_some]
  rw [this]

/-- C79: a flat tensor without blocks keeps its pattern when it is transposed.  The block form permutes the pattern. -/
theorem C79_empty_keeps_pattern : ∃ T : FlatFermT Int Int, T.flat.qs = [] ∧ T.flat.WellFormed ∧
    (T.transpose (Q := Int) (fun q => q.natAbs) id (some [1, 0])).pattern = [true, false] ∧
    ((T.toSparse (id : Int → Int)).transpose (fun q => q.natAbs) (some [1, 0])).pattern = [false, true] :=
  ⟨⟨[true, false], ⟨[], [], [], [0]⟩⟩, rfl, ⟨rfl, rfl, rfl⟩, rfl, rfl⟩

/-- What a flat contraction must satisfy given the contraction `R` of the block forms: with free legs the same pattern and blocks; without free legs the
number that is the only entry of `R`. -/
structure SameContraction (dec : C → Q) (free : Nat) (F : Option (K ⊕ FlatFermT C K)) (R : FermT Q K) : Prop where
  tensor : free ≠ 0 → ∃ S : FlatFermT C K, F = some (.inr S) ∧ S.flat.WellFormed ∧ S.pattern = R.pattern ∧ SameBlocks (S.toSparse dec).blocks R.blocks
  number : free = 0 → R.blocks ≠ [] → F = some (.inl (entry R.blocks []))

/-- C79: contracting flat fermionic tensors agrees with contracting the block forms. -/
theorem C79_tensordot (par : Q → Nat) (dec : C → Q) (A B : FlatFermT C K) (axesA axesB : List Int) (legsA legsB legs : List (BondInfo Q))
    (idxa idxb : List Nat) (hA : A.flat.WellFormed) (hB : B.flat.WellFormed)
    (hcon : Contractible (A.toSparse dec) (B.toSparse dec) axesA axesB legsA legsB legs idxa idxb) (hneB : B.flat.qs ≠ [])
    (hinj : ∀ q ∈ A.flat.qs ++ B.flat.qs, ∀ q' ∈ A.flat.qs ++ B.flat.qs, ∀ c ∈ q, ∀ c' ∈ q', dec c = dec c' → c = c') :
    ∃ R, FermT.tensordot par (A.toSparse dec) (B.toSparse dec) axesA axesB = some R ∧
      SameContraction dec ((freeAxes legsA.length idxa).length + (freeAxes legsB.length idxb).length) (A.tensordot par dec B axesA axesB) R ∧
      ((freeAxes legsA.length idxa).length + (freeAxes legsB.length idxb).length = 0 → R.blocks = [] → A.tensordot par dec B axesA axesB = none) := by
  obtain ⟨R, hR, hRc, hRu, -⟩ := C26_tensordot par _ _ axesA axesB legsA legsB legs idxa idxb hcon
  refine ⟨R, hR, ?_⟩
  have hlta : ∀ i ∈ idxa, i < legsA.length := fun i hi => namesAxis_lt hcon.axA i hi
  have hltb : ∀ i ∈ idxb, i < legsB.length := fun i hi => namesAxis_lt hcon.axB i hi
  have hneA := hcon.ne
  obtain ⟨p, FA⟩ := A
  obtain ⟨p', FB⟩ := B
  obtain ⟨l, hl, rfl⟩ := Flat.exists_pack hA
  obtain ⟨l', hl', rfl⟩ := Flat.exists_pack hB
  have hlne' : l' ≠ [] := by rintro rfl; exact hneB rfl
  have hlne : l ≠ [] := by rintro rfl; exact hneA rfl
  have hcA : Conforms legsA (Flat.toSparse dec (Flat.pack l)) := hcon.onA
  have hcB : Conforms legsB (Flat.toSparse dec (Flat.pack l')) := hcon.onB
  have hneB' : Flat.toSparse dec (Flat.pack l') ≠ [] := by
    rw [Flat.toSparse_pack dec hl']; simpa using hlne'
  have hll : idxa.length = idxb.length := hcon.pat.length_eq
  have hflip := contractPatterns_flips _ _ idxa idxb hcon.pat
  -- the block contraction
  have hRb : R = ⟨(FermT.contractPatterns p p' idxa idxb).1, FermT.tensordotCore par (Flat.toSparse dec (Flat.pack l))
      (Flat.toSparse dec (Flat.pack l')) idxa idxb (SpT.outAxes legsA.length idxa) (SpT.outAxes legsB.length idxb)⟩ := by
    have h := hR
    unfold FermT.tensordot at h
    rw [show (FlatFermT.toSparse dec ⟨p, Flat.pack l⟩ : FermT Q K).blocks = Flat.toSparse dec (Flat.pack l) from rfl,
      show (FlatFermT.toSparse dec ⟨p', Flat.pack l'⟩ : FermT Q K).blocks = Flat.toSparse dec (Flat.pack l') from rfl,
      ndim_eq hcA hneA, ndim_eq hcB hneB', normAxes_eq hcon.axA, normAxes_eq hcon.axB] at h
    simp only [hflip, hll, ne_eq, not_true_eq_false, false_and, if_false, Option.some.injEq] at h
    exact h.symm
  -- the flat contraction
  set F := dotCore par dec (⟨p, Flat.pack l⟩ : FlatFermT C K) ⟨p', Flat.pack l'⟩ idxa idxb (SpT.outAxes legsA.length idxa)
    (SpT.outAxes legsB.length idxb) with hF
  have hflat : FlatFermT.tensordot par dec (⟨p, Flat.pack l⟩ : FlatFermT C K) ⟨p', Flat.pack l'⟩ axesA axesB =
      if idxa.length = legsA.length ∧ idxb.length = legsB.length then F.data.head?.map .inl
      else some (.inr ⟨(FermT.contractPatterns p p' idxa idxb).1, F⟩) := by
    unfold FlatFermT.tensordot
    rw [flat_ndim dec hl hcA hlne, flat_ndim dec hl' hcB hlne', normAxes_eq hcon.axA, normAxes_eq hcon.axB]
    have hflip' : (FermT.contractPatterns p p' idxa idxb).2 = [] := hflip
    simp only [hflip', hll, ne_eq, not_true_eq_false, if_false]
    rfl
  have hfree : ∀ {n : Nat} {idx : List Nat}, idx.Nodup → (∀ i ∈ idx, i < n) → idx.length + (freeAxes n idx).length = n := by
    intro n idx h1 h2
    have := (idx_out_perm h1 h2).length_eq
    rw [freeAxes_eq]
    simpa using this
  have ha := hfree hcon.ndA hlta
  have hb := hfree hcon.ndB hltb
  -- the blocks agree
  have hfA : ∀ e ∈ l, ((FermPhase.phase2 (oddLegs par dec e.1) idxa : Int) : K) = ((computePhase ((e.1.map dec).map par) idxa true : Int) : K) := by
    intro e he
    rw [oddLegs_eq, (C78_same_as_python _ idxa hcon.ndA (fun i hi => by rw [flat_lengths dec hl hcA e he]; exact hlta i hi)).2.1]
  have hfB : ∀ e ∈ l', ((FermPhase.phase3 (oddLegs par dec e.1) idxb : Int) : K) = ((computePhase ((e.1.map dec).map par) idxb false : Int) : K) := by
    intro e he
    rw [oddLegs_eq, (C78_same_as_python _ idxb hcon.ndB (fun i hi => by rw [flat_lengths dec hl' hcB e he]; exact hltb i hi)).2.2]
  have htA := toSparse_scale dec (fun q => ((FermPhase.phase2 (oddLegs par dec q) idxa : Int) : K))
    (fun q => ((computePhase (q.map par) idxa true : Int) : K)) hl hfA
  have htB := toSparse_scale dec (fun q => ((FermPhase.phase3 (oddLegs par dec q) idxb : Int) : K))
    (fun q => ((computePhase (q.map par) idxb false : Int) : K)) hl' hfB
  have hqs : ∀ (f : List C → K) (l : List (List C × List Nat × List K)), (Flat.pack (scaleRows f l)).qs = (Flat.pack l).qs := by
    intro f l; simp [Flat.pack, scaleRows, Function.comp_def]
  have h48 := C48_tensordot legsA legsB dec _ _ idxa idxb
    (Flat.pack_wellFormed (chunked_scaleRows (fun q => ((FermPhase.phase2 (oddLegs par dec q) idxa : Int) : K)) hl))
    (Flat.pack_wellFormed (chunked_scaleRows (fun q => ((FermPhase.phase3 (oddLegs par dec q) idxb : Int) : K)) hl'))
    (by rw [htA]; exact conforms_scaleBlocks _ hcA) (by rw [htB]; exact conforms_scaleBlocks _ hcB)
    (by rw [hqs, hqs]; exact hinj) hlta hltb
  simp only at h48
  rw [← dotCore_pack par dec p p' hl hl' idxa idxb _ _ hlne hlne', ← hF, htA, htB, ← fermCore_eq] at h48
  have hRblocks : FermT.tensordotCore par (Flat.toSparse dec (Flat.pack l)) (Flat.toSparse dec (Flat.pack l')) idxa idxb
      (SpT.outAxes legsA.length idxa) (SpT.outAxes legsB.length idxb) = R.blocks := by rw [hRb]
  rw [hRblocks] at h48
  obtain ⟨hwF, hsame⟩ := h48
  have hpat : R.pattern = (FermT.contractPatterns p p' idxa idxb).1 := by rw [hRb]
  rw [hflat]
  have hz : (freeAxes legsA.length idxa).length + (freeAxes legsB.length idxb).length = 0 ↔ idxa.length = legsA.length ∧ idxb.length = legsB.length := by omega
  -- the blocks without legs
  have hnum : (freeAxes legsA.length idxa).length + (freeAxes legsB.length idxb).length = 0 →
      ∃ lF, Flat.Chunked lF ∧ F = Flat.pack lF ∧ SameBlocks (lF.map fun e => (e.1.map dec, Arr.ofList e.2.1 e.2.2)) R.blocks ∧ Conforms [] R.blocks := by
    intro h0
    obtain ⟨lF, hlF, hFe⟩ := Flat.exists_pack hwF
    refine ⟨lF, hlF, hFe, ?_, ?_⟩
    · rw [← Flat.toSparse_pack dec hlF, ← hFe]; exact hsame
    · have e1 : freeAxes legsA.length idxa = [] := List.eq_nil_of_length_eq_zero (by omega)
      have e2 : freeAxes legsB.length idxb = [] := List.eq_nil_of_length_eq_zero (by omega)
      rw [e1, e2] at hRc
      exact hRc
  refine ⟨⟨?_, ?_⟩, ?_⟩
  · intro hn
    rw [if_neg (fun h => hn (hz.2 h))]
    exact ⟨_, rfl, hwF, hpat.symm, hsame⟩
  · intro h0 hne
    rw [if_pos (hz.1 h0)]
    obtain ⟨lF, hlF, hFe, hs, hc0⟩ := hnum h0
    rw [entry_noLegs hc0]
    generalize hRbl : R.blocks = bs at *
    -- exactly one block
    obtain ⟨b, t, rfl⟩ := List.exists_cons_of_ne_nil hne
    have hlab : ∀ b' ∈ b :: t, b'.1 = [] := fun b' hb' => List.eq_nil_of_length_eq_zero (hc0 b' hb').lengths.1
    have ht : t = [] := by
      by_contra hc
      obtain ⟨b', t', rfl⟩ := List.exists_cons_of_ne_nil hc
      have h1 := hRu
      unfold UniqueLabels at h1
      rw [List.map_cons, List.nodup_cons] at h1
      apply h1.1
      rw [hlab b (by simp), ← hlab b' (by simp)]
      simp
    subst ht
    unfold SameBlocks at hs
    rw [List.forall₂_map_left_iff] at hs
    cases hs with
    | @cons e b' lF' _ h1 h2 =>
      cases h2
      obtain ⟨_, hsh, hget⟩ := h1
      have hbs : b.2.shape = [] := List.eq_nil_of_length_eq_zero (hc0 b (by simp)).lengths.2
      have hes : e.2.1 = [] := by rw [← hbs, ← hsh]; rfl
      have hlen := hlF e (by simp)
      rw [hes] at hlen
      obtain ⟨d, hd⟩ := List.length_eq_one_iff.1 (by simpa using hlen)
      have hg := hget [] (by simp [Arr.ofList, hes, inBox])
      rw [hFe]
      simp only [Flat.pack, List.map_cons, List.map_nil, List.flatten_cons, List.flatten_nil, List.append_nil, List.sum_cons, List.sum_nil, add_zero]
      rw [← hg, hd]
      simp [Arr.ofList, hes, ravel]
  · intro h0 hne
    rw [if_pos (hz.1 h0)]
    obtain ⟨lF, hlF, hFe, hs, _⟩ := hnum h0
    rw [hne] at hs
    unfold SameBlocks at hs
    have : lF = [] := by
      rw [List.forall₂_map_left_iff] at hs
      cases hs; rfl
    rw [hFe, this]
    rfl

/-- C79: lists of axes of different lengths raise. -/
theorem C79_unequal_axes (par : Q → Nat) (dec : C → Q) (A B : FlatFermT C K) (axesA axesB : List Int) (h : axesA.length ≠ axesB.length) :
    A.tensordot par dec B axesA axesB = none := by
  unfold FlatFermT.tensordot
  dsimp only
  rw [if_pos (by simpa using h)]

/-- C79: contracting two legs whose signs agree raises. -/
theorem C79_sign_mismatch (par : Q → Nat) (dec : C → Q) (A B : FlatFermT C K) (axesA axesB : List Int) (idxa idxb : List Nat)
    (ha : List.Forall₂ (NamesAxis A.ndim) axesA idxa) (hb : List.Forall₂ (NamesAxis B.ndim) axesB idxb) (k : Nat) (hk : k < idxa.length)
    (hk' : k < idxb.length) (hs : A.pattern.getD (idxa.getD k 0) true = B.pattern.getD (idxb.getD k 0) true) :
    A.tensordot par dec B axesA axesB = none := by
  unfold FlatFermT.tensordot
  rw [normAxes_eq ha, normAxes_eq hb]
  have hf : (FermT.contractPatterns A.pattern B.pattern idxa idxb).2 ≠ [] := by
    unfold FermT.contractPatterns
    simp only
    rw [if_pos]
    · intro h
      rw [List.map_eq_nil_iff, List.filter_eq_nil_iff] at h
      refine h (idxb[k], (A.pattern.getD idxa[k] true, B.pattern.getD idxb[k] true)) ?_ ?_
      · rw [List.mem_iff_getElem]
        refine ⟨k, by simp; omega, ?_⟩
        simp [List.getElem_zip]
      · simp only [List.getD_eq_getElem?_getD, List.getElem?_eq_getElem hk, List.getElem?_eq_getElem hk', Option.getD_some] at hs ⊢
        simpa using hs
    · intro h
      have := congrArg (fun l => l[k]?) h
      simp only [List.getElem?_map, List.getElem?_eq_getElem hk, List.getElem?_eq_getElem hk', Option.map_some] at this
      simp only [List.getD_eq_getElem?_getD, List.getElem?_eq_getElem hk, List.getElem?_eq_getElem hk', Option.getD_some] at hs
      simp only [Option.some.injEq, List.getD_eq_getElem?_getD] at this
      rw [hs] at this
      revert this
      cases (B.pattern[idxb[k]]?.getD true) <;> simp
  simp only
  split_ifs <;> rfl

/-- C79: contracting every leg when no blocks match raises; the block form returns a tensor without blocks. -/
theorem C79_no_common_block_differs : ∃ A B : FlatFermT Int Int, A.flat.WellFormed ∧ B.flat.WellFormed ∧
    A.tensordot (fun q => q.toNat % 2) id B [0] [0] = none ∧
    FermT.tensordot (fun q => q.toNat % 2) (A.toSparse id) (B.toSparse id) [0] [0] = some ⟨[], []⟩ :=
  ⟨⟨[true], ⟨[[0]], [[1]], [2], [0, 1]⟩⟩, ⟨[false], ⟨[[1]], [[1]], [3], [0, 1]⟩⟩, by decide +kernel, by decide +kernel, rfl, rfl⟩

/-- Two legs swapped: the block with two odd legs changes its sign. -/
def dotFlat : FlatFermT Int Int :=
  ⟨[true, true, false], ⟨[[0, 0, 0], [1, 1, 2], [1, 0, 1], [0, 1, 1]], List.replicate 4 [1, 1, 1], [2, 3, 5, 7], [0, 1, 2, 3, 4]⟩⟩

/-- The second operand. -/
def dotFlat' : FlatFermT Int Int :=
  ⟨[false, false, true], ⟨[[0, 0, 0], [1, 1, 2], [1, 0, 1], [0, 1, 1]], List.replicate 4 [1, 1, 1], [1, 10, 100, 1000], [0, 1, 2, 3, 4]⟩⟩

/-- The legs of the examples. -/
def dotLegs : List (BondInfo Int) := [[(0, 1), (1, 1)], [(0, 1), (1, 1)], [(0, 1), (1, 1), (2, 1)]]

example : dotFlat.flat.WellFormed ∧ Conforms dotLegs (dotFlat.toSparse id).blocks ∧ [1, 0, 2].Perm (List.range dotLegs.length) ∧ dotFlat.flat.qs ≠ [] := by
  refine ⟨by decide +kernel, ?_, by decide, by decide⟩
  unfold Conforms
  decide +kernel

example : (dotFlat.transpose (Q := Int) (fun q => q.toNat % 2) id (some [1, 0, 2])).flat.data = [2, -3, 5, 7] := by decide +kernel

theorem dot_contractible : Contractible (dotFlat.toSparse id) (dotFlat'.toSparse id) [0, 1] [0, 1] dotLegs dotLegs (dotLegs.take 2) [0, 1] [0, 1] :=
  ⟨by unfold Conforms; decide +kernel, by unfold Conforms; decide +kernel,
    .cons ⟨by decide, Or.inl rfl⟩ (.cons ⟨by decide, Or.inl rfl⟩ .nil), .cons ⟨by decide, Or.inl rfl⟩ (.cons ⟨by decide, Or.inl rfl⟩ .nil), by decide, by decide, rfl,
    rfl, by unfold dotLegs Dict.WF; decide +kernel, by decide +kernel, .cons rfl (.cons rfl .nil)⟩

example : dotFlat.flat.WellFormed ∧ dotFlat'.flat.WellFormed ∧ dotFlat'.flat.qs ≠ [] := by decide +kernel

/-- The contraction over the first two legs: the sign of the block with two odd contracted legs comes out negative. -/
example : ((dotFlat.tensordot (fun q => q.toNat % 2) (id : Int → Int) dotFlat' [0, 1] [0, 1]).map fun R => match R with
      | .inl v => ([], [v])
      | .inr S => (S.flat.qs, S.flat.data)) = some ([[0, 0], [2, 2], [1, 1]], [2, -30, -7500]) := by decide +kernel

/-- All legs contracted: a number. -/
example : ((dotFlat.tensordot (fun q => q.toNat % 2) (id : Int → Int) dotFlat' [0, 1, 2] [0, 1, 2]).map fun R => match R with
      | .inl v => [v]
      | .inr _ => []) = some [-7528] := by decide +kernel

/-- Two legs whose signs agree. -/
example : dotFlat.tensordot (fun q => q.toNat % 2) (id : Int → Int) dotFlat [0] [1] = none :=
  C79_sign_mismatch _ _ _ _ [0] [1] [0] [1] (.cons ⟨by decide, Or.inl rfl⟩ .nil) (.cons ⟨by decide, Or.inl rfl⟩ .nil) 0 (by decide) (by decide) rfl

end Verif
