import Verif.Proof.FlatKron
import Verif.Proof.MpsInfos
import Verif.Thm.FlatCanon

/-!
Property C69, continued: direct sums of flat tensors.
-/

set_option linter.unusedSectionVars false

namespace Verif
open Flat
variable {C Q K : Type} [DecidableEq C] [Zero C] [DecidableEq Q] [AddCommGroup Q] [CommRing K]

/-- C69: with bonds that are looked up by code, the direct sum of flat tensors is the direct sum of the block tensors, in the same order of blocks. -/
theorem C69_direct_sum (dec : C → Q) (A B : Flat C K) (hA : A.WellFormed) (hB : B.WellFormed)
    (hne : ∀ q ∈ A.qs ++ B.qs, q ≠ [])
    (hd : ∀ q ∈ A.qs ++ B.qs, ∀ q' ∈ A.qs ++ B.qs, ∀ c ∈ q, ∀ c' ∈ q', dec c = dec c' → c = c')
    (lb rb : BondInfo Q) (lc rc : Dict (PyKey C Q) Nat)
    (hl : ∀ q ∈ A.qs ++ B.qs, Dict.get? lc (.code (q.getD 0 0)) = some (Counter.count lb (dec (q.getD 0 0))))
    (hr : ∀ q ∈ A.qs ++ B.qs, Dict.get? rc (.code (q.getLastD 0)) = some (Counter.count rb (dec (q.getLastD 0)))) :
    ∃ R, kronAdd A B lc rc = some R ∧ R.WellFormed ∧
      SameBlocks (toSparse dec R) (SpT.kronAdd (toSparse dec A) (toSparse dec B) lb rb) := by
  obtain ⟨la, hca, rfl⟩ := exists_pack hA
  obtain ⟨lb', hcb, rfl⟩ := exists_pack hB
  set l := la ++ lb' with hldef
  have hqs : (pack la).qs ++ (pack lb').qs = l.map fun e => e.1 := by simp [pack, hldef]
  have hmem : ∀ i < l.length, (trip l i).1 ∈ (pack la).qs ++ (pack lb').qs := by
    intro i hi
    rw [hqs]
    exact List.mem_map.2 ⟨_, trip_mem hi, rfl⟩
  have hch : Chunked l := by
    intro e he
    rcases List.mem_append.1 he with he | he
    · exact hca e he
    · exact hcb e he
  have hna : (pack la).qs.length = la.length := by simp [pack]
  have hnb : (pack lb').qs.length = lb'.length := by simp [pack]
  unfold kronAdd
  by_cases h0 : (pack la).qs.length = 0 ∧ (pack lb').qs.length = 0
  · rw [if_pos h0]
    have ea : la = [] := List.length_eq_zero_iff.1 (by rw [← hna]; exact h0.1)
    have eb : lb' = [] := List.length_eq_zero_iff.1 (by rw [← hnb]; exact h0.2)
    refine ⟨_, rfl, pack_wellFormed hca, ?_⟩
    subst ea; subst eb
    exact List.Forall₂.nil
  rw [if_neg h0]
  -- the numbers of the blocks are positions in the list of all triples
  have hidx : (pack la).qs.zipIdx ++ (pack lb').qs.zipIdx.map (fun p => (p.1, p.2 + (pack la).qs.length)) =
      (List.range l.length).map fun i => ((trip l i).1, i) := by
    have e1 : (pack la).qs.zipIdx ++ (pack lb').qs.zipIdx.map (fun p => (p.1, p.2 + (pack la).qs.length)) = (l.map fun e => e.1).zipIdx := by
      rw [← hqs, List.zipIdx_append]
      congr 1
      apply List.ext_getElem <;> simp [Nat.add_comm]
    rw [e1]
    apply List.ext_getElem
    · simp
    · intro i h1 h2
      have hi : i < l.length := by simpa using h1
      simp [trip_eq hi]
  have hsub : kronIndex (pack la) (pack lb') = firstOf (fun i => (trip l i).1) (List.range l.length) := by
    unfold kronIndex firstOf
    rw [hidx, List.foldl_map]
  set sub := firstOf (fun i => (trip l i).1) (List.range l.length) with hsubdef
  obtain ⟨f1, f2⟩ := firstOf_spec (fun i => (trip l i).1) (List.range l.length)
  have hlt : ∀ e ∈ sub, e.2 < l.length := fun e he => by simpa using (f1 e he).2
  -- shapes of the new blocks
  let sh : Nat → List Nat := fun i => ((trip l i).2.1.set 0 (Counter.count lb (dec ((trip l i).1.getD 0 0)))).set ((trip l i).2.1.length - 1)
    (Counter.count rb (dec ((trip l i).1.getLastD 0)))
  have hlast : ∀ q : List C, q.getD (q.length - 1) 0 = q.getLastD 0 := by
    intro q
    rw [List.getLastD_eq_getLast?, List.getLast?_eq_getElem?, List.getD_eq_getElem?_getD]
  have hrow : ∀ e ∈ sub, kronRow (pack la) (pack lb') lc rc e.2 = some (e.1, sh e.2) := by
    intro e he
    have hi := hlt e he
    have hq : (if e.2 < (pack la).qs.length then (pack la).qs.getD e.2 [] else (pack lb').qs.getD (e.2 - (pack la).qs.length) []) = (trip l e.2).1 := by
      rw [hna, pack_qs_getD, pack_qs_getD]
      unfold trip
      split_ifs with h
      · rw [hldef, List.getD_append _ _ _ _ h]
      · rw [hldef, List.getD_append_right _ _ _ _ (by omega)]
    have hs : (if e.2 < (pack la).qs.length then (pack la).shs.getD e.2 [] else (pack lb').shs.getD (e.2 - (pack la).qs.length) []) = (trip l e.2).2.1 := by
      rw [hna, pack_shs_getD, pack_shs_getD]
      unfold trip
      split_ifs with h
      · rw [hldef, List.getD_append _ _ _ _ h]
      · rw [hldef, List.getD_append_right _ _ _ _ (by omega)]
    unfold kronRow
    simp only [hq, hs]
    rw [hl _ (hmem _ hi), Option.bind_some, hlast, hr _ (hmem _ hi), Option.map_some, (f1 e he).1]
  rw [hsub]
  dsimp only
  rw [mapM_some' _ (fun e => (e.1, sh e.2)) sub hrow]
  simp only [Option.map_some]
  refine ⟨_, rfl, ?_⟩
  set keys := Dict.keys sub with hkeys
  -- unpacking tells the rows apart
  have hrowinj : ∀ i < l.length, ∀ j < l.length, (trip l i).1.map dec = (trip l j).1.map dec → (trip l i).1 = (trip l j).1 :=
    fun i hi j hj e => map_inj_codes dec (fun c hc c' hc' => hd _ (hmem i hi) _ (hmem j hj) c hc c' hc') e
  have hkey : ∀ x ∈ keys, ∃ i < l.length, x = (trip l i).1 := by
    intro x hx
    obtain ⟨e, he, rfl⟩ := List.mem_map.1 hx
    exact ⟨e.2, hlt e he, (f1 e he).1⟩
  -- the block version
  have hTa : toSparse dec (pack la) = (List.range la.length).map (blk dec l) := by
    rw [toSparse_blk dec hca]
    apply List.map_congr_left
    intro i hi
    have hi' : i < la.length := by simpa using hi
    unfold blk trip
    rw [hldef, List.getD_append _ _ _ _ hi']
  have hT : toSparse dec (pack la) ++ toSparse dec (pack lb') = (List.range l.length).map (blk dec l) := by
    rw [← toSparse_blk dec hch, toSparse_pack dec hca, toSparse_pack dec hcb, toSparse_pack dec hch, hldef, List.map_append]
  have halloc : (toSparse dec (pack la) ++ toSparse dec (pack lb')).foldl (SpT.kronAlloc lb rb) [] =
      (keys.map fun q => q.map dec).zip ((sub.map fun e => (e.1, sh e.2)).map fun r => Arr.zeros r.2) := by
    rw [hT, alloc_fold (K := K) dec lb rb (fun i => (trip l i).1) (blk dec l) sh (List.range l.length) (fun i _ => rfl) ?_ ?_]
    · simp only [hkeys, Dict.keys, List.map_map, ← hsubdef]
      rw [List.zip_map']
      rfl
    · intro i hi
      have hi' : i < l.length := by simpa using hi
      have hqne := hne _ (hmem i hi')
      have h1 := (getD0_map_ne dec hqne).1
      have h2 := (getLastD_map_ne dec hqne).1
      have h3 : ((trip l i).1.map dec).getD (((trip l i).1.map dec).length - 1) 0 = ((trip l i).1.map dec).getLastD 0 := by
        rw [List.getLastD_eq_getLast?, List.getLast?_eq_getElem?, List.getD_eq_getElem?_getD]
      simp only [blk, Arr.ofList, sh]
      rw [h3, h1, h2]
    · intro i hi j hj e
      exact hrowinj i (by simpa using hi) j (by simpa using hj) e
  have hz : ∀ (A : Flat C K), A.WellFormed → toSparse dec A = A.qs.zipIdx.map fun p => (p.1.map dec, Arr.ofList (A.shs.getD p.2 []) (A.block p.2)) := by
    intro A hA
    unfold toSparse
    apply List.ext_getElem
    · simp [hA.1]
    · intro i h1 h2
      have h3 : i < A.shs.length := by simp at h1; omega
      simp [List.getElem?_eq_getElem h3]
  have hin : ∀ (A : Flat C K), (∀ q ∈ A.qs, q ∈ l.map fun e => e.1) → ∀ p ∈ A.qs.zipIdx, p.1 ∈ keys ∧ ∀ x ∈ keys, x.map dec = p.1.map dec → x = p.1 := by
    intro A hA p hp
    have hp1 : p.1 ∈ A.qs := by
      have := List.mem_map_of_mem (f := Prod.fst) hp
      rwa [List.zipIdx_map_fst] at this
    obtain ⟨e, he, h2⟩ := List.mem_map.1 (hA p.1 hp1)
    obtain ⟨i, hi, hie⟩ := List.getElem_of_mem he
    have h3 : (trip l i).1 = p.1 := by rw [trip_eq hi, hie, h2]
    refine ⟨by rw [← h3]; exact f2 i (by simpa using hi), ?_⟩
    intro x hx e
    obtain ⟨j, hj, rfl⟩ := hkey x hx
    rw [← h3] at e ⊢
    exact hrowinj j hj i hi e
  have hinA := hin (pack la) (fun q hq => by rw [← hqs]; exact List.mem_append_left _ hq)
  have hinB := hin (pack lb') (fun q hq => by rw [← hqs]; exact List.mem_append_right _ hq)
  set ms0 : List (Arr K) := (sub.map fun e => (e.1, sh e.2)).map fun r => Arr.zeros r.2 with hms0
  have hk0 : keys.length = ms0.length := by simp [hkeys, hms0, Dict.keys]
  set ms1 := (pack la).qs.zipIdx.foldl (kronPut false keys (pack la)) ms0 with hms1
  have hsh1 : ms1.map Arr.shape = ms0.map Arr.shape := kronPut_fold_shapes _ _ _ _ _
  have hk1 : keys.length = ms1.length := by rw [hk0]; simpa using (congrArg List.length hsh1).symm
  set ms2 := (pack lb').qs.zipIdx.foldl (kronPut true keys (pack lb')) ms1 with hms2
  have hsh2 : ms2.map Arr.shape = ms0.map Arr.shape := by rw [← hsh1]; exact kronPut_fold_shapes _ _ _ _ _
  have hk2 : sub.length = ms2.length := by
    have := congrArg List.length hsh2
    simp only [List.length_map] at this
    rw [this, ← hk0, hkeys]; simp [Dict.keys]
  have hblock : SpT.kronAdd (toSparse dec (pack la)) (toSparse dec (pack lb')) lb rb = (keys.map fun q => q.map dec).zip ms2 := by
    unfold SpT.kronAdd
    rw [halloc, hz _ (pack_wellFormed hca), place_fold dec false keys (pack la) _ ms0 hk0 (fun p hp => (hinA p hp).1) (fun p hp => (hinA p hp).2),
      hz _ (pack_wellFormed hcb), place_fold dec true keys (pack lb') _ ms1 hk1 (fun p hp => (hinB p hp).1) (fun p hp => (hinB p hp).2)]
  rw [hblock]
  -- both sides as a list of labels, shapes and arrays
  have hres := sameBlocks_list dec (sub.zip ms2) (fun g => g.1.1) (fun g => g.2) (fun g => sh g.1.2) (by
    intro g hg
    have hs2 : ms2.map Arr.shape = sub.map fun e => sh e.2 := by
      rw [hsh2, hms0, List.map_map, List.map_map]; rfl
    exact zip_map_eq hs2.symm g hg)
  have e1 : (sub.zip ms2).map (fun g => g.1.1) = (sub.map fun e => (e.1, sh e.2)).map Prod.fst := by
    conv_rhs => rw [← List.map_fst_zip (l₁ := sub) (l₂ := ms2) (by omega)]
    simp [List.map_map, Function.comp_def]
  have e2 : (sub.zip ms2).map (fun g => sh g.1.2) = (sub.map fun e => (e.1, sh e.2)).map Prod.snd := by
    conv_rhs => rw [← List.map_fst_zip (l₁ := sub) (l₂ := ms2) (by omega)]
    simp [List.map_map, Function.comp_def]
  have e3 : ((sub.zip ms2).map fun g => g.2.toList) = ms2.map Arr.toList := by
    conv_rhs => rw [← List.map_snd_zip (l₁ := sub) (l₂ := ms2) (by omega)]
    simp [List.map_map, Function.comp_def]
  rw [e1, e2, e3] at hres
  refine ⟨hres.1, hres.2.of_eq ?_⟩
  rw [hkeys, Dict.keys, List.map_map, List.zip_map_left]
  rfl

/-- C69 fails for the direct sum as the library calls it: the bonds have label objects as keys and are asked for codes, so that the Python kernel
raises for all tensors that are not both zero. -/
theorem C69_direct_sum_raises (A B : Flat C K) (h : A.qs ≠ [] ∨ B.qs ≠ []) (lb rb : BondInfo Q) : kronAddInfos A B lb rb = none := by
  have hk : ∀ (d : BondInfo Q) (c : C), Dict.get? (d.map fun p => ((PyKey.label p.1 : PyKey C Q), p.2)) (.code c) = none := by
    intro d c
    rw [Dict.get?_eq_none_iff, List.map_map]
    intro hm
    obtain ⟨p, -, e⟩ := List.mem_map.1 hm
    cases e
  have hrow : ∀ i, kronRow A B (lb.map fun p => ((PyKey.label p.1 : PyKey C Q), p.2)) (rb.map fun p => (PyKey.label p.1, p.2)) i = none := by
    intro i
    unfold kronRow
    simp only
    rw [hk]; rfl
  have hne : kronIndex A B ≠ [] := by
    intro e
    have hf : ∀ (l : List (List C × Nat)) (m : Dict (List C) Nat), (l ≠ [] ∨ m ≠ []) →
        l.foldl (fun m p => if Dict.has m p.1 then m else Dict.set m p.1 p.2) m ≠ [] := by
      intro l
      induction l with
      | nil => intro m hm; simpa using hm
      | cons p l ih =>
        intro m _
        rw [List.foldl_cons]
        refine ih _ (Or.inr ?_)
        split_ifs with hh
        · intro e; rw [e] at hh; simp [Dict.has] at hh
        · intro e
          have : p.1 ∈ (Dict.set m p.1 p.2).map Prod.fst := Dict.mem_map_fst_set.2 (Or.inl rfl)
          rw [e] at this; simp at this
    refine hf _ [] (Or.inl ?_) e
    rcases h with h | h
    · intro e'
      have := (List.append_eq_nil_iff.1 e').1
      exact h (by simpa using congrArg List.length this)
    · intro e'
      have := (List.append_eq_nil_iff.1 e').2
      exact h (by simpa using congrArg List.length this)
  unfold kronAddInfos kronAdd
  rw [if_neg (by
    rintro ⟨h1, h2⟩
    rcases h with h | h
    · exact h (List.length_eq_zero_iff.1 h1)
    · exact h (List.length_eq_zero_iff.1 h2))]
  dsimp only
  generalize kronIndex A B = sub at hne
  cases sub with
  | nil => exact absurd rfl hne
  | cons e sub => rw [List.mapM_cons, hrow]; rfl

/-- The hypotheses of `C69_direct_sum` hold: two blocks with the same labels are put into the corners of one block. -/
example : ∃ R, kronAdd (Q := Int) (K := Int) (mk' [[1, 2], [0, 1]] [[1, 2], [1, 1]] [1, 2, 3]) (mk' [[1, 2]] [[2, 1]] [4, 5])
      [(.code 1, 3), (.code 0, 1)] [(.code 2, 3), (.code 1, 1)] = some R ∧
    R.qs = [[1, 2], [0, 1]] ∧ R.shs = [[3, 3], [1, 1]] ∧ R.data = [1, 2, 0, 0, 0, 4, 0, 0, 5, 3] ∧
    SameBlocks (toSparse (fun n : Nat => (n : Int)) R) (SpT.kronAdd (toSparse (fun n : Nat => (n : Int)) (mk' [[1, 2], [0, 1]] [[1, 2], [1, 1]] [1, 2, 3]))
      (toSparse (fun n : Nat => (n : Int)) (mk' [[1, 2]] [[2, 1]] [4, 5])) [(1, 3), (0, 1)] [(2, 3), (1, 1)]) := by
  obtain ⟨R, h1, -, h2⟩ := C69_direct_sum (K := Int) (fun n : Nat => (n : Int)) (mk' [[1, 2], [0, 1]] [[1, 2], [1, 1]] [1, 2, 3]) (mk' [[1, 2]] [[2, 1]] [4, 5])
    (by decide) (by decide) (by decide) (by intro q _ q' _ c _ c' _ h; simpa using h) [(1, 3), (0, 1)] [(2, 3), (1, 1)]
    [(.code 1, 3), (.code 0, 1)] [(.code 2, 3), (.code 1, 1)] (by decide) (by decide)
  refine ⟨R, h1, ?_, ?_, ?_, h2⟩
  · have : (kronAdd (Q := Int) (K := Int) (mk' [[1, 2], [0, 1]] [[1, 2], [1, 1]] [1, 2, 3]) (mk' [[1, 2]] [[2, 1]] [4, 5])
      [(.code 1, 3), (.code 0, 1)] [(.code 2, 3), (.code 1, 1)]).map Flat.qs = some [[1, 2], [0, 1]] := by decide +kernel
    rw [h1] at this; simpa using this
  · have : (kronAdd (Q := Int) (K := Int) (mk' [[1, 2], [0, 1]] [[1, 2], [1, 1]] [1, 2, 3]) (mk' [[1, 2]] [[2, 1]] [4, 5])
      [(.code 1, 3), (.code 0, 1)] [(.code 2, 3), (.code 1, 1)]).map Flat.shs = some [[3, 3], [1, 1]] := by decide +kernel
    rw [h1] at this; simpa using this
  · have : (kronAdd (Q := Int) (K := Int) (mk' [[1, 2], [0, 1]] [[1, 2], [1, 1]] [1, 2, 3]) (mk' [[1, 2]] [[2, 1]] [4, 5])
      [(.code 1, 3), (.code 0, 1)] [(.code 2, 3), (.code 1, 1)]).map Flat.data = some [1, 2, 0, 0, 0, 4, 0, 0, 5, 3] := by decide +kernel
    rw [h1] at this; simpa using this

end Verif
