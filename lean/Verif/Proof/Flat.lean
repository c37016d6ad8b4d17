import Verif.Spec.Flat
import Verif.Proof.Ravel
import Verif.Proof.Sparse
import Mathlib.Data.List.Induction

/-! Normal form of flat tensors: a list of (labels, shape, entries) triples. -/

set_option linter.unusedSectionVars false

namespace Verif
variable {C Q K : Type}

/-! ### Arrays and their entry lists -/

@[simp] theorem Arr.toList_length (a : Arr K) : a.toList.length = a.shape.prod := by simp [Arr.toList]

theorem Arr.toList_getD [Zero K] (a : Arr K) {ix : List Nat} (h : inBox a.shape ix = true) :
    a.toList.getD (ravel a.shape ix) 0 = a.get ix := by
  have hl := ravel_lt h
  unfold Arr.toList
  rw [getD_map_range _ hl, unravel_ravel h]

theorem Arr.toList_ofList [Zero K] (sh : List Nat) (l : List K) (h : l.length = sh.prod) :
    (Arr.ofList sh l).toList = l := by
  unfold Arr.toList Arr.ofList
  apply List.ext_getElem
  · simp [h]
  · intro i h1 h2
    simp only [List.length_map, List.length_range] at h1
    simp [ravel_unravel h1, List.getElem?_eq_getElem h2]

theorem Arr.toList_add [Add K] (a b : Arr K) (h : a.shape = b.shape) :
    (a.add b).toList = List.zipWith (· + ·) a.toList b.toList := by
  apply List.ext_getElem
  · simp [Arr.add, h]
  · intro i h1 h2
    simp [Arr.toList, Arr.add, h]

/-! ### Slices -/

theorem offsets_length (n : Nat) (shs : List (List Nat)) : (Flat.offsets n shs).length = shs.length + 1 := by
  induction shs generalizing n with
  | nil => rfl
  | cons s t ih => simp [Flat.offsets, ih]

theorem offsets_getD (n : Nat) (shs : List (List Nat)) (i : Nat) (h : i ≤ shs.length) :
    (Flat.offsets n shs).getD i 0 = n + ((shs.take i).map List.prod).sum := by
  induction shs generalizing n i with
  | nil =>
    have : i = 0 := by simpa using h
    subst this; simp [Flat.offsets]
  | cons s t ih =>
    cases i with
    | zero => simp [Flat.offsets]
    | succ j =>
      simp only [Flat.offsets, List.getD_cons_succ, List.take_succ_cons, List.map_cons, List.sum_cons]
      rw [ih _ _ (by simpa using h)]
      omega

theorem offsets_append (n : Nat) (shs : List (List Nat)) (s : List Nat) :
    Flat.offsets n (shs ++ [s]) = Flat.offsets n shs ++ [(Flat.offsets n shs).getLastD 0 + s.prod] := by
  induction shs generalizing n with
  | nil => rfl
  | cons a t ih =>
    simp only [List.cons_append, Flat.offsets, ih]
    cases t <;> simp [Flat.offsets, List.getLastD_eq_getLast?]

theorem offsets_getLastD (n : Nat) (shs : List (List Nat)) :
    (Flat.offsets n shs).getLastD 0 = n + (shs.map List.prod).sum := by
  induction shs generalizing n with
  | nil => rfl
  | cons a t ih =>
    have := ih (n + a.prod)
    cases t with
    | nil => simp [Flat.offsets]
    | cons b u =>
      simp only [Flat.offsets] at this ⊢
      simp only [List.getLastD_cons] at this ⊢
      rw [this]; simp; omega

theorem flatten_drop_take {α : Type} (L : List (List α)) (i : Nat) (h : i < L.length) :
    (L.flatten.drop ((L.take i).map List.length).sum).take L[i].length = L[i] := by
  induction L generalizing i with
  | nil => simp at h
  | cons a t ih =>
    cases i with
    | zero => simp
    | succ j =>
      simp only [List.take_succ_cons, List.map_cons, List.sum_cons, List.flatten_cons,
        List.getElem_cons_succ]
      rw [List.drop_append, List.drop_of_length_le (by omega)]
      simp only [List.nil_append, Nat.add_sub_cancel_left]
      exact ih j (by simpa using h)

namespace Flat

/-- A flat tensor from a list of triples. -/
def pack (l : List (List C × List Nat × List K)) : Flat C K :=
  ⟨l.map fun e => e.1, l.map fun e => e.2.1, (l.map fun e => e.2.2).flatten, offsets 0 (l.map fun e => e.2.1)⟩

/-- Each triple has as many entries as its shape says. -/
def Chunked (l : List (List C × List Nat × List K)) : Prop := ∀ e ∈ l, e.2.2.length = e.2.1.prod

theorem offsets_eq (shs : List (List Nat)) :
    offsets 0 shs = (List.range (shs.length + 1)).map fun i => ((shs.take i).map List.prod).sum := by
  apply List.ext_getElem
  · simp [offsets_length]
  · intro i h1 h2
    simp only [List.length_map, List.length_range] at h2
    have := offsets_getD 0 shs i (by omega)
    rw [List.getD_eq_getElem?_getD, List.getElem?_eq_getElem h1] at this
    simpa using this

theorem Chunked.map_length {l : List (List C × List Nat × List K)} (h : Chunked l) :
    (l.map fun e => e.2.2).map List.length = (l.map fun e => e.2.1).map List.prod := by
  rw [List.map_map, List.map_map]
  exact List.map_congr_left fun e he => h e he

theorem pack_wellFormed {l : List (List C × List Nat × List K)} (h : Chunked l) : WellFormed (pack l) := by
  refine ⟨by simp [pack], offsets_eq _, ?_⟩
  simp only [pack, List.length_flatten]
  rw [h.map_length]

/-- Cut the data into the pieces of the given sizes. -/
def cut : List (List C) → List (List Nat) → List K → List (List C × List Nat × List K)
  | q :: qs, s :: ss, d => (q, s, d.take s.prod) :: cut qs ss (d.drop s.prod)
  | _, _, _ => []

theorem cut_spec (qs : List (List C)) (shs : List (List Nat)) (d : List K) (h1 : qs.length = shs.length)
    (h2 : d.length = (shs.map List.prod).sum) :
    Chunked (cut qs shs d) ∧ ((cut qs shs d).map fun e => e.1) = qs ∧
      ((cut qs shs d).map fun e => e.2.1) = shs ∧ ((cut qs shs d).map fun e => e.2.2).flatten = d := by
  induction qs generalizing shs d with
  | nil =>
    cases shs with
    | nil =>
      simp only [List.map_nil, List.sum_nil, List.length_eq_zero_iff] at h2
      subst h2; simp [cut, Chunked]
    | cons => simp at h1
  | cons q qs ih =>
    cases shs with
    | nil => simp at h1
    | cons s ss =>
      simp only [List.length_cons, Nat.add_right_cancel_iff] at h1
      simp only [List.map_cons, List.sum_cons] at h2
      obtain ⟨a, b, c, e⟩ := ih ss (d.drop s.prod) h1 (by simp; omega)
      refine ⟨?_, by simp [cut, b], by simp [cut, c], by simp [cut, e]⟩
      intro x hx
      simp only [cut, List.mem_cons] at hx
      rcases hx with rfl | hx
      · simp; omega
      · exact a x hx

theorem exists_pack {F : Flat C K} (h : WellFormed F) : ∃ l, Chunked l ∧ F = pack l := by
  obtain ⟨h1, h2, h3⟩ := h
  obtain ⟨a, b, c, e⟩ := cut_spec F.qs F.shs F.data h1 h3
  refine ⟨_, a, ?_⟩
  unfold pack
  rw [b, c, e, offsets_eq, ← h2]

theorem pack_idxs {l : List (List C × List Nat × List K)} (h : Chunked l) (i : Nat) (hi : i ≤ l.length) :
    (pack l).idxs.getD i 0 = (((l.map fun e => e.2.2).take i).map List.length).sum := by
  simp only [pack]
  rw [offsets_getD 0 _ i (by simpa using hi), Nat.zero_add, List.map_take, List.map_take, h.map_length]

theorem pack_block {l : List (List C × List Nat × List K)} (h : Chunked l) (i : Nat) (hi : i < l.length) :
    (pack l).block i = l[i].2.2 := by
  unfold block pySlice
  rw [pack_idxs h i (by omega), pack_idxs h (i + 1) (by omega)]
  simp only [pack]
  have hi' : i < (l.map fun e => e.2.2).length := by simpa using hi
  have := flatten_drop_take (l.map fun e => e.2.2) i hi'
  rw [List.take_add_one, List.map_append, List.sum_append, Nat.add_sub_cancel_left,
    List.getElem?_eq_getElem hi']
  simp only [Option.toList_some, List.map_cons, List.map_nil, List.sum_cons, List.sum_nil, Nat.add_zero]
  rw [this]; simp

theorem zipIdx_map_block {β : Type} {l : List (List C × List Nat × List K)} (h : Chunked l)
    {α : Type} (g : List C × List Nat × List K → α) (f : α → List K → β) :
    ((l.map g).zipIdx.map fun p => f p.1 ((pack l).block p.2)) = l.map fun e => f (g e) e.2.2 := by
  apply List.ext_getElem
  · simp
  · intro i h1 h2
    simp only [List.length_map] at h2
    simp [pack_block h i h2]

theorem toSparse_pack [Zero K] (dec : C → Q) {l : List (List C × List Nat × List K)} (h : Chunked l) :
    toSparse dec (pack l) = l.map fun e => (e.1.map dec, Arr.ofList e.2.1 e.2.2) := by
  unfold toSparse
  have : (pack l).qs.zip (pack l).shs = l.map fun e => (e.1, e.2.1) := by
    simp only [pack]
    rw [List.zip_map']
  rw [this]
  exact zipIdx_map_block h (fun e => (e.1, e.2.1)) fun a d => (a.1.map dec, Arr.ofList a.2 d)

theorem fold_assign [Zero K] (T : SpT Q K) (n : Nat) (pre : List K) (hn : pre.length = n) :
    (T.zip (offsets n (T.map fun b => b.2.shape))).foldl (fun d p => sliceAssign d p.2 p.1.2.toList)
      (pre ++ List.replicate ((T.map fun b => b.2.shape.prod).sum) 0) =
      pre ++ (T.map fun b => b.2.toList).flatten := by
  induction T generalizing n pre with
  | nil => simp [offsets]
  | cons b t ih =>
    simp only [List.map_cons, offsets, List.zip_cons_cons, List.foldl_cons, List.sum_cons, List.flatten_cons]
    have : sliceAssign (pre ++ List.replicate (b.2.shape.prod + (t.map fun b => b.2.shape.prod).sum) (0 : K)) n
        b.2.toList = (pre ++ b.2.toList) ++ List.replicate ((t.map fun b => b.2.shape.prod).sum) 0 := by
      unfold sliceAssign
      subst hn
      rw [List.take_left]
      simp
    rw [this, ih (n + b.2.shape.prod) (pre ++ b.2.toList) (by simp [hn])]
    simp

theorem fromSparse_eq [Zero K] (enc : Q → C) (T : SpT Q K) :
    fromSparse enc T = pack (T.map fun b => (b.1.map enc, b.2.shape, b.2.toList)) := by
  unfold fromSparse pack
  simp only [List.map_map]
  have := fold_assign T 0 [] rfl
  simp only [List.nil_append] at this
  rw [offsets_getLastD, Nat.zero_add, List.map_map]
  simp only [Function.comp_def]
  rw [this]

theorem fromSparse_chunked [Zero K] (enc : Q → C) (T : SpT Q K) :
    Chunked (T.map fun b => (b.1.map enc, b.2.shape, b.2.toList)) := by
  intro e he
  obtain ⟨b, _, rfl⟩ := List.mem_map.1 he
  simp


/-! ### Addition -/

theorem sliceAdd_flatten [Add K] (L : List (List K)) (i : Nat) (h : i < L.length) (xs : List K)
    (hx : xs.length = L[i].length) :
    sliceAdd L.flatten ((L.take i).map List.length).sum xs =
      (L.modify i fun m => List.zipWith (· + ·) m xs).flatten := by
  induction L generalizing i with
  | nil => simp at h
  | cons a t ih =>
    cases i with
    | zero =>
      simp only [List.getElem_cons_zero] at hx
      simp only [List.take_zero, List.map_nil, List.sum_nil, List.flatten_cons, sliceAdd, List.drop_zero,
        Nat.zero_add, List.nil_append, List.modify_zero_cons]
      rw [List.drop_append, List.drop_of_length_le (by omega), show xs.length - a.length = 0 by omega]
      simp only [List.drop_zero, List.nil_append]
      congr 1
      apply List.ext_getElem
      · simp; omega
      · intro j h1 h2
        simp only [List.length_zipWith] at h2
        simp [List.getElem_append_left (show j < a.length by omega)]
    | succ j =>
      simp only [List.getElem_cons_succ] at hx
      have hj : j < t.length := by simpa using h
      have e := ih j hj hx
      simp only [List.take_succ_cons, List.map_cons, List.sum_cons, List.flatten_cons, List.modify_succ_cons]
      rw [← e]
      unfold sliceAdd
      rw [List.take_append, List.drop_append, List.drop_append, List.drop_of_length_le (show a.length ≤ _ by omega),
        List.drop_of_length_le (show a.length ≤ _ by omega), List.take_of_length_le (show a.length ≤ _ by omega)]
      simp only [List.nil_append, Nat.add_sub_cancel_left, Nat.add_assoc, List.append_assoc]

theorem sum_modify {α : Type} [AddCommMonoid K] (l : List α) (i : Nat) (hi : i < l.length) (f : α → α) (g : α → K)
    (h : K) (hg : g (f l[i]) = g l[i] + h) : ((l.modify i f).map g).sum = (l.map g).sum + h := by
  induction l generalizing i with
  | nil => simp at hi
  | cons a t ih =>
    cases i with
    | zero =>
      simp only [List.getElem_cons_zero] at hg
      simp only [List.modify_zero_cons, List.map_cons, List.sum_cons, hg]
      exact add_right_comm _ _ _
    | succ j =>
      simp only [List.modify_succ_cons, List.map_cons, List.sum_cons]
      rw [ih j (by simpa using hi) (by simpa using hg)]
      exact (add_assoc _ _ _).symm

theorem map_modify_same {α β : Type} (l : List α) (i : Nat) (f : α → α) (g : α → β) (h : ∀ a, g (f a) = g a) :
    (l.modify i f).map g = l.map g := by
  apply List.ext_getElem
  · simp
  · intro j h1 h2
    simp only [List.getElem_map, List.getElem_modify]
    split_ifs <;> simp [h]

theorem map_modify_comm {α β : Type} (l : List α) (i : Nat) (f : α → α) (f' : β → β) (g : α → β)
    (h : ∀ a, g (f a) = f' (g a)) : (l.modify i f).map g = (l.map g).modify i f' := by
  apply List.ext_getElem
  · simp
  · intro j h1 h2
    simp only [List.getElem_map, List.getElem_modify]
    split_ifs <;> simp [h]

theorem blocksMap_append [DecidableEq C] (qs : List (List C)) (q : List C) :
    blocksMap (qs ++ [q]) = Dict.set (blocksMap qs) q qs.length := by
  unfold blocksMap
  rw [List.zipIdx_append, List.foldl_append]
  simp

theorem blocksMap_spec [DecidableEq C] (qs : List (List C)) (q : List C) :
    (Dict.get? (blocksMap qs) q = none ↔ q ∉ qs) ∧
    (∀ i, Dict.get? (blocksMap qs) q = some i → qs[i]? = some q) := by
  induction qs using List.reverseRecOn with
  | nil => simp [blocksMap]
  | append_singleton t a ih =>
    rw [blocksMap_append, Dict.get?_set]
    by_cases h : a = q
    · subst h; simp
    · simp only [h, if_false]
      constructor
      · rw [ih.1]; simp [Ne.symm h]
      · intro i hi
        have := ih.2 i hi
        have hlt : i < t.length := by
          by_contra hc
          rw [List.getElem?_eq_none (by omega)] at this
          simp at this
        rw [List.getElem?_append_left hlt]; exact this

theorem blockEntry_zipWith [DecidableEq Q] [AddCommMonoid K] (q : List Q) (sh : List Nat) (c d : List K)
    (hc : c.length = sh.prod) (hd : d.length = sh.prod) (x : List (Q × Nat)) :
    blockEntry (q, Arr.ofList sh (List.zipWith (· + ·) c d)) x =
      blockEntry (q, Arr.ofList sh c) x + blockEntry (q, Arr.ofList sh d) x := by
  unfold blockEntry Arr.ofList
  simp only
  split_ifs with h
  · have hl := ravel_lt h.2
    simp [List.getElem?_zipWith, List.getElem?_eq_getElem (show ravel sh (x.map Prod.snd) < c.length by omega),
      List.getElem?_eq_getElem (show ravel sh (x.map Prod.snd) < d.length by omega)]
  · simp

/-- Entry of a list of triples. -/
def entryL [DecidableEq Q] [AddCommMonoid K] (dec : C → Q) (l : List (List C × List Nat × List K))
    (x : List (Q × Nat)) : K := (l.map fun e => blockEntry (e.1.map dec, Arr.ofList e.2.1 e.2.2) x).sum

theorem entry_toSparse_pack [DecidableEq Q] [AddCommMonoid K] (dec : C → Q)
    {l : List (List C × List Nat × List K)} (h : Chunked l) (x : List (Q × Nat)) :
    entry (toSparse dec (pack l)) x = entryL dec l x := by
  rw [toSparse_pack dec h]
  unfold entry entryL
  rw [List.map_map]
  rfl

variable [DecidableEq C] [DecidableEq Q] [AddCommMonoid K]

theorem add_loop (dec : C → Q) (la lb : List (List C × List Nat × List K)) (ha : Chunked la) (hb : Chunked lb)
    (hsh : ∀ a ∈ la, ∀ b ∈ lb, a.1 = b.1 → a.2.1 = b.2.1)
    (L : List (List C × Nat)) (hL : ∀ p ∈ L, ∃ b, lb[p.2]? = some b ∧ b.1 = p.1)
    (la' : List (List C × List Nat × List K)) (ha' : Chunked la')
    (hs : (la'.map fun e => (e.1, e.2.1)) = la.map fun e => (e.1, e.2.1)) (dd : List Nat) (bm : List (List K)) :
    ∃ la'', Chunked la'' ∧ (la''.map fun e => (e.1, e.2.1)) = (la.map fun e => (e.1, e.2.1)) ∧
      (∀ x, entryL dec la'' x = entryL dec la' x + ((L.filter fun p => p.1 ∈ la.map fun e => e.1).map fun p =>
        entryL dec [lb.getD p.2 ([], [], [])] x).sum) ∧
      L.foldl (addStep (pack la) (pack lb) (blocksMap (pack la).qs)) ((la'.map fun e => e.2.2).flatten, dd, bm) =
        ((la''.map fun e => e.2.2).flatten, dd ++ (L.filter fun p => p.1 ∈ la.map fun e => e.1).map Prod.snd,
          bm ++ (L.filter fun p => p.1 ∉ la.map fun e => e.1).map fun p => (pack lb).block p.2) := by
  induction L generalizing la' dd bm with
  | nil => exact ⟨la', ha', hs, by simp, by simp⟩
  | cons p t ih =>
    obtain ⟨b, hb1, hb2⟩ := hL p List.mem_cons_self
    have hL' : ∀ p ∈ t, ∃ b, lb[p.2]? = some b ∧ b.1 = p.1 := fun p hp => hL p (List.mem_cons_of_mem _ hp)
    obtain ⟨hblt, hbe⟩ := List.getElem?_eq_some_iff.1 hb1
    have hblk : (pack lb).block p.2 = b.2.2 := by rw [pack_block hb _ hblt, hbe]
    have hbm : b ∈ lb := List.mem_of_getElem? hb1
    simp only [List.foldl_cons]
    obtain ⟨hn, hsome⟩ := blocksMap_spec (pack la).qs p.1
    by_cases hp : p.1 ∈ la.map fun e => e.1
    · cases hg : Dict.get? (blocksMap (pack la).qs) p.1 with
      | none => exact absurd hp (hn.1 hg)
      | some ia =>
        have hia := hsome ia hg
        simp only [pack, List.getElem?_map, Option.map_eq_some_iff] at hia
        obtain ⟨a, hia, haq⟩ := hia
        obtain ⟨hialt, hiae⟩ := List.getElem?_eq_some_iff.1 hia
        have ham : a ∈ la := List.mem_of_getElem? hia
        have hse : a.2.1 = b.2.1 := hsh a ham b hbm (by rw [haq, hb2])
        have hlen : la'.length = la.length := by
          have := congrArg List.length hs
          simpa using this
        have hialt' : ia < la'.length := by omega
        have hsi : (la'[ia].1, la'[ia].2.1) = (a.1, a.2.1) := by
          have h1 := congrArg (fun l => l[ia]?) hs
          simp only [List.getElem?_map, List.getElem?_eq_getElem hialt', hia, Option.map_some,
            Option.some.injEq] at h1
          exact h1
        simp only [Prod.mk.injEq] at hsi
        have hidx : (pack la).idxs.getD ia 0 = (((la'.map fun e => e.2.2).take ia).map List.length).sum := by
          have h1 := pack_idxs ha' ia (by omega)
          rw [← h1]
          have : (la.map fun e => e.2.1) = la'.map fun e => e.2.1 := by
            have h2 := congrArg (List.map Prod.snd) hs
            simp only [List.map_map] at h2
            exact h2.symm
          simp only [pack, this]
        have hbl : b.2.2.length = la'[ia].2.2.length := by
          rw [hb b hbm, ha' _ (List.getElem_mem hialt'), hsi.2, hse]
        set f : List C × List Nat × List K → List C × List Nat × List K :=
          fun e => (e.1, e.2.1, List.zipWith (· + ·) e.2.2 b.2.2) with hf
        have hstep : addStep (pack la) (pack lb) (blocksMap (pack la).qs) ((la'.map fun e => e.2.2).flatten, dd, bm) p =
            (((la'.modify ia f).map fun e => e.2.2).flatten, dd ++ [p.2], bm) := by
          unfold addStep
          rw [hg]
          simp only
          rw [hidx, hblk, sliceAdd_flatten _ _ (by simpa using hialt') _ (by simpa using hbl)]
          rw [map_modify_comm la' ia f (fun m => List.zipWith (· + ·) m b.2.2) (fun e => e.2.2) (fun _ => rfl)]
        rw [hstep]
        have hch : Chunked (la'.modify ia f) := by
          intro e he
          obtain ⟨j, hj, rfl⟩ := List.mem_iff_getElem.1 he
          rw [List.getElem_modify]
          simp only [List.length_modify] at hj
          split_ifs with hij
          · subst hij
            simp only [hf, List.length_zipWith]
            rw [hbl, Nat.min_self]
            exact ha' _ (List.getElem_mem hj)
          · exact ha' _ (List.getElem_mem hj)
        obtain ⟨la'', h1, h2, h3, h4⟩ := ih hL' (la'.modify ia f) hch
          (by rw [map_modify_same la' ia f _ (fun _ => rfl)]; exact hs) (dd ++ [p.2]) bm
        refine ⟨la'', h1, h2, ?_, ?_⟩
        · intro x
          rw [h3 x]
          have he : entryL dec (la'.modify ia f) x = entryL dec la' x + entryL dec [lb.getD p.2 ([], [], [])] x := by
            unfold entryL
            apply sum_modify _ _ hialt'
            rw [List.getD_eq_getElem?_getD, hb1]
            simp only [hf, Option.getD_some, List.map_cons, List.map_nil, List.sum_cons, List.sum_nil, add_zero]
            have hq : la'[ia].1 = b.1 := by rw [hsi.1, haq, hb2]
            have hs2 : la'[ia].2.1 = b.2.1 := by rw [hsi.2, hse]
            rw [blockEntry_zipWith _ _ _ _ (ha' _ (List.getElem_mem hialt')) (by rw [hs2]; exact hb b hbm), hq, hs2]
          rw [he]
          simp only [List.filter_cons, hp, decide_true, if_true, List.map_cons, List.sum_cons]
          exact add_assoc _ _ _
        · rw [h4]
          simp [hp]
    · have hg := hn.2 hp
      have hstep : addStep (pack la) (pack lb) (blocksMap (pack la).qs) ((la'.map fun e => e.2.2).flatten, dd, bm) p =
          ((la'.map fun e => e.2.2).flatten, dd, bm ++ [(pack lb).block p.2]) := by
        unfold addStep
        rw [hg]
      rw [hstep]
      obtain ⟨la'', h1, h2, h3, h4⟩ := ih hL' la' ha' hs dd (bm ++ [(pack lb).block p.2])
      refine ⟨la'', h1, h2, ?_, ?_⟩
      · intro x
        rw [h3 x]
        simp only [List.filter_cons, hp, decide_false, Bool.false_eq_true, if_false]
      · rw [h4]
        simp [hp]

theorem npDelete_filter {α β : Type} (l : List α) (P : α → Bool) (g : α → β) :
    npDelete (l.map g) ((l.zipIdx.filter fun p => P p.1).map Prod.snd) = (l.filter fun a => !P a).map g := by
  unfold npDelete
  have h1 : (l.map g).zipIdx = l.zipIdx.map fun p => (g p.1, p.2) := by
    rw [List.zipIdx_map]; rfl
  rw [h1, List.filter_map, List.map_map]
  have h2 : l.zipIdx.filter ((fun p : β × Nat => !((l.zipIdx.filter fun p => P p.1).map Prod.snd).contains p.2) ∘
      fun p => (g p.1, p.2)) = l.zipIdx.filter fun p => !P p.1 := by
    apply List.filter_congr
    intro p hp
    simp only [Function.comp]
    congr 1
    rw [Bool.eq_iff_iff, List.contains_iff_mem, List.mem_map]
    constructor
    · rintro ⟨p', hp', he⟩
      rw [List.mem_filter] at hp'
      have e1 := List.mem_zipIdx_iff_getElem?.1 hp
      have e2 := List.mem_zipIdx_iff_getElem?.1 hp'.1
      rw [he, e1] at e2
      rw [Option.some.inj e2]
      exact hp'.2
    · intro h
      exact ⟨p, List.mem_filter.2 ⟨hp, h⟩, rfl⟩
  rw [h2]
  have h3 : ((l.zipIdx.filter fun p => !P p.1).map Prod.fst) = l.filter fun a => !P a := by
    have := List.filter_map (f := (Prod.fst : α × Nat → α)) (p := fun a => !P a) (l := l.zipIdx)
    rw [List.zipIdx_map_fst] at this
    rw [this]; rfl
  rw [← h3, List.map_map]
  rfl

theorem zipIdx_filter_block {lb : List (List C × List Nat × List K)} (hb : Chunked lb) (P : List C → Bool)
    {β : Type} (f : Nat → β) (g : List C × List Nat × List K → β) (hfg : ∀ i e, lb[i]? = some e → f i = g e) :
    ((lb.map fun e => e.1).zipIdx.filter fun p => P p.1).map (fun p => f p.2) =
      (lb.filter fun e => P e.1).map g := by
  have h1 : (lb.map fun e => e.1).zipIdx = lb.zipIdx.map fun p => (p.1.1, p.2) := by
    rw [List.zipIdx_map]; rfl
  rw [h1, List.filter_map, List.map_map]
  have h3 : ((lb.zipIdx.filter fun p => P p.1.1).map Prod.fst) = lb.filter fun a => P a.1 := by
    have := List.filter_map (f := (Prod.fst : (List C × List Nat × List K) × Nat → _)) (p := fun a => P a.1)
      (l := lb.zipIdx)
    rw [List.zipIdx_map_fst] at this
    rw [this]; rfl
  rw [← h3, List.map_map]
  apply List.map_congr_left
  intro p hp
  rw [List.mem_filter] at hp
  exact hfg _ _ (List.mem_zipIdx_iff_getElem?.1 hp.1)

/-- The result of the addition kernel in normal form. -/
theorem addImpl_pack (dec : C → Q) (la lb : List (List C × List Nat × List K)) (ha : Chunked la) (hb : Chunked lb)
    (hsh : ∀ a ∈ la, ∀ b ∈ lb, a.1 = b.1 → a.2.1 = b.2.1) :
    ∃ la'', Chunked la'' ∧ (la''.map fun e => (e.1, e.2.1)) = (la.map fun e => (e.1, e.2.1)) ∧
      addImpl (pack la) (pack lb) = pack (la'' ++ lb.filter fun e => e.1 ∉ la.map fun e => e.1) ∧
      ∀ x, entryL dec (la'' ++ lb.filter fun e => e.1 ∉ la.map fun e => e.1) x =
        entryL dec la x + entryL dec lb x := by
  have hL : ∀ p ∈ (lb.map fun e => e.1).zipIdx, ∃ b, lb[p.2]? = some b ∧ b.1 = p.1 := by
    intro p hp
    have := List.mem_zipIdx_iff_getElem?.1 hp
    rw [List.getElem?_map, Option.map_eq_some_iff] at this
    exact this
  obtain ⟨la'', h1, h2, h3, h4⟩ := add_loop dec la lb ha hb hsh _ hL la ha rfl [] []
  refine ⟨la'', h1, h2, ?_, ?_⟩
  · unfold addImpl
    have e : (pack la).data = (la.map fun e => e.2.2).flatten := rfl
    have e' : (pack lb).qs = lb.map fun e => e.1 := rfl
    rw [e, e', h4]
    simp only [List.nil_append]
    have d1 : ((lb.map fun e => e.1).zipIdx.filter fun p => decide (p.1 ∈ la.map fun e => e.1)).map Prod.snd =
        (lb.zipIdx.filter fun p => decide (p.1.1 ∈ la.map fun e => e.1)).map Prod.snd := by
      have h1 : (lb.map fun e => e.1).zipIdx = lb.zipIdx.map fun p => (p.1.1, p.2) := by
        rw [List.zipIdx_map]; rfl
      rw [h1, List.filter_map, List.map_map]
      rfl
    have n1 := npDelete_filter lb (fun e => decide (e.1 ∈ la.map fun e => e.1)) (fun e => e.1)
    have n2 := npDelete_filter lb (fun e => decide (e.1 ∈ la.map fun e => e.1)) (fun e => e.2.1)
    have n3 := zipIdx_filter_block hb (fun q => decide (q ∉ la.map fun e => e.1)) (fun i => (pack lb).block i)
      (fun e => e.2.2) (by
        intro i e he
        obtain ⟨hlt, heq⟩ := List.getElem?_eq_some_iff.1 he
        rw [pack_block hb i hlt, heq])
    rw [d1]
    simp only [show (pack lb).shs = lb.map fun e => e.2.1 from rfl, show (pack la).shs = la.map fun e => e.2.1 from rfl,
      show (pack la).qs = la.map fun e => e.1 from rfl]
    rw [n1, n2, n3]
    have q1 : (la.map fun e => e.1) = la''.map fun e => e.1 := by
      have := congrArg (List.map Prod.fst) h2
      simp only [List.map_map] at this
      exact this.symm
    have q2 : (la.map fun e => e.2.1) = la''.map fun e => e.2.1 := by
      have := congrArg (List.map Prod.snd) h2
      simp only [List.map_map] at this
      exact this.symm
    have hneg : (lb.filter fun a => !decide (a.1 ∈ la.map fun e => e.1)) =
        lb.filter fun a => decide (a.1 ∉ la.map fun e => e.1) := by
      apply List.filter_congr; intro a _; simp
    rw [hneg]
    unfold mk' pack
    simp only [List.map_append, List.flatten_append]
    rw [q2]
    congr 2
  · intro x
    have happ : ∀ l1 l2 : List (List C × List Nat × List K), entryL dec (l1 ++ l2) x =
        entryL dec l1 x + entryL dec l2 x := by
      intro l1 l2; simp [entryL]
    rw [happ, h3 x, add_assoc]
    congr 1
    have n3 := zipIdx_filter_block hb (fun q => decide (q ∈ la.map fun e => e.1))
      (fun i => entryL dec [lb.getD i ([], [], [])] x)
      (fun e => blockEntry (e.1.map dec, Arr.ofList e.2.1 e.2.2) x) (by
        intro i e he
        rw [List.getD_eq_getElem?_getD, he]
        simp [entryL])
    rw [n3]
    unfold entryL
    generalize (fun e : List C × List Nat × List K => blockEntry (e.1.map dec, Arr.ofList e.2.1 e.2.2) x) = g
    clear n3 h4 h3 hL hsh hb
    induction lb with
    | nil => simp
    | cons b t ih =>
      simp only [List.filter_cons]
      by_cases hq : b.1 ∈ la.map fun e => e.1
      · simp only [hq, decide_true, if_true, not_true_eq_false, decide_false, Bool.false_eq_true, if_false,
          List.map_cons, List.sum_cons]
        rw [add_assoc, ih]
      · simp only [hq, decide_false, Bool.false_eq_true, if_false, not_false_eq_true, decide_true, if_true,
          List.map_cons, List.sum_cons]
        rw [add_left_comm, ih]

end Flat
end Verif
