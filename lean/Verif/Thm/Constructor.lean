import Verif.Model.Constructor
import Verif.Spec.Constructor
import Verif.Thm.Sparse
import Verif.Thm.Flat
import Verif.Proof.Canon
import Mathlib.Algebra.Group.Int.Defs

/-!
C41: flattening a tensor to a vector and back.
-/
set_option linter.unusedSectionVars false

namespace Verif
namespace Constructor
variable {Q C K : Type} [AddCommGroup Q] [DecidableEq Q] [DecidableEq C]

theorem fermSkeleton_eq (le : Q → Q → Bool) (infos : List (BondInfo Q)) (pattern : List Bool) (dq : Q) :
    fermSkeleton le infos pattern dq = SpT.skeleton le infos (some pattern) (some dq) := by
  unfold fermSkeleton SpT.skeleton
  split_ifs
  · rfl
  simp only [Option.getD_some, Option.some.injEq]
  refine List.filterMap_congr fun x _ => ?_
  have key : ∀ ps : List Q, (ps.length = 1 ∨ ps.foldl (· + ·) 0 = dq) ↔ (ps.length = 1 ∨ ps.dropLast.foldl (· + ·) 0 = dq - ps.getLastD 0) := by
    intro ps
    rcases eq_or_ne ps [] with rfl | hne
    · simp
    · rw [← List.sum_eq_foldl, ← dropLast_sum ps hne, eq_sub_iff_add_eq]
  simp only [key]

/-- The blocks of one charge, as the code lists them. -/
structure IsInfo (legs : List (BondInfo Q)) (pattern : List Bool) (enc : Q → C) (dq : Q) (l : List (List Nat × List Q)) (i : Info C) : Prop where
  mem : ∀ sh qs, (sh, qs) ∈ l ↔ IsCombination legs qs sh ∧ signedSum pattern qs = dq
  nodup : (l.map Prod.snd).Nodup
  shs : i.shs = l.map Prod.fst
  qs : i.qs = l.map fun e => e.2.map enc
  idxs : i.idxs = Flat.offsets 0 (l.map Prod.fst)

theorem info_spec {legs : List (BondInfo Q)} {pattern : List Bool} {enc : Q → C} {dec : C → Q} (hg : GoodBonds legs pattern enc dec)
    {le : Q → Q → Bool} {dq : Q} {i : Info C} (h : info le enc legs pattern dq = some i) :
    ∃ l, l ≠ [] ∧ IsInfo legs pattern enc dq l i := by
  unfold info at h
  rw [fermSkeleton_eq] at h
  cases hs : SpT.skeleton le legs (some pattern) (some dq) with
  | none => rw [hs] at h; simp at h
  | some l =>
    rw [hs] at h
    cases l with
    | nil => simp at h
    | cons a t =>
      simp only [Option.some.injEq] at h
      refine ⟨a :: t, by simp, ?_, ?_, ?_, ?_, ?_⟩
      · intro sh qs
        have := C10_skeleton_blocks le legs (some pattern) (some dq) _ hg.two (by
          intro p hp
          cases hp
          exact hg.pat) hg.wf hs sh qs
        simpa using this
      · exact C10_skeleton_nodup le legs (some pattern) (some dq) _ hg.wf hs
      · rw [← h]
      · rw [← h]
      · rw [← h]

theorem info_exists {legs : List (BondInfo Q)} {pattern : List Bool} {enc : Q → C} {dec : C → Q} (hg : GoodBonds legs pattern enc dec)
    (le : Q → Q → Bool) {dq : Q} {sh : List Nat} {qs : List Q} (hc : IsCombination legs qs sh) (hd : signedSum pattern qs = dq) :
    ∃ i, info le enc legs pattern dq = some i := by
  have hne : ∀ b ∈ legs, b ≠ [] := by
    clear hg hd
    induction hc with
    | nil => simp
    | cons h1 _ ih =>
      intro b hb
      rcases List.mem_cons.1 hb with rfl | hb
      · rintro rfl
        simp [Dict.get?] at h1
      · exact ih b hb
  have ht := C10_skeleton_total le legs (some pattern) (some dq) hne
  obtain ⟨l, hl⟩ := Option.isSome_iff_exists.1 ht
  have hm := (C10_skeleton_blocks le legs (some pattern) (some dq) l hg.two (by
          intro p hp
          cases hp
          exact hg.pat) hg.wf hl sh qs).2 ⟨hc, by simpa using hd⟩
  unfold info
  rw [fermSkeleton_eq, hl]
  cases l with
  | nil => simp at hm
  | cons a t => exact ⟨_, rfl⟩

theorem enc_inj {legs : List (BondInfo Q)} {pattern : List Bool} {enc : Q → C} {dec : C → Q} (hg : GoodBonds legs pattern enc dec)
    {qs : List Q} {sh : List Nat} (h : IsCombination legs qs sh) : (qs.map enc).map dec = qs := by
  have hp := hg.pack
  clear hg
  induction h with
  | nil => rfl
  | @cons b bs q qs s shs h1 h2 ih =>
    have hm := Dict.mem_of_get? h1
    simp only [List.map_cons]
    rw [hp b (by simp) _ hm, ih fun b hb => hp b (by simp [hb])]

theorem IsInfo.qs_nodup {legs : List (BondInfo Q)} {pattern : List Bool} {enc : Q → C} {dec : C → Q} (hg : GoodBonds legs pattern enc dec)
    {dq : Q} {l : List (List Nat × List Q)} {i : Info C} (h : IsInfo legs pattern enc dq l i) : i.qs.Nodup := by
  rw [h.qs]
  have e : (l.map fun e => e.2.map enc) = (l.map Prod.snd).map fun q => q.map enc := by rw [List.map_map]; rfl
  rw [e]
  refine (List.nodup_map_iff_inj_on h.nodup).2 ?_
  intro a ha b hb hab
  obtain ⟨⟨s, a⟩, ha', rfl⟩ := List.mem_map.1 ha
  obtain ⟨⟨s', b⟩, hb', rfl⟩ := List.mem_map.1 hb
  have h1 := enc_inj hg ((h.mem _ _).1 ha').1
  have h2 := enc_inj hg ((h.mem _ _).1 hb').1
  have hab' : a.map enc = b.map enc := hab
  show a = b
  rw [← h1, ← h2, hab']

/-! ### The loop that copies the blocks -/

/-- The index table as a list, from the offset `off` on. -/
def tabL (tqs : List (List C)) : Nat → List (List C) → List (List Nat) → List (Nat × (Nat × Nat))
  | off, q :: qs, s :: shs => if q ∈ tqs then (tqs.idxOf q, (off, off + s.prod)) :: tabL tqs (off + s.prod) qs shs
      else tabL tqs (off + s.prod) qs shs
  | _, _, _ => []

theorem tab_list (tqs : List (List C)) (idxs : List Nat) (qs : List (List C)) (shs : List (List Nat)) (pos off : Nat)
    (hl : qs.length = shs.length) (h : ∀ j ≤ shs.length, idxs.getD (pos + j) 0 = off + ((shs.take j).map List.prod).sum) :
    (((qs.zipIdx pos).filter fun p => p.1 ∈ tqs).map fun p => (tqs.idxOf p.1, (idxs.getD p.2 0, idxs.getD (p.2 + 1) 0))) = tabL tqs off qs shs := by
  induction qs generalizing shs pos off with
  | nil => rfl
  | cons q qs ih => cases shs with
    | nil => simp at hl
    | cons s shs =>
      have h0 := h 0 (by omega)
      have h1 := h 1 (by simp)
      simp only [Nat.add_zero, List.take_zero, List.map_nil, List.sum_nil] at h0
      simp only [List.take_succ_cons, List.take_zero, List.map_cons, List.map_nil, List.sum_cons, List.sum_nil, Nat.add_zero] at h1
      have := ih shs (pos + 1) (off + s.prod) (by simpa using hl) (by
        intro j hj
        have := h (j + 1) (by simp; omega)
        rw [show pos + 1 + j = pos + (j + 1) by omega, this]
        simp only [List.take_succ_cons, List.map_cons, List.sum_cons]
        omega)
      rw [List.zipIdx_cons, tabL, ← this]
      by_cases e : q ∈ tqs
      · rw [if_pos e, List.filter_cons_of_pos (by simpa using e), List.map_cons]
        simp only [h0, h1]
      · rw [if_neg e, List.filter_cons_of_neg (by simpa using e)]

theorem indexTab_eq (i : Info C) (tqs : List (List C)) (hn : i.qs.Nodup) (hl : i.qs.length = i.shs.length)
    (hi : i.idxs = Flat.offsets 0 i.shs) : indexTab i tqs = tabL tqs 0 i.qs i.shs := by
  have ht := tab_list tqs i.idxs i.qs i.shs 0 0 hl (by
    intro j hj
    rw [hi]
    simpa using offsets_getD 0 i.shs j hj)
  rw [← ht]
  set L := (i.qs.zipIdx.filter fun p => p.1 ∈ tqs).map fun p => (tqs.idxOf p.1, (i.idxs.getD p.2 0, i.idxs.getD (p.2 + 1) 0)) with hL
  have hfold : indexTab i tqs = L.foldl (fun m a => Dict.set m a.1 a.2) [] := by
    rw [hL, List.foldl_map, List.foldl_filter]
    unfold indexTab
    congr 1
    funext m p
    simp
  rw [hfold, foldl_set_append [] L, List.nil_append]
  unfold Dict.WF
  rw [List.nil_append, hL, List.map_map]
  have e : (Prod.fst ∘ fun p : List C × Nat => (tqs.idxOf p.1, (i.idxs.getD p.2 0, i.idxs.getD (p.2 + 1) 0))) = (fun q => tqs.idxOf q) ∘ Prod.fst := rfl
  rw [e, ← List.map_map]
  have hsub : ((i.qs.zipIdx.filter fun p => p.1 ∈ tqs).map Prod.fst) = i.qs.filter fun q => q ∈ tqs := by
    have : ∀ (l : List (List C)) (k : Nat), (((l.zipIdx k).filter fun p => p.1 ∈ tqs).map Prod.fst) = l.filter fun q => q ∈ tqs := by
      intro l
      induction l with
      | nil => intro k; rfl
      | cons q l ih =>
        intro k
        rw [List.zipIdx_cons]
        by_cases e : q ∈ tqs <;> simp [e, ← ih (k + 1)]
    exact this _ 0
  rw [hsub]
  refine (List.nodup_map_iff_inj_on (hn.filter _)).2 ?_
  intro a ha b hb hab
  have ha' := (List.mem_filter.1 ha).2
  exact (List.idxOf_inj (by simpa using ha')).1 hab

/-- Entries of the vector that belong to one allowed block. -/
def chunk [Zero K] (T : Flat C K) (q : List C) (s : List Nat) : List K :=
  if q ∈ T.qs then T.block (T.qs.idxOf q) else List.replicate s.prod 0

theorem copy_spec [Zero K] (T : Flat C K) (qs : List (List C)) (shs : List (List Nat)) (off : Nat) (pre : List K) (hoff : pre.length = off)
    (hl : qs.length = shs.length) (hT : T.qs.length + 1 = T.idxs.length)
    (hb : ∀ p ∈ qs.zip shs, p.1 ∈ T.qs → (T.block (T.qs.idxOf p.1)).length = p.2.prod) :
    copyBlocks T (tabL T.qs off qs shs) (pre ++ List.replicate (shs.map List.prod).sum 0) =
      some (pre ++ ((qs.zip shs).map fun p => chunk T p.1 p.2).flatten) := by
  induction qs generalizing shs off pre with
  | nil => cases shs with
    | nil => simp [tabL, copyBlocks]
    | cons => simp at hl
  | cons q qs ih => cases shs with
    | nil => simp at hl
    | cons s shs =>
      have hl' : qs.length = shs.length := by simpa using hl
      rw [tabL]
      by_cases e : q ∈ T.qs
      · rw [if_pos e, copyBlocks, if_pos (by have := List.idxOf_lt_length_iff.2 e; omega)]
        have hlen := hb (q, s) (by simp) e
        simp only at hlen
        have hn : (pySlice (pre ++ List.replicate ((s :: shs).map List.prod).sum (0 : K)) off (off + s.prod)).length = s.prod := by
          unfold pySlice
          rw [← hoff, List.drop_left]
          simp
        have hassign : npAssign (pre ++ List.replicate ((s :: shs).map List.prod).sum (0 : K)) off (off + s.prod) (T.block (T.qs.idxOf q)) =
            some ((pre ++ T.block (T.qs.idxOf q)) ++ List.replicate (shs.map List.prod).sum 0) := by
          unfold npAssign
          rw [hn]
          simp only [hlen, if_true]
          congr 1
          unfold sliceAssign
          subst hoff
          rw [List.take_left]
          simp [hlen]
        rw [hassign]
        simp only
        rw [ih shs (off + s.prod) _ (by simp [hoff, hlen]) hl' fun p hp => hb p (by simp [hp])]
        simp [chunk, e]
      · rw [if_neg e]
        have : pre ++ List.replicate ((s :: shs).map List.prod).sum (0 : K) =
            (pre ++ List.replicate s.prod 0) ++ List.replicate (shs.map List.prod).sum 0 := by
          rw [List.map_cons, List.sum_cons, List.replicate_add, List.append_assoc]
        rw [this, ih shs (off + s.prod) _ (by simp [hoff]) hl' fun p hp => hb p (by simp [hp])]
        simp [chunk, e]

/-! ### Tensors as lists of blocks -/

theorem tensor_pack [Zero K] {legs : List (BondInfo Q)} {pattern : List Bool} {enc : Q → C} {dec : C → Q} {dq : Q} {T : Flat C K}
    (hT : TensorOf legs pattern enc dec dq T) : ∃ lt : List (List C × List Nat × List K), Flat.Chunked lt ∧ T = Flat.pack lt ∧
      (lt.map fun e => e.1).Nodup ∧ (lt.map fun e => e.1.map dec).Nodup ∧
      ∀ e ∈ lt, IsCombination legs (e.1.map dec) e.2.1 ∧ signedSum pattern (e.1.map dec) = dq ∧ (e.1.map dec).map enc = e.1 := by
  obtain ⟨lt, hc, rfl⟩ := Flat.exists_pack hT.wf
  have hs := Flat.toSparse_pack dec hc
  have hu := hT.uniq
  have hcf := hT.conf
  have hch := hT.charge
  unfold UniqueLabels at hu
  unfold Conforms at hcf
  unfold Conserves at hch
  rw [hs] at hu hcf hch
  rw [List.map_map] at hu
  have hu' : (lt.map fun e => e.1.map dec).Nodup := hu
  refine ⟨lt, hc, rfl, ?_, hu', ?_⟩
  · refine List.Nodup.of_map (List.map dec) ?_
    rw [List.map_map]
    exact hu
  · intro e he
    have hm := List.mem_map_of_mem (f := fun e : List C × List Nat × List K => (e.1.map dec, Arr.ofList e.2.1 e.2.2)) he
    refine ⟨hcf _ hm, hch _ hm, ?_⟩
    have hcode := hT.codes e.1 (List.mem_map_of_mem (f := fun e : List C × List Nat × List K => e.1) he)
    rw [List.map_map]
    conv_rhs => rw [← List.map_id e.1]
    exact List.map_congr_left fun c hcm => hcode c hcm

theorem block_of {lt : List (List C × List Nat × List K)} (hc : Flat.Chunked lt) (hn : (lt.map fun e => e.1).Nodup)
    {e : List C × List Nat × List K} (he : e ∈ lt) : (Flat.pack lt).block ((Flat.pack lt).qs.idxOf e.1) = e.2.2 := by
  obtain ⟨j, hj, rfl⟩ := List.getElem_of_mem he
  have hj' : j < (lt.map fun e => e.1).length := by simpa using hj
  have := hn.idxOf_getElem j hj'
  rw [List.getElem_map] at this
  have h2 : (Flat.pack lt).qs.idxOf lt[j].1 = j := this
  rw [h2, Flat.pack_block hc j hj]

theorem chunk_length [Zero K] {legs : List (BondInfo Q)} {pattern : List Bool} {enc : Q → C} {dec : C → Q} (hg : GoodBonds legs pattern enc dec)
    {dq : Q} {T : Flat C K} (hT : TensorOf legs pattern enc dec dq T) {qs : List Q} {sh : List Nat} (h : IsCombination legs qs sh) :
    (chunk T (qs.map enc) sh).length = sh.prod := by
  obtain ⟨lt, hc, rfl, hn, -, hl⟩ := tensor_pack hT
  unfold chunk
  split_ifs with e
  · obtain ⟨e, he, hq⟩ := List.mem_map.1 e
    obtain ⟨h1, -, -⟩ := hl e he
    rw [← hq, block_of hc hn he, hc e he]
    rw [hq, enc_inj hg h] at h1
    rw [h1.shape_unique h]
  · simp

theorem zip_info {legs : List (BondInfo Q)} {pattern : List Bool} {enc : Q → C} {dq : Q} {l : List (List Nat × List Q)} {i : Info C}
    (h : IsInfo legs pattern enc dq l i) : i.qs.zip i.shs = l.map fun e => (e.2.map enc, e.1) := by
  rw [h.qs, h.shs, List.zip_map']

theorem copy_info [Zero K] {legs : List (BondInfo Q)} {pattern : List Bool} {enc : Q → C} {dec : C → Q} (hg : GoodBonds legs pattern enc dec)
    {dq : Q} {T : Flat C K} (hT : TensorOf legs pattern enc dec dq T) {l : List (List Nat × List Q)} {i : Info C}
    (hI : IsInfo legs pattern enc dq l i) :
    copyBlocks T (indexTab i T.qs) (List.replicate (i.shs.map List.prod).sum 0) = some (l.map fun e => chunk T (e.2.map enc) e.1).flatten := by
  have hlen : i.qs.length = i.shs.length := by rw [hI.qs, hI.shs]; simp
  rw [indexTab_eq i T.qs (hI.qs_nodup hg) hlen (by rw [hI.idxs, hI.shs])]
  have hTl : T.qs.length + 1 = T.idxs.length := by
    rw [hT.wf.2.1, hT.wf.1]; simp
  have := copy_spec T i.qs i.shs 0 [] rfl hlen hTl (by
    intro p hp hm
    rw [zip_info hI] at hp
    obtain ⟨e, he, rfl⟩ := List.mem_map.1 hp
    have := chunk_length hg hT ((hI.mem _ _).1 he).1
    unfold chunk at this
    rw [if_pos hm] at this
    exact this)
  rw [List.nil_append, List.nil_append] at this
  rw [this, zip_info hI, List.map_map]
  rfl

/-- The tensor whose blocks are the pieces of a vector. -/
theorem tensor_of_info [Zero K] {legs : List (BondInfo Q)} {pattern : List Bool} {enc : Q → C} {dec : C → Q} (hg : GoodBonds legs pattern enc dec)
    {dq : Q} {l : List (List Nat × List Q)} {i : Info C} (hI : IsInfo legs pattern enc dq l i) (v : List K)
    (hv : v.length = i.idxs.getLastD 0) : TensorOf legs pattern enc dec dq (⟨i.qs, i.shs, v, i.idxs⟩ : Flat C K) := by
  have hlen : i.qs.length = i.shs.length := by rw [hI.qs, hI.shs]; simp
  have hix : i.idxs = Flat.offsets 0 i.shs := by rw [hI.idxs, hI.shs]
  have hwf : (⟨i.qs, i.shs, v, i.idxs⟩ : Flat C K).WellFormed := by
    refine ⟨hlen, ?_, ?_⟩
    · simp only [hix]; exact Flat.offsets_eq _
    · simp only [hv, hix, offsets_getLastD]; simp
  have hmap : ((⟨i.qs, i.shs, v, i.idxs⟩ : Flat C K).toSparse dec).map (fun b => (b.1, b.2.shape)) = l.map fun e => (e.2, e.1) := by
    unfold Flat.toSparse
    simp only [List.map_map, Arr.ofList, Function.comp_def]
    have : ∀ (L : List (List C × List Nat)) k, ((L.zipIdx k).map fun x => (x.1.1.map dec, x.1.2)) = L.map fun x => (x.1.map dec, x.2) := by
      intro L
      induction L with
      | nil => intro k; rfl
      | cons a L ih => intro k; rw [List.zipIdx_cons, List.map_cons, ih]; rfl
    rw [this, zip_info hI, List.map_map]
    refine List.map_congr_left fun e he => ?_
    simp only [Function.comp_def]
    rw [enc_inj hg ((hI.mem _ _).1 he).1]
  have hmem : ∀ b ∈ (⟨i.qs, i.shs, v, i.idxs⟩ : Flat C K).toSparse dec, (b.2.shape, b.1) ∈ l := by
    intro b hb
    have := List.mem_map_of_mem (f := fun b : List Q × Arr K => (b.1, b.2.shape)) hb
    rw [hmap] at this
    obtain ⟨e, he, h⟩ := List.mem_map.1 this
    simp only [Prod.mk.injEq] at h
    rw [← h.1, ← h.2]
    exact he
  refine ⟨hwf, ?_, ?_, ?_, ?_⟩
  · intro b hb; exact ((hI.mem _ _).1 (hmem b hb)).1
  · unfold UniqueLabels
    have h2 := congrArg (List.map Prod.fst) hmap
    rw [List.map_map, List.map_map] at h2
    have h3 : ((⟨i.qs, i.shs, v, i.idxs⟩ : Flat C K).toSparse dec).map Prod.fst = l.map Prod.snd := h2
    rw [h3]
    exact hI.nodup
  · intro b hb; exact ((hI.mem _ _).1 (hmem b hb)).2
  · intro row hrow c hc
    have hrow' : row ∈ i.qs := hrow
    rw [hI.qs] at hrow'
    obtain ⟨e, he, rfl⟩ := List.mem_map.1 hrow'
    obtain ⟨q, hq, rfl⟩ := List.mem_map.1 hc
    have h1 := enc_inj hg ((hI.mem _ _).1 he).1
    have h2 : ∀ x ∈ e.2, dec (enc x) = x := by
      rw [List.map_map] at h1
      conv_rhs at h1 => rw [← List.map_id e.2]
      exact List.map_inj_left.1 h1
    rw [h2 q hq]

theorem toSparse_info [Zero K] {legs : List (BondInfo Q)} {pattern : List Bool} {enc : Q → C} {dec : C → Q} (hg : GoodBonds legs pattern enc dec)
    {dq : Q} {l : List (List Nat × List Q)} {i : Info C} (hI : IsInfo legs pattern enc dq l i) (c : List Nat × List Q → List K)
    (hc : ∀ e ∈ l, (c e).length = e.1.prod) :
    (⟨i.qs, i.shs, (l.map c).flatten, i.idxs⟩ : Flat C K).toSparse dec = l.map fun e => (e.2, Arr.ofList e.1 (c e)) := by
  have hp : (⟨i.qs, i.shs, (l.map c).flatten, i.idxs⟩ : Flat C K) = Flat.pack (l.map fun e => (e.2.map enc, e.1, c e)) := by
    unfold Flat.pack
    simp only [List.map_map, Function.comp_def]
    rw [hI.qs, hI.shs, hI.idxs]
  rw [hp, Flat.toSparse_pack, List.map_map]
  · refine List.map_congr_left fun e he => ?_
    simp only [Function.comp_def]
    rw [enc_inj hg ((hI.mem _ _).1 he).1]
  · intro x hx
    obtain ⟨e, he, rfl⟩ := List.mem_map.1 hx
    exact hc e he

theorem entry_info [AddCommMonoid K] {legs : List (BondInfo Q)} {pattern : List Bool} {enc : Q → C} {dec : C → Q} (hg : GoodBonds legs pattern enc dec)
    {dq : Q} {T : Flat C K} (hT : TensorOf legs pattern enc dec dq T) {l : List (List Nat × List Q)} {i : Info C}
    (hI : IsInfo legs pattern enc dq l i) (x : List (Q × Nat)) :
    entry ((⟨i.qs, i.shs, (l.map fun e => chunk T (e.2.map enc) e.1).flatten, i.idxs⟩ : Flat C K).toSparse dec) x = entry (T.toSparse dec) x := by
  rw [toSparse_info hg hI _ fun e he => chunk_length hg hT ((hI.mem _ _).1 he).1]
  have hlab : (l.map fun e => (e.2, Arr.ofList e.1 (chunk T (e.2.map enc) e.1))).map Prod.fst = l.map Prod.snd := by
    rw [List.map_map]; rfl
  have hU : UniqueLabels (l.map fun e => (e.2, Arr.ofList e.1 (chunk T (e.2.map enc) e.1))) := by
    unfold UniqueLabels
    rw [hlab]
    exact hI.nodup
  have hTu := hT.uniq
  obtain ⟨lt, hc, rfl, hn, -, hl⟩ := tensor_pack hT
  rw [Flat.toSparse_pack dec hc] at hTu ⊢
  by_cases hx : x.map Prod.fst ∈ l.map Prod.snd
  · obtain ⟨e, he, hex⟩ := List.mem_map.1 hx
    rw [entry_of_mem hU (List.mem_map_of_mem (f := fun e => (e.2, Arr.ofList e.1 (chunk (Flat.pack lt) (e.2.map enc) e.1))) he) hex.symm]
    by_cases ht : e.2.map enc ∈ (Flat.pack lt).qs
    · obtain ⟨t, htm, hte⟩ := List.mem_map.1 ht
      obtain ⟨h1, h2, h3⟩ := hl t htm
      have hdec : t.1.map dec = e.2 := by rw [hte, enc_inj hg ((hI.mem _ _).1 he).1]
      rw [entry_of_mem hTu (List.mem_map_of_mem (f := fun e : List C × List Nat × List K => (e.1.map dec, Arr.ofList e.2.1 e.2.2)) htm)
        (by simp only [hdec]; exact hex.symm)]
      rw [hdec] at h1 ⊢
      have hsh := h1.shape_unique ((hI.mem _ _).1 he).1
      have hch : chunk (Flat.pack lt) (e.2.map enc) e.1 = t.2.2 := by
        unfold chunk
        rw [if_pos ht, ← hte, block_of hc hn htm]
      rw [hch, hsh]
    · rw [entry_of_not_mem]
      · unfold blockEntry
        split_ifs
        · unfold chunk
          rw [if_neg ht]
          simp only [Arr.ofList, List.getD_eq_getElem?_getD, List.getElem?_replicate]
          split <;> rfl
        · rfl
      · rw [List.map_map]
        intro hm
        obtain ⟨t, htm, hte⟩ := List.mem_map.1 hm
        obtain ⟨h1, h2, h3⟩ := hl t htm
        apply ht
        simp only [Function.comp_def] at hte
        rw [hte, ← hex] at h3
        rw [h3]
        exact List.mem_map_of_mem (f := fun e : List C × List Nat × List K => e.1) htm
  · rw [entry_of_not_mem (by rw [hlab]; exact hx), entry_of_not_mem]
    rw [List.map_map]
    intro hm
    obtain ⟨t, htm, hte⟩ := List.mem_map.1 hm
    obtain ⟨h1, h2, h3⟩ := hl t htm
    apply hx
    simp only [Function.comp_def] at hte
    rw [hte] at h1 h2
    exact List.mem_map.2 ⟨_, (hI.mem _ _).2 ⟨h1, h2⟩, rfl⟩

/-! ### Sequences of calls -/

/-- The charge that `tensor_to_vector` reads from a label array. -/
def rowCharge (dec : C → Q) (pattern : List Bool) (tqs : List (List C)) : Q := signedSum pattern ((tqs.headD []).map dec)

theorem tensor_shs [Zero K] {legs : List (BondInfo Q)} {pattern : List Bool} {enc : Q → C} {dec : C → Q} (hg : GoodBonds legs pattern enc dec)
    {dq : Q} {T : Flat C K} (hT : TensorOf legs pattern enc dec dq T) {l : List (List Nat × List Q)} {i : Info C}
    (hI : IsInfo legs pattern enc dq l i) (h : i.qs = T.qs) : i.shs = T.shs := by
  obtain ⟨lt, hc, rfl, hn, -, hl⟩ := tensor_pack hT
  rw [hI.qs] at h
  rw [hI.shs]
  have h' : (l.map fun e => e.2.map enc) = lt.map fun e => e.1 := h
  have hlen : l.length = lt.length := by simpa using congrArg List.length h'
  show l.map Prod.fst = lt.map fun e => e.2.1
  apply List.ext_getElem
  · simpa using hlen
  · intro j h1 h2
    simp only [List.length_map] at h1 h2
    have h3 : l[j].2.map enc = lt[j].1 := by
      have := List.getElem_of_eq h' (i := j) (by simpa using h1)
      simpa using this
    have hm := (hI.mem l[j].1 l[j].2).1 (List.getElem_mem h1)
    have h4 := (hl lt[j] (List.getElem_mem h2)).1
    rw [← h3, enc_inj hg hm.1] at h4
    simpa using hm.1.shape_unique h4

/-- Entries of the cache that belong to one of the given label arrays. -/
def CacheOk {H : Type} [DecidableEq H] (key : List (List C) → H) (gen : Q → Option (Info C)) (dec : C → Q) (pattern : List Bool)
    (used : List (List (List C))) (cache : Dict H (Dict Nat (Nat × Nat))) : Prop :=
  ∀ h m, Dict.get? cache h = some m → ∃ tqs ∈ used, key tqs = h ∧ ∃ i, gen (rowCharge dec pattern tqs) = some i ∧ m = indexTab i tqs

theorem toVector_spec [AddCommMonoid K] {H : Type} [DecidableEq H] (key : List (List C) → H) {legs : List (BondInfo Q)} {pattern : List Bool}
    {enc : Q → C} {dec : C → Q} (hg : GoodBonds legs pattern enc dec) (le : Q → Q → Bool) {dq : Q} {T : Flat C K} (hne : T.qs ≠ [])
    (hT : TensorOf legs pattern enc dec dq T) (used : List (List (List C))) (hm : T.qs ∈ used)
    (hkey : ∀ a ∈ used, key a = key T.qs → a = T.qs) {cache : Dict H (Dict Nat (Nat × Nat))}
    (hc : CacheOk key (info le enc legs pattern) dec pattern used cache) :
    ∃ i v cache', info le enc legs pattern dq = some i ∧
      tensorToVector key (info le enc legs pattern) dec pattern cache pattern T = some (v, cache') ∧
      CacheOk key (info le enc legs pattern) dec pattern used cache' ∧ v.length = i.idxs.getLastD 0 ∧
      ∀ x, entry ((⟨i.qs, i.shs, v, i.idxs⟩ : Flat C K).toSparse dec) x = entry (T.toSparse dec) x := by
  have hcharge : rowCharge dec pattern T.qs = dq ∧ ∃ i, info le enc legs pattern dq = some i := by
    obtain ⟨lt, hc, rfl, hn, -, hl⟩ := tensor_pack hT
    cases lt with
    | nil => exact absurd rfl hne
    | cons e lt =>
      obtain ⟨h1, h2, -⟩ := hl e (by simp)
      exact ⟨by simpa [rowCharge, Flat.pack] using h2, info_exists hg le h1 h2⟩
  obtain ⟨hq, i, hi⟩ := hcharge
  obtain ⟨l, hl, hI⟩ := info_spec hg hi
  have hlast : i.idxs.getLastD 0 = (i.shs.map List.prod).sum := by
    rw [hI.idxs, offsets_getLastD, hI.shs, Nat.zero_add]
  have hrow : ∀ q0 rest, T.qs = q0 :: rest → (BondFusingInfo.signedLabels (q0.map dec) pattern).foldl (· + ·) 0 = dq := by
    intro q0 rest h
    have := BondFusingInfo.combine_eq (q0.map dec) pattern
    unfold BondFusingInfo.combine at this
    rw [this, ← hq]
    simp [rowCharge, h]
  unfold tensorToVector
  rw [if_neg (by simp)]
  cases hqs : T.qs with
  | nil => exact absurd hqs hne
  | cons q0 rest =>
    simp only
    rw [hrow q0 rest hqs, hi]
    simp only
    rw [← hqs]
    by_cases he : i.qs = T.qs
    · rw [if_pos he]
      have hs := tensor_shs hg hT hI he
      have hTe : (⟨i.qs, i.shs, T.data, i.idxs⟩ : Flat C K) = T := by
        have : i.idxs = T.idxs := by
          rw [hT.wf.2.1, ← hs, ← Flat.offsets_eq, hI.idxs, hI.shs]
        rw [he, hs, this]
      refine ⟨i, T.data, cache, rfl, rfl, hc, ?_, ?_⟩
      · rw [hlast, hs, hT.wf.2.2]
      · intro x
        rw [hTe]
    · rw [if_neg he]
      have hcopy := copy_info hg hT hI
      have hlen : (l.map fun e => chunk T (e.2.map enc) e.1).flatten.length = i.idxs.getLastD 0 := by
        rw [hlast, hI.shs, List.length_flatten, List.map_map, List.map_map]
        congr 1
        exact List.map_congr_left fun e he => chunk_length hg hT ((hI.mem _ _).1 he).1
      by_cases hk : Dict.has cache (key T.qs)
      · simp only [hk, if_true]
        obtain ⟨m, hmm⟩ : ∃ m, Dict.get? cache (key T.qs) = some m := Option.isSome_iff_exists.1 hk
        obtain ⟨tqs, ht, hkk, i', hi', rfl⟩ := hc _ _ hmm
        have := hkey tqs ht hkk
        subst this
        rw [hq, hi] at hi'
        cases hi'
        rw [hmm]
        simp only [Option.getD_some]
        rw [hcopy]
        exact ⟨i, _, cache, rfl, rfl, hc, hlen, entry_info hg hT hI⟩
      · simp only [hk]
        rw [if_neg (by simp), Dict.get?_set_self]
        simp only [Option.getD_some]
        rw [hcopy]
        refine ⟨i, _, _, rfl, rfl, ?_, hlen, entry_info hg hT hI⟩
        intro h m hget
        by_cases hh : h = key T.qs
        · subst hh
          rw [Dict.get?_set_self] at hget
          cases hget
          exact ⟨T.qs, hm, rfl, i, by rw [hq]; exact hi, rfl⟩
        · rw [Dict.get?_set_ne _ (Ne.symm hh)] at hget
          exact hc h m hget

/-- C41: convert any sequence of tensors on the given bonds (of any charges, with any blocks missing) to vectors, with a cache key that tells
their label arrays apart.  Each call succeeds; the vector has the size for the charge of its tensor; converting it back gives a tensor on the
same bonds with the same entries. -/
theorem C41_roundtrip [AddCommMonoid K] {H : Type} [DecidableEq H] (key : List (List C) → H) (legs : List (BondInfo Q)) (pattern : List Bool)
    (enc : Q → C) (dec : C → Q) (hg : GoodBonds legs pattern enc dec) (le : Q → Q → Bool) (calls : List (Flat C K)) (dqs : List Q)
    (hT : List.Forall₂ (fun T dq => T.qs ≠ [] ∧ TensorOf legs pattern enc dec dq T) calls dqs)
    (hkey : ∀ S ∈ calls, ∀ T ∈ calls, key S.qs = key T.qs → S.qs = T.qs) :
    ∃ vs, runCalls key (info le enc legs pattern) dec pattern [] calls = some vs ∧ vs.length = calls.length ∧
      ∀ (k : Nat) (T : Flat C K) (dq : Q) (v : List K), calls[k]? = some T → dqs[k]? = some dq → vs[k]? = some v → ∃ i R, info le enc legs pattern dq = some i ∧ v.length = vectorSize i ∧
        vectorToTensor i v = some R ∧ TensorOf legs pattern enc dec dq R ∧ ∀ x, entry (R.toSparse dec) x = entry (T.toSparse dec) x := by
  have key' : ∀ (used : List (List (List C))) (cache : Dict H (Dict Nat (Nat × Nat))) (calls : List (Flat C K)) (dqs : List Q),
      (∀ a ∈ used, ∀ b ∈ used, key a = key b → a = b) → (∀ T ∈ calls, T.qs ∈ used) →
      CacheOk key (info le enc legs pattern) dec pattern used cache →
      List.Forall₂ (fun T dq => T.qs ≠ [] ∧ TensorOf legs pattern enc dec dq T) calls dqs →
      ∃ vs, runCalls key (info le enc legs pattern) dec pattern cache calls = some vs ∧ vs.length = calls.length ∧
      ∀ (k : Nat) (T : Flat C K) (dq : Q) (v : List K), calls[k]? = some T → dqs[k]? = some dq → vs[k]? = some v → ∃ i R, info le enc legs pattern dq = some i ∧ v.length = vectorSize i ∧
        vectorToTensor i v = some R ∧ TensorOf legs pattern enc dec dq R ∧ ∀ x, entry (R.toSparse dec) x = entry (T.toSparse dec) x := by
    intro used cache calls dqs hinj hmem hc hT
    induction hT generalizing cache with
    | nil => exact ⟨[], rfl, rfl, by simp⟩
    | @cons T dq calls dqs h1 h2 ih =>
      have hTm := hmem T (by simp)
      obtain ⟨i, v, cache', hi, hv, hc', hlen, hx⟩ := toVector_spec key hg le h1.1 h1.2 used hTm (fun a ha => hinj a ha _ hTm) hc
      obtain ⟨vs, hvs, hl, hk⟩ := ih cache' (fun S hS => hmem S (by simp [hS])) hc'
      refine ⟨v :: vs, ?_, by simp [hl], ?_⟩
      · rw [runCalls, hv]
        simp only
        rw [hvs]
        rfl
      · intro k S dq' w e1 e2 e3
        cases k with
        | zero =>
          simp only [List.getElem?_cons_zero, Option.some.injEq] at e1 e2 e3
          subst e1 e2 e3
          obtain ⟨l, -, hI⟩ := info_spec hg hi
          exact ⟨i, _, hi, hlen, by unfold vectorToTensor; rw [if_pos hlen], tensor_of_info hg hI v hlen, hx⟩
        | succ k =>
          simp only [List.getElem?_cons_succ] at e1 e2 e3
          exact hk k S dq' w e1 e2 e3
  refine key' (calls.map fun T => T.qs) [] calls dqs ?_ (fun T h => List.mem_map_of_mem (f := fun T : Flat C K => T.qs) h) (by intro h m hm; simp [Dict.get?] at hm) hT
  intro a ha b hb
  obtain ⟨S, hS, rfl⟩ := List.mem_map.1 ha
  obtain ⟨T, hT', rfl⟩ := List.mem_map.1 hb
  exact hkey S hS T hT'

/-- C41: every vector of the right size is a tensor of the class, and converting that tensor gives back the vector, whatever is in the cache. -/
theorem C41_vector [Zero K] {H : Type} [DecidableEq H] (key : List (List C) → H) (legs : List (BondInfo Q)) (pattern : List Bool)
    (enc : Q → C) (dec : C → Q) (hg : GoodBonds legs pattern enc dec) (le : Q → Q → Bool) (dq : Q) (i : Info C)
    (hi : info le enc legs pattern dq = some i) (v : List K) (hv : v.length = vectorSize i) (cache : Dict H (Dict Nat (Nat × Nat))) :
    ∃ R, vectorToTensor i v = some R ∧ TensorOf legs pattern enc dec dq R ∧
      tensorToVector key (info le enc legs pattern) dec pattern cache pattern R = some (v, cache) := by
  obtain ⟨l, hl, hI⟩ := info_spec hg hi
  refine ⟨_, if_pos hv, tensor_of_info hg hI v hv, ?_⟩
  unfold tensorToVector
  rw [if_neg (by simp)]
  simp only
  cases hqs : i.qs with
  | nil =>
    rw [hI.qs] at hqs
    exact absurd (List.map_eq_nil_iff.1 hqs) hl
  | cons q0 rest =>
    simp only
    have hq0 : ∃ e ∈ l, e.2.map enc = q0 := by
      have : q0 ∈ i.qs := by rw [hqs]; simp
      rw [hI.qs] at this
      exact List.mem_map.1 this
    obtain ⟨e, he, rfl⟩ := hq0
    have hm := (hI.mem _ _).1 he
    have := BondFusingInfo.combine_eq ((e.2.map enc).map dec) pattern
    unfold BondFusingInfo.combine at this
    rw [this, enc_inj hg hm.1, hm.2, hi]
    simp only
    rw [← hqs, if_pos rfl]

/-! ### One slot for each allowed entry -/

theorem legIndex_comb {legs : List (BondInfo Q)} (hw : ∀ b ∈ legs, Dict.WF b) {x : List (Q × Nat)} (hx : x ∈ legIndices legs) :
    ∃ sh, IsCombination legs (x.map Prod.fst) sh ∧ inBox sh (x.map Prod.snd) = true := by
  induction legs generalizing x with
  | nil =>
    have : x = [] := by simpa [legIndices, cart] using hx
    subst this
    exact ⟨[], .nil, rfl⟩
  | cons b legs ih =>
    simp only [legIndices, List.map_cons, cart, List.mem_flatMap, List.mem_map] at hx
    obtain ⟨y, hy, z, hz, rfl⟩ := hx
    obtain ⟨sh, h1, h2⟩ := ih (fun b hb => hw b (by simp [hb])) hz
    simp only [legBasis, List.mem_flatMap, List.mem_map, List.mem_range] at hy
    obtain ⟨p, hp, k, hk, rfl⟩ := hy
    refine ⟨p.2 :: sh, .cons (Dict.get?_of_mem (hw b (by simp)) hp) h1, ?_⟩
    simp [inBox, hk, h2]

theorem sum_single {α β : Type} [DecidableEq β] [AddCommMonoid K] (l : List α) (g : α → β) (hn : (l.map g).Nodup) {e0 : α} (h0 : e0 ∈ l) (f : α → K)
    (hf : ∀ e ∈ l, g e ≠ g e0 → f e = 0) : (l.map f).sum = f e0 := by
  induction l with
  | nil => simp at h0
  | cons a l ih =>
    rw [List.map_cons, List.nodup_cons] at hn
    rw [List.map_cons, List.sum_cons]
    rcases List.mem_cons.1 h0 with rfl | h0
    · rw [sum_map_zero' l f, add_zero]
      intro e he
      refine hf e (by simp [he]) fun h => hn.1 ?_
      rw [← h]
      exact List.mem_map_of_mem he
    · rw [ih hn.2 h0 fun e he => hf e (by simp [he]), hf a (by simp), zero_add]
      intro h
      apply hn.1
      rw [h]
      exact List.mem_map_of_mem h0

theorem sum_slots [AddCommMonoid K] {legs : List (BondInfo Q)} (hw : ∀ b ∈ legs, Dict.WF b) (l : List (List Nat × List Q))
    (hl : ∀ e ∈ l, IsCombination legs e.2 e.1) (f : List Nat × List Q → List Nat → K) :
    (l.map fun e => ((box e.1).map (f e)).sum).sum =
      ((legIndices legs).map fun x => (l.map fun e => if e.2 = x.map Prod.fst ∧ inBox e.1 (x.map Prod.snd) = true then f e (x.map Prod.snd) else 0).sum).sum := by
  rw [sum_comm']
  exact sum_map_congr' _ _ _ fun e he => (legIndices_sum hw (hl e he) (f e)).symm

theorem length_filter_sum {α : Type} (l : List α) (p : α → Bool) : (l.filter p).length = (l.map fun x => if p x = true then 1 else 0).sum := by
  induction l with
  | nil => rfl
  | cons a l ih =>
    by_cases h : p a = true
    · rw [List.filter_cons_of_pos h, List.length_cons, ih, List.map_cons, List.sum_cons, if_pos h, Nat.add_comm]
    · rw [List.filter_cons_of_neg h, ih, List.map_cons, List.sum_cons, if_neg h, Nat.zero_add]

/-- C41: the vector has one slot for each entry allowed by the charge. -/
theorem C41_size (legs : List (BondInfo Q)) (pattern : List Bool) (enc : Q → C) (dec : C → Q) (hg : GoodBonds legs pattern enc dec)
    (le : Q → Q → Bool) (dq : Q) (i : Info C) (hi : info le enc legs pattern dq = some i) :
    vectorSize i = (allowedIndices legs pattern dq).length := by
  obtain ⟨l, -, hI⟩ := info_spec hg hi
  have h1 : vectorSize i = (l.map fun e => ((box e.1).map fun _ => 1).sum).sum := by
    unfold vectorSize
    rw [hI.idxs, offsets_getLastD, Nat.zero_add, List.map_map]
    congr 1
    refine List.map_congr_left fun e _ => ?_
    have := congrArg List.length (box_map_ravel e.1)
    simp only [List.length_map, List.length_range] at this
    simp [this]
  rw [h1, sum_slots hg.wf l (fun e he => ((hI.mem _ _).1 he).1) (fun _ _ => 1), allowedIndices, length_filter_sum]
  refine sum_map_congr' _ _ _ fun x hx => ?_
  obtain ⟨sh, hc, hb⟩ := legIndex_comb hg.wf hx
  by_cases hs : signedSum pattern (x.map Prod.fst) = dq
  · have hm := (hI.mem sh (x.map Prod.fst)).2 ⟨hc, hs⟩
    rw [sum_single l Prod.snd hI.nodup hm]
    · simp [hb, hs]
    · intro e _ hne
      exact if_neg fun h => hne h.1
  · rw [sum_map_zero']
    · simp [hs]
    · intro e he
      refine if_neg fun h => hs ?_
      rw [← h.1]
      exact ((hI.mem _ _).1 he).2

theorem exists_chunks (l : List (List Nat × List Q)) (hn : l.Nodup) (v : List K) (hv : v.length = (l.map fun e => e.1.prod).sum) :
    ∃ c : List Nat × List Q → List K, (∀ e ∈ l, (c e).length = e.1.prod) ∧ v = (l.map c).flatten := by
  induction l generalizing v with
  | nil => exact ⟨fun _ => [], by simp, by simpa using hv⟩
  | cons a l ih =>
    rw [List.nodup_cons] at hn
    rw [List.map_cons, List.sum_cons] at hv
    obtain ⟨c, h1, h2⟩ := ih hn.2 (v.drop a.1.prod) (by simp; omega)
    refine ⟨fun e => if e = a then v.take a.1.prod else c e, ?_, ?_⟩
    · intro e he
      by_cases h : e = a
      · subst h; simp; omega
      · simp only [h, if_false]
        exact h1 e ((List.mem_cons.1 he).resolve_left h)
    · rw [List.map_cons, List.flatten_cons, if_pos rfl]
      have : l.map (fun e => if e = a then v.take a.1.prod else c e) = l.map c := by
        refine List.map_congr_left fun e he => ?_
        rw [if_neg]
        rintro rfl
        exact hn.1 he
      rw [this, ← h2, List.take_append_drop]

theorem info_chunks {legs : List (BondInfo Q)} {pattern : List Bool} {enc : Q → C} {dq : Q} {l : List (List Nat × List Q)} {i : Info C}
    (hI : IsInfo legs pattern enc dq l i) (v : List K) (hv : v.length = vectorSize i) :
    ∃ c : List Nat × List Q → List K, (∀ e ∈ l, (c e).length = e.1.prod) ∧ v = (l.map c).flatten := by
  refine exists_chunks l (List.Nodup.of_map _ hI.nodup) v ?_
  rw [hv]
  unfold vectorSize
  rw [hI.idxs, offsets_getLastD, Nat.zero_add, List.map_map]
  rfl

theorem vectorToTensor_eq {i : Info C} {v : List K} {R : Flat C K} (h : vectorToTensor i v = some R) :
    v.length = vectorSize i ∧ R = ⟨i.qs, i.shs, v, i.idxs⟩ := by
  unfold vectorToTensor at h
  split_ifs at h with hv
  cases h
  exact ⟨hv, rfl⟩

/-- C41: different vectors give different tensors. -/
theorem C41_faithful [AddCommMonoid K] (legs : List (BondInfo Q)) (pattern : List Bool) (enc : Q → C) (dec : C → Q)
    (hg : GoodBonds legs pattern enc dec) (le : Q → Q → Bool) (dq : Q) (i : Info C) (hi : info le enc legs pattern dq = some i) (v w : List K)
    (R S : Flat C K) (hR : vectorToTensor i v = some R) (hS : vectorToTensor i w = some S)
    (h : ∀ x, entry (R.toSparse dec) x = entry (S.toSparse dec) x) : v = w := by
  obtain ⟨l, -, hI⟩ := info_spec hg hi
  obtain ⟨hv, rfl⟩ := vectorToTensor_eq hR
  obtain ⟨hw, rfl⟩ := vectorToTensor_eq hS
  obtain ⟨c, hc, rfl⟩ := info_chunks hI v hv
  obtain ⟨d, hd, rfl⟩ := info_chunks hI w hw
  congr 1
  refine List.map_congr_left fun e he => ?_
  rw [toSparse_info hg hI c hc, toSparse_info hg hI d hd] at h
  have hcomb := ((hI.mem _ _).1 he).1
  have hU : ∀ c : List Nat × List Q → List K, UniqueLabels (l.map fun e => (e.2, Arr.ofList e.1 (c e))) := by
    intro c
    unfold UniqueLabels
    rw [List.map_map]
    exact hI.nodup
  apply List.ext_getElem
  · rw [hc e he, hd e he]
  · intro k h1 h2
    rw [hc e he] at h1
    have hbox := inBox_unravel h1
    have hlen : (unravel e.1 k).length = e.2.length := by rw [inBox_length hbox, hcomb.lengths.1, hcomb.lengths.2]
    have hf : (e.2.zip (unravel e.1 k)).map Prod.fst = e.2 := List.map_fst_zip (le_of_eq hlen.symm)
    have hs : (e.2.zip (unravel e.1 k)).map Prod.snd = unravel e.1 k := List.map_snd_zip (le_of_eq hlen)
    have := h (e.2.zip (unravel e.1 k))
    rw [entry_of_mem (hU c) (List.mem_map_of_mem (f := fun e => (e.2, Arr.ofList e.1 (c e))) he) hf,
      entry_of_mem (hU d) (List.mem_map_of_mem (f := fun e => (e.2, Arr.ofList e.1 (d e))) he) hf] at this
    unfold blockEntry at this
    rw [hf, hs] at this
    rw [if_pos ⟨rfl, hbox⟩, if_pos ⟨rfl, hbox⟩] at this
    simp only [Arr.ofList] at this
    rw [ravel_unravel h1] at this
    rwa [List.getD_eq_getElem _ _ (by rw [hc e he]; exact h1), List.getD_eq_getElem _ _ (by rw [hd e he]; exact h1)] at this

theorem sum_mul_single {α β : Type} [DecidableEq β] [NonUnitalNonAssocSemiring K] (l : List α) (g : α → β) (hn : (l.map g).Nodup) (q : β) (f h : α → K)
    (hf : ∀ e ∈ l, g e ≠ q → f e = 0) (hh : ∀ e ∈ l, g e ≠ q → h e = 0) : (l.map f).sum * (l.map h).sum = (l.map fun e => f e * h e).sum := by
  by_cases hq : q ∈ l.map g
  · obtain ⟨e0, h0, rfl⟩ := List.mem_map.1 hq
    rw [sum_single l g hn h0 f hf, sum_single l g hn h0 h hh, sum_single l g hn h0 (fun e => f e * h e)]
    intro e he hne
    simp only [hf e he hne, zero_mul]
  · have hne : ∀ e ∈ l, g e ≠ q := fun e he h => hq (h ▸ List.mem_map_of_mem he)
    rw [sum_map_zero' l f fun e he => hf e he (hne e he), zero_mul, sum_map_zero' l (fun e => f e * h e)]
    intro e he
    simp only [hf e he (hne e he), zero_mul]

theorem zipWith_flatten {α : Type} [AddCommMonoid K] [Mul K] (l : List α) (c d : α → List K) (h : ∀ e ∈ l, (c e).length = (d e).length) :
    (List.zipWith (· * ·) (l.map c).flatten (l.map d).flatten).sum = (l.map fun e => (List.zipWith (· * ·) (c e) (d e)).sum).sum := by
  induction l with
  | nil => simp
  | cons a l ih =>
    simp only [List.map_cons, List.flatten_cons, List.sum_cons]
    rw [List.zipWith_append (h a (by simp)), List.sum_append, ih fun e he => h e (by simp [he])]

theorem zipWith_sum_range [Semiring K] (c d : List K) (n : Nat) (hc : c.length = n) (hd : d.length = n) :
    (List.zipWith (· * ·) c d).sum = ((List.range n).map fun k => c.getD k 0 * d.getD k 0).sum := by
  congr 1
  apply List.ext_getElem
  · simp [hc, hd]
  · intro k h1 h2
    simp only [List.length_map, List.length_range] at h2
    simp [List.getElem?_eq_getElem (hc ▸ h2 : k < c.length), List.getElem?_eq_getElem (hd ▸ h2 : k < d.length)]

/-- C41: the scalar product of two vectors is the scalar product of the tensors. -/
theorem C41_dot [Semiring K] (legs : List (BondInfo Q)) (pattern : List Bool) (enc : Q → C) (dec : C → Q)
    (hg : GoodBonds legs pattern enc dec) (le : Q → Q → Bool) (dq : Q) (i : Info C) (hi : info le enc legs pattern dq = some i) (v w : List K)
    (R S : Flat C K) (hR : vectorToTensor i v = some R) (hS : vectorToTensor i w = some S) :
    (List.zipWith (· * ·) v w).sum = ((legIndices legs).map fun x => entry (R.toSparse dec) x * entry (S.toSparse dec) x).sum := by
  obtain ⟨l, -, hI⟩ := info_spec hg hi
  obtain ⟨hv, rfl⟩ := vectorToTensor_eq hR
  obtain ⟨hw, rfl⟩ := vectorToTensor_eq hS
  obtain ⟨c, hc, rfl⟩ := info_chunks hI v hv
  obtain ⟨d, hd, rfl⟩ := info_chunks hI w hw
  rw [toSparse_info hg hI c hc, toSparse_info hg hI d hd, zipWith_flatten l c d fun e he => by rw [hc e he, hd e he]]
  have h1 : ∀ e ∈ l, (List.zipWith (· * ·) (c e) (d e)).sum =
      ((box e.1).map fun ix => (c e).getD (ravel e.1 ix) 0 * (d e).getD (ravel e.1 ix) 0).sum := by
    intro e he
    rw [zipWith_sum_range _ _ _ (hc e he) (hd e he), box_sum_ravel e.1 fun k => (c e).getD k 0 * (d e).getD k 0]
  rw [sum_map_congr' _ _ _ h1, sum_slots hg.wf l (fun e he => ((hI.mem _ _).1 he).1)
    (fun e ix => (c e).getD (ravel e.1 ix) 0 * (d e).getD (ravel e.1 ix) 0)]
  refine sum_map_congr' _ _ _ fun x _ => ?_
  unfold entry
  rw [List.map_map, List.map_map, sum_mul_single l Prod.snd hI.nodup (x.map Prod.fst)]
  · refine sum_map_congr' _ _ _ fun e _ => ?_
    simp only [Function.comp_def, blockEntry, Arr.ofList]
    split_ifs <;> simp
  · intro e _ hne
    exact if_neg fun h => hne h.1
  · intro e _ hne
    exact if_neg fun h => hne h.1

/-- C41: the sparse form made from a vector has the blocks of the flat form. -/
theorem C41_sparse [Zero K] (i : Info Q) (v : List K) : vectorToSparse i v = (vectorToTensor i v).map (Flat.toSparse id) := by
  unfold vectorToSparse vectorToTensor
  split_ifs
  · simp only [Option.map_some, Option.some.injEq, Flat.toSparse, Flat.block]
    have : i.shs.zip i.qs = (i.qs.zip i.shs).map Prod.swap := by
      rw [List.zip, List.zip, List.map_zipWith, List.zipWith_comm]
      rfl
    rw [this, List.zipIdx_map, List.map_map]
    refine List.map_congr_left fun p _ => ?_
    simp
  · rfl

/-! ### Where the code fails -/

/-- C41: with a colliding cache key (the key is the hash of the printed label array, and numpy prints long arrays in short form) the second
tensor is put into the slots of the first: its entry 7 in sector 0 comes back in sector 1. -/
theorem C41_cache_collision {H : Type} [DecidableEq H] (key : List (List Int) → H) (hk : key [[1, 1]] = key [[0, 0]]) :
    let b : BondInfo Int := [(0, 1), (1, 1)]
    let T1 : Flat Int Int := Flat.mk' [[1, 1]] [[1, 1]] [5]
    let T2 : Flat Int Int := Flat.mk' [[0, 0]] [[1, 1]] [7]
    TensorOf [b, b] [true, false] id id 0 T1 ∧ TensorOf [b, b] [true, false] id id 0 T2 ∧
    runCalls key (info (fun x y => decide (x ≤ y)) id [b, b] [true, false]) id [true, false] [] [T1, T2] = some [[0, 5], [0, 7]] ∧
    runCalls key (info (fun x y => decide (x ≤ y)) id [b, b] [true, false]) id [true, false] [] [T2] = some [[7, 0]] := by
  refine ⟨⟨by decide, by decide, by decide, by decide, by simp⟩, ⟨by decide, by decide, by decide, by decide, by simp⟩, ?_, ?_⟩
  · have hi : info (fun x y => decide (x ≤ y)) id [[((0 : Int), 1), (1, 1)], [(0, 1), (1, 1)]] [true, false] 0 =
      some (⟨[[1, 1], [1, 1]], [[0, 0], [1, 1]], [0, 1, 2]⟩ : Info Int) := by rfl
    simp [runCalls, tensorToVector, Flat.mk', BondFusingInfo.signedLabels, hi, Dict.has, Dict.get?, Dict.set, indexTab, copyBlocks, npAssign,
      Flat.block, pySlice, sliceAssign, Flat.offsets, hk, List.idxOf]
  · have hi : info (fun x y => decide (x ≤ y)) id [[((0 : Int), 1), (1, 1)], [(0, 1), (1, 1)]] [true, false] 0 =
      some (⟨[[1, 1], [1, 1]], [[0, 0], [1, 1]], [0, 1, 2]⟩ : Info Int) := by rfl
    simp [runCalls, tensorToVector, Flat.mk', BondFusingInfo.signedLabels, hi, Dict.has, Dict.get?, Dict.set, indexTab, copyBlocks, npAssign,
      Flat.block, pySlice, sliceAssign, Flat.offsets, List.idxOf]

/-- C41: for a single leg the charge is ignored: the vectors of all charges have all slots of the leg. -/
theorem C41_one_leg (le : Q → Q → Bool) (enc : Q → C) (b : BondInfo Q) (s : Bool) (dq dq' : Q) :
    info le enc [b] [s] dq = info le enc [b] [s] dq' := by
  have : fermSkeleton le [b] [s] dq = fermSkeleton le [b] [s] dq' := by
    unfold fermSkeleton
    split_ifs
    · rfl
    simp only [List.map_cons, List.map_nil, cart, Option.some.injEq]
    refine List.filterMap_congr fun x hx => ?_
    simp only [List.mem_flatMap, List.mem_singleton] at hx
    obtain ⟨y, -, z, rfl, rfl⟩ := hx
    simp [BondFusingInfo.signedLabels]
  unfold info
  rw [this]

/-- Two legs with sectors of charge 0 (two states) and 1 (three states); a tensor with one of the two allowed blocks. -/
example :
    let b : BondInfo Int := [(0, 2), (1, 1)]
    let T : Flat Int Int := Flat.mk' [[1, 1]] [[1, 1]] [5]
    let gen := info (fun x y => decide (x ≤ y)) id [b, b] [true, false]
    GoodBonds [b, b] [true, false] id id ∧ T.qs ≠ [] ∧ TensorOf [b, b] [true, false] id id 0 T ∧ (gen 0).map vectorSize = some 5 ∧
      runCalls (fun x => x) gen id [true, false] [] [T] = some [[0, 0, 0, 0, 5]] := by
  refine ⟨⟨by decide, rfl, by decide, by simp⟩, by decide, ⟨by decide, by decide, by decide, by decide, by simp⟩, by decide, by decide⟩

end Constructor
end Verif
