import Verif.Proof.MpsInfo
import Verif.Proof.Mps
import Verif.Proof.MpeNet
import Verif.Thm.Sparse
import Verif.Thm.Fermion

/-! Lemmas about states whose site tensors have every allowed block. -/

set_option linter.unusedSectionVars false

namespace Verif
section
variable {Q K : Type} [DecidableEq Q] [AddCommGroup Q]
open BondInfo

/-- The blocks of the skeleton with entries `f labels position`. -/
def fillBlocks (f : List Q → List Nat → K) (S : List (List Nat × List Q)) : SpT Q K := S.map fun s => (s.2, ⟨s.1, f s.2⟩)

theorem fill_props {le : Q → Q → Bool} {legs : List (BondInfo Q)} {S : List (List Nat × List Q)} (hlen : 2 ≤ legs.length)
    (hw : ∀ b ∈ legs, Dict.WF b) (h : SpT.skeleton le legs none none = some S) (f : List Q → List Nat → K) :
    Conforms legs (fillBlocks f S) ∧ UniqueLabels (fillBlocks f S) ∧
      Conserves (List.replicate (legs.length - 1) true ++ [false]) 0 (fillBlocks f S) := by
  have hb := C10_skeleton_blocks le legs none none S hlen (by simp) hw h
  refine ⟨?_, ?_, ?_⟩
  · intro b hb'
    obtain ⟨s, hs, rfl⟩ := List.mem_map.1 hb'
    exact ((hb s.1 s.2).1 hs).1
  · have := C10_skeleton_nodup le legs none none S hw h
    unfold UniqueLabels fillBlocks
    rw [List.map_map]
    exact this
  · intro b hb'
    obtain ⟨s, hs, rfl⟩ := List.mem_map.1 hb'
    simpa using ((hb s.1 s.2).1 hs).2

theorem fill_entry [CommSemiring K] {le : Q → Q → Bool} {l b r : BondInfo Q} {S : List (List Nat × List Q)}
    (hl : Dict.WF l) (hb : Dict.WF b) (hr : Dict.WF r) (h : SpT.skeleton le [l, b, r] none none = some S)
    (f : List Q → List Nat → K) (x p z : Q × Nat) (hx : x ∈ legBasis l) (hp : p ∈ legBasis b) (hz : z ∈ legBasis r) :
    entry (fillBlocks f S) [x, p, z] = if z.1 = x.1 + p.1 then f [x.1, p.1, z.1] [x.2, p.2, z.2] else 0 := by
  have hw : ∀ c ∈ [l, b, r], Dict.WF c := by simp [hl, hb, hr]
  obtain ⟨hc, hu, hv⟩ := fill_props (by simp) hw h f
  have hk := C10_skeleton_blocks le [l, b, r] none none S (by simp) (by simp) hw h
  have sg : ∀ a c e : Q, signedSum [true, true, false] [a, c, e] = 0 ↔ e = a + c := by
    intro a c e
    simp only [signedSum, List.zip_cons_cons, List.zip_nil_right, List.map_cons, List.map_nil, List.sum_cons, List.sum_nil, if_true, Bool.false_eq_true, if_false]
    constructor
    · intro h
      have : a + c - e = 0 := by rw [← h]; abel
      exact (sub_eq_zero.1 this).symm
    · intro h; rw [h]; simp
  split_ifs with e
  · have hm : ([Counter.count l x.1, Counter.count b p.1, Counter.count r z.1], [x.1, p.1, z.1]) ∈ S := by
      rw [hk]
      have g1 := (mem_legBasis hl).1 hx
      have g2 := (mem_legBasis hb).1 hp
      have g3 := (mem_legBasis hr).1 hz
      refine ⟨.cons (get_of_count (by omega)) (.cons (get_of_count (by omega)) (.cons (get_of_count (by omega)) .nil)), ?_⟩
      exact (sg _ _ _).2 e
    have hm' : ([x.1, p.1, z.1], (⟨[Counter.count l x.1, Counter.count b p.1, Counter.count r z.1], f [x.1, p.1, z.1]⟩ : Arr K)) ∈ fillBlocks f S :=
      List.mem_map.2 ⟨_, hm, rfl⟩
    rw [entry_of_mem hu hm' (by simp), blockEntry, if_pos]
    · rfl
    · refine ⟨rfl, ?_⟩
      simpa [inBox] using ⟨(mem_legBasis hl).1 hx, (mem_legBasis hb).1 hp, (mem_legBasis hr).1 hz⟩
  · rw [entry_of_not_mem]
    intro hm
    obtain ⟨t, ht, he⟩ := List.mem_map.1 hm
    have := hv t ht
    rw [he] at this
    exact e ((sg _ _ _).1 this)

/-- Site tensors with every allowed block. -/
def fillSite (le : Q → Q → Bool) (f : Nat → List Q → List Nat → K) (i : Nat) (legs : List (BondInfo Q)) : Option (SpT Q K) :=
  (SpT.skeleton le legs none none).map (fillBlocks (f i))

theorem ones_fill [CommSemiring K] (le : Q → Q → Bool) (info : MpsInfo Q) :
    (Mps.ones le info : Option (Mps Q K)) = (Mps.sites (fillSite le fun _ _ _ => 1) 0 info.basis info.leftDims).map fun ts => ⟨ts, 0⟩ := by
  rfl

theorem random_fill [CommRing K] (le : Q → Q → Bool) (info : MpsInfo Q) (low high : K) (rnd : Nat → List Q → List Nat → K) :
    Mps.random le info low high rnd =
      (Mps.sites (fillSite le fun i qs ix => rnd i qs ix * (high - low) + low) 0 info.basis info.leftDims).map fun ts => ⟨ts, 0⟩ := by
  unfold Mps.random
  congr 2
  funext i legs
  unfold fillSite SpT.random
  rw [Option.map_map]
  congr 1
  funext S
  simp only [Function.comp_def, fillBlocks, List.map_map, Arr.mapK]

/-- Number of the path sums over the bonds to the right of a basis vector. -/
def pathSum [CommSemiring K] (f : Nat → List Q → List Nat → K) : Nat → List (BondInfo Q) → Q × Nat → List (Q × Nat) → K
  | i, r :: rs, x, p :: ps =>
    ((List.range (Counter.count r (x.1 + p.1))).map fun j => f i [x.1, p.1, x.1 + p.1] [x.2, p.2, j] * pathSum f (i + 1) rs (x.1 + p.1, j) ps).sum
  | _, _, _, _ => 1

theorem sum_label [CommSemiring K] {b : BondInfo Q} (hb : Dict.WF b) (q : Q) (g : Q × Nat → K) :
    ((legBasis b).map fun z => if z.1 = q then g z else 0).sum = ((List.range (Counter.count b q)).map fun j => g (q, j)).sum := by
  by_cases h : 0 < Counter.count b q
  · rw [← legBasis_sum hb (get_of_count h) fun j => g (q, j)]
    apply sum_map_congr'
    intro z hz
    by_cases e : z.1 = q
    · rw [if_pos e, if_pos ⟨e, by have := (mem_legBasis hb).1 hz; rwa [e] at this⟩, ← e]
    · rw [if_neg e, if_neg fun hc => e hc.1]
  · have h0 : Counter.count b q = 0 := by omega
    rw [h0, sum_map_zero']
    · rfl
    · intro z hz
      have := (mem_legBasis hb).1 hz
      rw [if_neg]
      intro e
      rw [e] at this
      omega

theorem mem_legIndices_cons {b : BondInfo Q} {bs : List (BondInfo Q)} {x : List (Q × Nat)} :
    x ∈ legIndices (b :: bs) ↔ ∃ p ∈ legBasis b, ∃ ps ∈ legIndices bs, x = p :: ps := by
  unfold legIndices
  rw [List.map_cons, cart]
  simp only [List.mem_flatMap, List.mem_map]
  constructor
  · rintro ⟨p, hp, ps, hps, rfl⟩
    exact ⟨p, hp, ps, hps, rfl⟩
  · rintro ⟨p, hp, ps, hps, rfl⟩
    exact ⟨p, hp, ps, hps, rfl⟩

theorem sites_some {le : Q → Q → Bool} {f : Nat → List Q → List Nat → K} {basis : List (BondInfo Q)} (i : Nat) {l : BondInfo Q} {ls : List (BondInfo Q)}
    (hlen : ls.length = basis.length) (hne : ∀ b ∈ l :: ls ++ basis, b ≠ []) :
    ∃ ts, Mps.sites (fillSite le f) i basis (l :: ls) = some ts := by
  induction basis generalizing i l ls with
  | nil => exact ⟨[], rfl⟩
  | cons b bs ih =>
    obtain _ | ⟨r, rs⟩ := ls
    · simp at hlen
    obtain ⟨ts, hts⟩ := ih (i + 1) (l := r) (ls := rs) (by simpa using hlen) (by
      intro c hc
      apply hne
      simp only [List.cons_append, List.mem_cons, List.mem_append] at hc ⊢
      tauto)
    have hs := C10_skeleton_total le [l, b, r] none none (by
      intro c hc
      apply hne
      simp only [List.cons_append, List.mem_cons, List.mem_append, List.not_mem_nil, or_false] at hc ⊢
      tauto)
    obtain ⟨S, hS⟩ := Option.isSome_iff_exists.1 hs
    refine ⟨fillBlocks (f i) S :: ts, ?_⟩
    rw [Mps.sites, fillSite, hS, Option.map_some, Option.bind_some, hts]
    rfl

theorem sites_cons {le : Q → Q → Bool} {f : Nat → List Q → List Nat → K} {b : BondInfo Q} {bs : List (BondInfo Q)} {i : Nat} {l r : BondInfo Q}
    {rs : List (BondInfo Q)} {ts : List (SpT Q K)} (h : Mps.sites (fillSite le f) i (b :: bs) (l :: r :: rs) = some ts) :
    ∃ S ts', SpT.skeleton le [l, b, r] none none = some S ∧ Mps.sites (fillSite le f) (i + 1) bs (r :: rs) = some ts' ∧
      ts = fillBlocks (f i) S :: ts' := by
  rw [Mps.sites, fillSite, Option.bind_eq_some_iff] at h
  obtain ⟨T, hT, h⟩ := h
  rw [Option.map_eq_some_iff] at hT h
  obtain ⟨S, hS, rfl⟩ := hT
  obtain ⟨ts', hts, rfl⟩ := h
  exact ⟨S, ts', hS, hts, rfl⟩

theorem ampl_path [CommSemiring K] {le : Q → Q → Bool} {f : Nat → List Q → List Nat → K} {basis : List (BondInfo Q)} (hne : basis ≠ []) {i : Nat}
    {l : BondInfo Q} {ls : List (BondInfo Q)} {t : Q} (hlen : ls.length + 1 = basis.length) (hw : ∀ b ∈ l :: ls ++ basis, Dict.WF b)
    {ts : List (SpT Q K)} (h : Mps.sites (fillSite le f) i basis (l :: ls ++ [[(t, 1)]]) = some ts) {x : Q × Nat} (hx : x ∈ legBasis l)
    {ps : List (Q × Nat)} (hps : ps ∈ legIndices basis) :
    ampl ts ls x (ps.map fun p => [p]) (t, 0) = pathSum f i (ls ++ [[(t, 1)]]) x ps := by
  induction basis generalizing i l ls ts x ps with
  | nil => exact absurd rfl hne
  | cons b bs ih =>
    obtain ⟨p, hp, ps, hps', rfl⟩ := mem_legIndices_cons.1 hps
    obtain _ | ⟨r, rs⟩ := ls
    · have hbs : bs = [] := by
        apply List.eq_nil_of_length_eq_zero
        simp only [List.length_nil, List.length_cons] at hlen
        omega
      subst hbs
      have : ps = [] := by simpa [legIndices, cart] using hps'
      subst this
      obtain ⟨S, ts', hS, hts, rfl⟩ := sites_cons (rs := []) h
      have : ts' = [] := by
        rw [Mps.sites] at hts
        simpa using hts.symm
      subst this
      have e := fill_entry (hw l (by simp)) (hw b (by simp)) (good_single t).1 hS (f i) x p (t, 0) hx hp (by simp [legBasis])
      rw [List.map_cons, List.map_nil, ampl]
      refine Eq.trans e ?_
      rw [List.nil_append, pathSum, count_single]
      by_cases ht : t = x.1 + p.1
      · subst ht
        simp [pathSum]
      · simp [ht]
    · have hbs : bs ≠ [] := by
        rintro rfl
        simp at hlen
      obtain ⟨S, ts', hS, hts, rfl⟩ := sites_cons (rs := rs ++ [[(t, 1)]]) h
      have hr : Dict.WF r := hw r (by simp)
      rw [List.map_cons, ampl, List.cons_append, pathSum, ← sum_label hr (x.1 + p.1) fun z => f i [x.1, p.1, x.1 + p.1] [x.2, p.2, z.2] * pathSum f (i + 1) (rs ++ [[(t, 1)]]) z ps]
      apply sum_map_congr'
      intro z hz
      have e := fill_entry (hw l (by simp)) (hw b (by simp)) hr hS (f i) x p z hx hp hz
      have e' : entry (fillBlocks (f i) S) (x :: [p] ++ [z]) = if z.1 = x.1 + p.1 then f i [x.1, p.1, z.1] [x.2, p.2, z.2] else 0 := e
      rw [e', ih hbs (by simpa using hlen) (fun c hc => hw c (by
        simp only [List.cons_append, List.mem_cons, List.mem_append] at hc ⊢
        tauto)) hts hz hps']
      by_cases hq : z.1 = x.1 + p.1
      · rw [if_pos hq, if_pos hq, hq]
      · rw [if_neg hq, if_neg hq, zero_mul]

/-- Only the target charge has an amplitude. -/
theorem pathSum_charge [CommSemiring K] (f : Nat → List Q → List Nat → K) (i : Nat) (ls : List (BondInfo Q)) (t : Q) (x : Q × Nat) (ps : List (Q × Nat))
    (hlen : ps.length = ls.length + 1) (h : x.1 + totalCharge ps ≠ t) : pathSum f i (ls ++ [[(t, 1)]]) x ps = 0 := by
  induction ls generalizing i x ps with
  | nil =>
    obtain _ | ⟨p, ps⟩ := ps
    · simp at hlen
    have : ps = [] := List.eq_nil_of_length_eq_zero (by simpa using hlen)
    subst this
    rw [List.nil_append, pathSum, count_single, if_neg]
    · rfl
    · intro e
      apply h
      simp [totalCharge_cons, e]
  | cons r rs ih =>
    obtain _ | ⟨p, ps⟩ := ps
    · simp at hlen
    rw [List.cons_append, pathSum, sum_map_zero']
    intro j _
    rw [ih (i + 1) _ ps (by simpa using hlen) (by rwa [totalCharge_cons, ← add_assoc] at h), mul_zero]

/-- With all entries one, the number of paths. -/
theorem pathSum_one [CommSemiring K] (i : Nat) (ls : List (BondInfo Q)) (t : Q) (x : Q × Nat) (ps : List (Q × Nat))
    (hlen : ps.length = ls.length + 1) (h : x.1 + totalCharge ps = t) :
    pathSum (fun _ _ _ => (1 : K)) i (ls ++ [[(t, 1)]]) x ps =
      (((List.range ls.length).map fun d => Counter.count (ls.getD d []) (x.1 + totalCharge (ps.take (d + 1)))).prod : Nat) := by
  induction ls generalizing i x ps with
  | nil =>
    obtain _ | ⟨p, ps⟩ := ps
    · simp at hlen
    have : ps = [] := List.eq_nil_of_length_eq_zero (by simpa using hlen)
    subst this
    have ht : t = x.1 + p.1 := by rw [← h]; simp [totalCharge_cons]
    rw [List.nil_append, pathSum, count_single, if_pos ht]
    simp [pathSum]
  | cons r rs ih =>
    obtain _ | ⟨p, ps⟩ := ps
    · simp at hlen
    have hh : ∀ j, pathSum (fun _ _ _ => (1 : K)) (i + 1) (rs ++ [[(t, 1)]]) (x.1 + p.1, j) ps = _ := fun j =>
      ih (i + 1) (x.1 + p.1, j) ps (by simpa using hlen) (by rw [← h, totalCharge_cons, ← add_assoc])
    rw [List.cons_append, pathSum]
    simp only [hh, one_mul]
    rw [List.map_const', List.sum_replicate, List.length_range, List.length_cons, List.range_succ_eq_map, List.map_cons, List.prod_cons,
      List.map_map, nsmul_eq_mul, Nat.cast_mul]
    congr 2
    · simp [totalCharge_cons]
    · congr 1
      apply List.map_congr_left
      intro d _
      simp [totalCharge_cons, add_assoc]

end
end Verif
