import Verif.Spec.Trunc
import Verif.Proof.Py
import Verif.Proof.Canon
import Mathlib.Algebra.Order.Ring.Defs
import Mathlib.Data.List.Sort

/-! Lemmas for the truncation of singular values. -/

set_option linter.unusedSectionVars false

namespace Verif

/-! ### The selection is a leading segment of the sorted list -/

section select
variable {V : Type} [CommRing V] [LinearOrder V] [IsStrictOrderedRing V]

/-- Larger values come first. -/
def Descending (l : List (SV V)) : Prop := l.Pairwise fun a b => b.val ≤ a.val

theorem sortValues_descending (l : List (SV V)) : Descending (sortValues l) := by
  have := sortBy_sorted (fun a b : SV V => decide (b.val ≤ a.val)) (by intro a b; simpa using le_total _ _)
    (by intro a b c; simpa using fun h1 h2 => le_trans h2 h1) l
  exact this.imp (by simp)

theorem sortValues_perm (l : List (SV V)) : (sortValues l).Perm l := sortBy_perm _ _

theorem pyTake_eq {α : Type} (k : Int) (l : List α) : ∃ n ≤ l.length, pyTake k l = l.take n ∧ (0 ≤ k → n = min k.toNat l.length) ∧
    (k < 0 → n = ((l.length : Int) + k).toNat) := by
  unfold pyTake
  by_cases h : 0 ≤ k
  · refine ⟨min k.toNat l.length, by omega, ?_, fun _ => rfl, fun h' => by omega⟩
    rw [if_pos h]
    rcases Nat.le_total k.toNat l.length with h1 | h1
    · rw [min_eq_left h1]
    · rw [min_eq_right h1, List.take_of_length_le h1, List.take_length]
  · refine ⟨((l.length : Int) + k).toNat, by omega, ?_, fun h' => absurd h' h, fun _ => rfl⟩
    rw [if_neg h]

theorem filter_descending {l : List (SV V)} (h : Descending l) (c : V) :
    ∃ n ≤ l.length, l.filter (fun x => decide (c ≤ x.val)) = l.take n ∧ (∀ x ∈ l.take n, c ≤ x.val) ∧ ∀ x ∈ l.drop n, x.val < c := by
  induction l with
  | nil => exact ⟨0, by simp, by simp, by simp, by simp⟩
  | cons a l ih =>
    obtain ⟨h1, h2⟩ := List.pairwise_cons.1 h
    obtain ⟨n, hn, e, k1, k2⟩ := ih h2
    by_cases ha : c ≤ a.val
    · refine ⟨n + 1, by simpa using hn, ?_, ?_, ?_⟩
      · rw [List.filter_cons_of_pos (by simpa using ha), e, List.take_succ_cons]
      · intro x hx
        rw [List.take_succ_cons] at hx
        rcases List.mem_cons.1 hx with rfl | hx
        · exact ha
        · exact k1 x hx
      · intro x hx
        rw [List.drop_succ_cons] at hx
        exact k2 x hx
    · refine ⟨0, by simp, ?_, by simp, ?_⟩
      · rw [List.take_zero, List.filter_eq_nil_iff]
        intro x hx
        rcases List.mem_cons.1 hx with rfl | hx
        · simpa using ha
        · have := h1 x hx
          simp
          exact lt_of_le_of_lt this (not_le.1 ha)
      · intro x hx
        rw [List.drop_zero] at hx
        rcases List.mem_cons.1 hx with rfl | hx
        · exact not_le.1 ha
        · exact lt_of_le_of_lt (h1 x hx) (not_le.1 ha)

theorem Descending.take {l : List (SV V)} (h : Descending l) (n : Nat) : Descending (l.take n) := List.Pairwise.sublist (List.take_sublist n l) h

/-- What the loop over the discarded weight counts. -/
theorem dwCount_spec (w : V → V) (M : V) (dw : V) (l : List (SV V)) :
    dwCount w M dw l ≤ l.length ∧
    (0 < dwCount w M dw l → dw + ((l.take (dwCount w M dw l)).map fun x => w x.val).sum ≤ M) ∧
    (dwCount w M dw l < l.length → M < dw + ((l.take (dwCount w M dw l + 1)).map fun x => w x.val).sum) := by
  induction l generalizing dw with
  | nil => simp [dwCount]
  | cons a l ih =>
    by_cases h : dw + w a.val ≤ M
    · have e : dwCount w M dw (a :: l) = dwCount w M (dw + w a.val) l + 1 := by
        rw [dwCount, if_pos h, Nat.add_comm]
      obtain ⟨i1, i2, i3⟩ := ih (dw + w a.val)
      rw [e]
      refine ⟨by simpa using i1, ?_, ?_⟩
      · intro _
        rw [List.take_succ_cons, List.map_cons, List.sum_cons, ← add_assoc]
        rcases Nat.eq_zero_or_pos (dwCount w M (dw + w a.val) l) with h0 | h0
        · rw [h0]; simpa using h
        · exact i2 h0
      · intro hl
        rw [List.take_succ_cons, List.map_cons, List.sum_cons, ← add_assoc]
        exact i3 (by simpa using hl)
    · have e : dwCount w M dw (a :: l) = 0 := by
        rw [dwCount, if_neg h]
      rw [e]
      refine ⟨by simp, by simp, ?_⟩
      intro _
      simpa using h

/-- The stages of the selection, after sorting: discarded weight (`p` values may be dropped), cutoff, bond dimension. -/
theorem stages_eq (S : List (SV V)) (hS : Descending S) (dw : Bool) (p : Nat) (cut : Option V) (k : Int) :
    ∃ n ≤ S.length,
      (let ss := if dw then pyTake (-(p : Int)) S else S
       let ss := match cut with | some c => ss.filter (fun x => decide (c ≤ x.val)) | none => ss
       if k ≠ -1 then pyTake k ss else ss) = S.take n ∧
      (0 ≤ k → n ≤ k.toNat) ∧ (∀ c, cut = some c → ∀ x ∈ S.take n, c ≤ x.val) ∧
      (dw = false → cut = none → 0 ≤ k → n = min k.toNat S.length) ∧
      (dw = false → cut = none → k = -1 → n = S.length) ∧
      (dw = false → k = -1 → ∀ c, cut = some c → ∀ x ∈ S.drop n, x.val < c) ∧
      (dw = true → cut = none → k = -1 → n = if p = 0 then 0 else S.length - p) := by
  obtain ⟨n1, hn1, e1, c1⟩ : ∃ n ≤ S.length, (if dw then pyTake (-(p : Int)) S else S) = S.take n ∧
      n = if dw then (if p = 0 then 0 else S.length - p) else S.length := by
    cases dw
    · exact ⟨S.length, le_rfl, by simp, rfl⟩
    · obtain ⟨n, h1, h2, h3, h4⟩ := pyTake_eq (-(p : Int)) S
      refine ⟨n, h1, by simpa using h2, ?_⟩
      simp only [if_true]
      split
      · rename_i h; rw [h3 (by omega)]; omega
      · rename_i h; rw [h4 (by omega)]; omega
  have hd1 := hS.take n1
  obtain ⟨n2, hn2, e2, c2, d2, f2⟩ : ∃ n ≤ n1, (match cut with | some c => (S.take n1).filter (fun x => decide (c ≤ x.val)) | none => S.take n1) = S.take n ∧
      (∀ c, cut = some c → ∀ x ∈ S.take n, c ≤ x.val) ∧ (∀ c, cut = some c → ∀ x ∈ (S.take n1).drop n, x.val < c) ∧ (cut = none → n = n1) := by
    cases cut with
    | none => exact ⟨n1, le_rfl, rfl, by simp, by simp, by simp⟩
    | some c =>
      obtain ⟨n, h1, h2, h3, h4⟩ := filter_descending hd1 c
      have hle : n ≤ n1 := by simp at h1; omega
      rw [List.take_take, min_eq_left hle] at h2 h3
      refine ⟨n, hle, h2, ?_, ?_, by simp⟩
      · intro c' hc; cases hc; exact h3
      · intro c' hc; cases hc; exact h4
  obtain ⟨n3, hn3, e3, k3, f3, g3⟩ : ∃ n ≤ n2, (if k ≠ -1 then pyTake k (S.take n2) else S.take n2) = S.take n ∧ (0 ≤ k → n ≤ k.toNat) ∧
      (k = -1 → n = n2) ∧ (0 ≤ k → n = min k.toNat (min n2 S.length)) := by
    by_cases hk : k = -1
    · exact ⟨n2, le_rfl, by simp [hk], by omega, fun _ => rfl, by omega⟩
    · obtain ⟨n, h1, h2, h3, h4⟩ := pyTake_eq k (S.take n2)
      have hle : n ≤ n2 := by simp at h1; omega
      rw [List.take_take, min_eq_left hle] at h2
      refine ⟨n, hle, by rw [if_pos hk, h2], ?_, fun h => absurd h hk, ?_⟩
      · intro h; have := h3 h; omega
      · intro h; have := h3 h; simpa using this
  refine ⟨n3, by omega, ?_, k3, ?_, ?_, ?_, ?_, ?_⟩
  · simp only
    rw [e1, e2, e3]
  · intro c hc x hx
    exact c2 c hc x ((List.take_sublist_take_left (l := S) hn3).subset hx)
  · intro hdw hcut hk
    rw [g3 hk, f2 hcut, c1, hdw]
    simp
  · intro hdw hcut hk
    rw [f3 hk, f2 hcut, c1, hdw]
    simp
  · intro hdw hk c hc x hx
    rw [f3 hk] at hx
    have e : n1 = S.length := by rw [c1, hdw]; simp
    have := d2 c hc x
    rw [e, List.take_length] at this
    exact this hx
  · intro hdw hcut hk
    rw [f3 hk, f2 hcut, c1, hdw]
    simp

end select

/-! ### Groups -/

section groups
variable {V : Type}

theorem groupRuns_run (i : Nat) (v : Nat → V) (js : List Nat) (j : Nat) (rest : List (SV V)) (h : ∀ g ∈ (groupRuns rest).head?, g.1 ≠ i) :
    groupRuns ((j :: js).map (fun j => (⟨i, j, v j⟩ : SV V)) ++ rest) = (i, j :: js) :: groupRuns rest := by
  induction js generalizing j with
  | nil =>
    simp only [List.map_cons, List.map_nil, List.cons_append, List.nil_append, groupRuns]
    cases hr : groupRuns rest with
    | nil => rfl
    | cons g gs =>
      simp only
      rw [if_neg (fun e => h g (by rw [hr]; simp) e.symm)]
  | cons j' js ih =>
    have := ih j'
    rw [List.map_cons, List.cons_append, groupRuns, this]
    simp

/-- Values listed block by block are grouped block by block. -/
theorem groupRuns_blocks (g : Nat → List Nat) (v : Nat → Nat → V) (is : List Nat) (h : is.Nodup) :
    groupRuns (is.flatMap fun i => (g i).map fun j => (⟨i, j, v i j⟩ : SV V)) = is.filterMap fun i => if g i = [] then none else some (i, g i) := by
  induction is with
  | nil => rfl
  | cons i is ih =>
    obtain ⟨h1, h2⟩ := List.nodup_cons.1 h
    rw [List.flatMap_cons, List.filterMap_cons]
    cases hg : g i with
    | nil => simp [ih h2]
    | cons j js =>
      rw [groupRuns_run, ih h2]
      · simp
      · rw [ih h2]
        intro e he
        have := List.mem_of_mem_head? he
        obtain ⟨i', hi', e'⟩ := List.mem_filterMap.1 this
        split at e'
        · cases e'
        · simp at e'
          subst e'
          intro e''
          simp at e''
          subst e''
          exact h1 hi'

variable [CommRing V] [LinearOrder V] [IsStrictOrderedRing V]

/-- The order of places. -/
def PlaceLe (a b : SV V) : Prop := a.block < b.block ∨ a.block = b.block ∧ a.pos ≤ b.pos

theorem sortPlaces_sorted (l : List (SV V)) : (sortPlaces l).Pairwise PlaceLe := by
  have := sortBy_sorted (fun a b : SV V => decide (a.block < b.block ∨ a.block = b.block ∧ a.pos ≤ b.pos))
    (by intro a b; simp; omega) (by intro a b c; simp; omega) l
  exact this.imp (by simp [PlaceLe])

theorem sortPlaces_eq {l l' : List (SV V)} (hp : l.Perm l') (hs : l'.Pairwise PlaceLe)
    (hu : ∀ a ∈ l', ∀ b ∈ l', a.block = b.block → a.pos = b.pos → a = b) : sortPlaces l = l' := by
  refine List.Perm.eq_of_pairwise (le := PlaceLe) ?_ (sortPlaces_sorted l) hs ((sortBy_perm _ l).trans hp)
  intro a b ha hb h1 h2
  have ha' : a ∈ l' := hp.mem_iff.1 ((mem_sortBy _ _ _).1 ha)
  unfold PlaceLe at h1 h2
  exact hu a ha' b hb (by omega) (by omega)

end groups

/-! ### Values and basis vectors of the bond -/

section values
variable {Q V : Type} [DecidableEq Q] [Zero Q] [Zero V]

/-- The number of values in block `i`. -/
def svSize (s : SpT Q V) (i : Nat) : Nat := (SpT.svBlock s i).2.shape.headD 0

/-- The basis vector a value belongs to. -/
def svPlace (s : SpT Q V) (x : SV V) : Q × Nat := ((SpT.svBlock s x.block).1, x.pos)

theorem zipIdx_eq_range {α : Type} (l : List α) (d : α) : l.zipIdx = (List.range l.length).map fun i => (l.getD i d, i) := by
  apply List.ext_getElem
  · simp
  · intro i h1 h2
    simp at h1
    simp [h1]

theorem singularValues_eq (s : SpT Q V) :
    SpT.singularValues s = (List.range s.length).flatMap fun i => (List.range (svSize s i)).map fun j => ⟨i, j, (SpT.svBlock s i).2.get [j]⟩ := by
  unfold SpT.singularValues
  rw [zipIdx_eq_range s ([], ⟨[], fun _ => 0⟩), List.flatMap_map]
  rfl

theorem valueBond_eq (s : SpT Q V) : valueBond s = (List.range s.length).map fun i => ((SpT.svBlock s i).1, svSize s i) := by
  apply List.ext_getElem
  · simp [valueBond]
  · intro i h1 h2
    simp [valueBond] at h1
    simp [valueBond, SpT.svBlock, svSize, h1]

theorem legBasis_valueBond (s : SpT Q V) :
    legBasis (valueBond s) = (List.range s.length).flatMap fun i => (List.range (svSize s i)).map fun j => ((SpT.svBlock s i).1, j) := by
  unfold legBasis
  rw [valueBond_eq, List.flatMap_map]

theorem legBasis_values (s : SpT Q V) : legBasis (valueBond s) = (SpT.singularValues s).map (svPlace s) := by
  rw [legBasis_valueBond, singularValues_eq, List.map_flatMap]
  congr 1
  funext i
  rw [List.map_map]
  rfl

theorem svBlock_inj {s : SpT Q V} (hw : Dict.WF (valueBond s)) {i i' : Nat} (h : i < s.length) (h' : i' < s.length)
    (e : (SpT.svBlock s i).1 = (SpT.svBlock s i').1) : i = i' := by
  unfold Dict.WF at hw
  rw [valueBond_eq, List.map_map] at hw
  exact List.inj_on_of_nodup_map hw (by simpa using h) (by simpa using h') e

theorem mem_singularValues {s : SpT Q V} {x : SV V} :
    x ∈ SpT.singularValues s ↔ x.block < s.length ∧ x.pos < svSize s x.block ∧ x.val = (SpT.svBlock s x.block).2.get [x.pos] := by
  rw [singularValues_eq]
  simp only [List.mem_flatMap, List.mem_range, List.mem_map]
  constructor
  · rintro ⟨i, hi, j, hj, rfl⟩
    exact ⟨hi, hj, rfl⟩
  · rintro ⟨h1, h2, h3⟩
    exact ⟨x.block, h1, x.pos, h2, by cases x; simp at h3; simp [h3]⟩

theorem singularValues_ext {s : SpT Q V} {x y : SV V} (hx : x ∈ SpT.singularValues s) (hy : y ∈ SpT.singularValues s)
    (h1 : x.block = y.block) (h2 : x.pos = y.pos) : x = y := by
  have a := (mem_singularValues.1 hx).2.2
  have b := (mem_singularValues.1 hy).2.2
  rw [← h1, ← h2, ← a] at b
  cases x; cases y
  simp at h1 h2 b
  simp [h1, h2, b]

theorem svPlace_inj {s : SpT Q V} (hw : Dict.WF (valueBond s)) {x y : SV V} (hx : x ∈ SpT.singularValues s) (hy : y ∈ SpT.singularValues s)
    (h : svPlace s x = svPlace s y) : x = y := by
  simp only [svPlace, Prod.mk.injEq] at h
  exact singularValues_ext hx hy (svBlock_inj hw (mem_singularValues.1 hx).1 (mem_singularValues.1 hy).1 h.1) h.2

theorem singularValues_nodup {s : SpT Q V} (hw : Dict.WF (valueBond s)) : (SpT.singularValues s).Nodup := by
  have := legBasis_nodup hw
  rw [legBasis_values] at this
  exact this.of_map

theorem singularValues_sorted (s : SpT Q V) : (SpT.singularValues s).Pairwise PlaceLe := by
  rw [singularValues_eq, List.flatMap_def, List.pairwise_flatten]
  constructor
  · intro l hl
    obtain ⟨i, _, rfl⟩ := List.mem_map.1 hl
    rw [List.pairwise_map]
    exact List.pairwise_lt_range.imp fun h => Or.inr ⟨rfl, Nat.le_of_lt h⟩
  · rw [List.pairwise_map]
    refine List.pairwise_lt_range.imp ?_
    intro a b hab x hx y hy
    obtain ⟨j, _, rfl⟩ := List.mem_map.1 hx
    obtain ⟨j', _, rfl⟩ := List.mem_map.1 hy
    exact Or.inl hab

/-- The basis vectors of the listed values. -/
def keepOf (s : SpT Q V) (T : List (SV V)) (z : Q × Nat) : Bool := decide (z ∈ T.map (svPlace s))

theorem keepOf_iff {s : SpT Q V} (hw : Dict.WF (valueBond s)) {T : List (SV V)} (hT : ∀ x ∈ T, x ∈ SpT.singularValues s) {x : SV V}
    (hx : x ∈ SpT.singularValues s) : keepOf s T (svPlace s x) = true ↔ x ∈ T := by
  simp only [keepOf, decide_eq_true_eq, List.mem_map]
  constructor
  · rintro ⟨y, hy, e⟩
    rw [svPlace_inj hw hx (hT y hy) e.symm]
    exact hy
  · intro h
    exact ⟨x, h, rfl⟩

theorem kept_perm {s : SpT Q V} (hw : Dict.WF (valueBond s)) {T D : List (SV V)} (hp : (T ++ D).Perm (SpT.singularValues s)) :
    T.Perm ((SpT.singularValues s).filter fun x => keepOf s T (svPlace s x)) := by
  have hn : (T ++ D).Nodup := hp.nodup_iff.2 (singularValues_nodup hw)
  have hT : ∀ x ∈ T, x ∈ SpT.singularValues s := fun x hx => hp.mem_iff.1 (List.mem_append_left _ hx)
  rw [List.perm_ext_iff_of_nodup (List.nodup_append.1 hn).1 ((singularValues_nodup hw).filter _)]
  intro x
  rw [List.mem_filter]
  constructor
  · intro h
    exact ⟨hT x h, (keepOf_iff hw hT (hT x h)).2 h⟩
  · rintro ⟨h1, h2⟩
    exact (keepOf_iff hw hT h1).1 h2

theorem dropped_perm {s : SpT Q V} (hw : Dict.WF (valueBond s)) {T D : List (SV V)} (hp : (T ++ D).Perm (SpT.singularValues s)) :
    D.Perm ((SpT.singularValues s).filter fun x => !keepOf s T (svPlace s x)) := by
  have hn : (T ++ D).Nodup := hp.nodup_iff.2 (singularValues_nodup hw)
  obtain ⟨_, h2, h3⟩ := List.nodup_append.1 hn
  have hT : ∀ x ∈ T, x ∈ SpT.singularValues s := fun x hx => hp.mem_iff.1 (List.mem_append_left _ hx)
  rw [List.perm_ext_iff_of_nodup h2 ((singularValues_nodup hw).filter _)]
  intro x
  rw [List.mem_filter]
  constructor
  · intro h
    have hx := hp.mem_iff.1 (List.mem_append_right T h)
    refine ⟨hx, ?_⟩
    have := mt (keepOf_iff hw hT hx).1 (fun hh => h3 x hh x h rfl)
    simpa using this
  · rintro ⟨hx, hk⟩
    rcases List.mem_append.1 (hp.mem_iff.2 hx) with h | h
    · rw [(keepOf_iff hw hT hx).2 h] at hk
      simp at hk
    · exact h

/-- The groups are, block by block, the kept positions. -/
theorem groups_eq {V : Type} [CommRing V] [LinearOrder V] [IsStrictOrderedRing V] {s : SpT Q V} (hw : Dict.WF (valueBond s)) {T D : List (SV V)}
    (hp : (T ++ D).Perm (SpT.singularValues s)) :
    groupRuns (sortPlaces T) = (List.range s.length).filterMap fun i =>
      if keptAt (keepOf s T) (SpT.svBlock s i).1 (svSize s i) = [] then none
      else some (i, keptAt (keepOf s T) (SpT.svBlock s i).1 (svSize s i)) := by
  rw [sortPlaces_eq (kept_perm hw hp) ((singularValues_sorted s).filter _)]
  · rw [← groupRuns_blocks (fun i => keptAt (keepOf s T) (SpT.svBlock s i).1 (svSize s i)) (fun i j => (SpT.svBlock s i).2.get [j]) _ List.nodup_range]
    congr 1
    rw [singularValues_eq, List.filter_flatMap]
    congr 1
    funext i
    rw [List.filter_map]
    rfl
  · intro a ha b hb h1 h2
    exact singularValues_ext (List.mem_filter.1 ha).1 (List.mem_filter.1 hb).1 h1 h2

theorem ValueBlocks.unique {s : SpT Q V} (h : ValueBlocks s) : UniqueLabels s := by
  have hw := h.good.1
  unfold Dict.WF valueBond at hw
  rw [List.map_map] at hw
  unfold UniqueLabels
  rw [List.Nodup, List.pairwise_map] at hw ⊢
  refine hw.imp ?_
  intro a b hab e
  apply hab
  simp [e]

theorem ValueBlocks.svBlock_mem {s : SpT Q V} (h : ValueBlocks s) {i : Nat} (hi : i < s.length) :
    ([(SpT.svBlock s i).1], (SpT.svBlock s i).2) ∈ s ∧ (SpT.svBlock s i).2.shape = [svSize s i] := by
  have hm : s[i] ∈ s := List.getElem_mem hi
  have h1 := h.label _ hm
  have h2 := h.axis _ hm
  obtain ⟨q, hq⟩ := List.length_eq_one_iff.1 h1
  obtain ⟨n, hn⟩ := List.length_eq_one_iff.1 h2
  have e : SpT.svBlock s i = (q, s[i].2) := by
    simp [SpT.svBlock, hi, hq]
  rw [svSize, e]
  refine ⟨?_, by simp [hn]⟩
  have : (([q] : List Q), s[i].2) = s[i] := by rw [← hq]
  simp only
  rw [this]
  exact hm

theorem ValueBlocks.entry {V : Type} [AddCommMonoid V] {s : SpT Q V} (h : ValueBlocks s) {x : SV V} (hx : x ∈ SpT.singularValues s) :
    Verif.entry s [svPlace s x] = x.val := by
  obtain ⟨h1, h2, h3⟩ := mem_singularValues.1 hx
  obtain ⟨hm, hs⟩ := h.svBlock_mem h1
  rw [entry_of_mem h.unique hm (by simp [svPlace])]
  simp [blockEntry, svPlace, hs, inBox, h2, h3]

end values

/-! ### The error -/

section error
variable {Q V : Type} [DecidableEq Q] [Zero Q] [CommRing V] [LinearOrder V] [IsStrictOrderedRing V]

theorem sum_filterMap_groups {M : Type} [AddCommMonoid M] (is : List Nat) (g : Nat → List Nat) (f : Nat × List Nat → M) :
    ((is.filterMap fun i => if g i = [] then none else some (i, g i)).map f).sum = (is.map fun i => if g i = [] then 0 else f (i, g i)).sum := by
  induction is with
  | nil => rfl
  | cons i is ih =>
    rw [List.filterMap_cons]
    by_cases h : g i = []
    · simp [h, ih]
    · simp [h, ih]

theorem truncError_eq (w : V → V) {s : SpT Q V} (hs : ValueBlocks s) {T D : List (SV V)} (hp : (T ++ D).Perm (SpT.singularValues s)) :
    SpT.truncError w s (groupRuns (sortPlaces T)) =
      (((legBasis (valueBond s)).filter fun z => !keepOf s T z).map fun z => w (entry s [z])).sum := by
  have e1 : (((legBasis (valueBond s)).filter fun z => !keepOf s T z).map fun z => w (entry s [z])).sum =
      ((List.range s.length).map fun i => (((List.range (svSize s i)).filter fun j => !keepOf s T ((SpT.svBlock s i).1, j)).map fun j =>
        w ((SpT.svBlock s i).2.get [j])).sum).sum := by
    rw [legBasis_valueBond, List.filter_flatMap, sum_flatMap']
    apply sum_map_congr'
    intro i hi
    rw [List.filter_map, List.map_map]
    apply sum_map_congr'
    intro j hj
    have hj' := (List.mem_filter.1 hj).1
    have := hs.entry (x := ⟨i, j, (SpT.svBlock s i).2.get [j]⟩) (mem_singularValues.2 ⟨by simpa using hi, by simpa using hj', rfl⟩)
    exact congrArg w this
  rw [e1]
  unfold SpT.truncError
  rw [groups_eq hs.good.1 hp]
  generalize hg : (fun i => keptAt (keepOf s T) (SpT.svBlock s i).1 (svSize s i)) = g
  have hg' : ∀ i, keptAt (keepOf s T) (SpT.svBlock s i).1 (svSize s i) = g i := fun i => by rw [← hg]
  simp only [hg']
  rw [sum_filterMap_groups]
  have e2 : ((List.range s.length).filter fun i => decide (i ∉ ((List.range s.length).filterMap fun i => if g i = [] then none else some (i, g i)).map Prod.fst)) =
      (List.range s.length).filter fun i => decide (g i = []) := by
    apply List.filter_congr
    intro i hi
    apply decide_eq_decide.2
    constructor
    · intro h
      by_contra hne
      exact h (List.mem_map.2 ⟨(i, g i), List.mem_filterMap.2 ⟨i, hi, by simp [hne]⟩, rfl⟩)
    · intro h hm
      obtain ⟨p, hp, rfl⟩ := List.mem_map.1 hm
      obtain ⟨i', _, e⟩ := List.mem_filterMap.1 hp
      split at e
      · cases e
      · rename_i hne
        simp at e
        rw [← e] at h
        exact hne h
  rw [e2, sum_filter', ← sum_map_add']
  apply sum_map_congr'
  intro i _
  have hk : ∀ j, j ∈ List.range (svSize s i) → (decide (j ∉ g i) = !keepOf s T ((SpT.svBlock s i).1, j)) := by
    intro j hj
    rw [← hg' i]
    simp only [keptAt, List.mem_filter, hj, true_and]
    cases keepOf s T ((SpT.svBlock s i).1, j) <;> simp
  by_cases h : g i = []
  · simp only [h, if_true, decide_true, zero_add]
    have : (List.range (svSize s i)).filter (fun j => !keepOf s T ((SpT.svBlock s i).1, j)) = List.range (svSize s i) := by
      rw [List.filter_eq_self]
      intro j hj
      rw [← hk j hj, h]
      simp
    rw [this]
    rfl
  · simp only [h, if_false, decide_false, add_zero, Bool.false_eq_true]
    rw [show (SpT.svBlock s i).2.shape.headD 0 = svSize s i from rfl, List.filter_congr hk]

end error

/-! ### Picking the blocks -/

section pointer
variable {Q β : Type} [DecidableEq Q]

/-- `keepLeft` and `keepRight` with the labels of the groups. -/
def keepBy (f : β → Q) (pick : List Nat → β → β) : List (Q × List Nat) → List β → List β
  | [], _ => []
  | (q, g) :: gs, l =>
    let l1 := l.dropWhile fun b => decide (f b ≠ q)
    (l1.takeWhile fun b => decide (f b = q)).map (pick g) ++ keepBy f pick gs (l1.dropWhile fun b => decide (f b = q))

theorem dropWhile_all {p : β → Bool} {a b : List β} (h : ∀ x ∈ a, p x = true) : (a ++ b).dropWhile p = b.dropWhile p := by
  induction a with
  | nil => rfl
  | cons x a ih =>
    rw [List.cons_append, List.dropWhile_cons_of_pos (h x (by simp)), ih (fun y hy => h y (by simp [hy]))]

theorem takeWhile_all {p : β → Bool} {a b : List β} (h : ∀ x ∈ a, p x = true) (hb : ∀ x ∈ b, p x = false) : (a ++ b).takeWhile p = a := by
  induction a with
  | nil =>
    cases b with
    | nil => rfl
    | cons y b => rw [List.nil_append, List.takeWhile_cons_of_neg (by simp [hb y])]
  | cons x a ih =>
    rw [List.cons_append, List.takeWhile_cons_of_pos (h x (by simp)), ih (fun y hy => h y (by simp [hy]))]

theorem dropWhile_none {p : β → Bool} {b : List β} (hb : ∀ x ∈ b, p x = false) : b.dropWhile p = b := by
  cases b with
  | nil => rfl
  | cons y b => rw [List.dropWhile_cons_of_neg (by simp [hb y])]

theorem keepBy_pieces (f : β → Q) (pick : List Nat → β → β) (L : Q → List β) (hL : ∀ q, ∀ b ∈ L q, f b = q) (G : List (Q × List Nat))
    (keys : List Q) (hk : keys.Nodup) (hne : ∀ q ∈ keys, L q ≠ []) (h : (G.map Prod.fst).Sublist keys) :
    keepBy f pick G (keys.flatMap L) = G.flatMap fun g => (L g.1).map (pick g.2) := by
  induction keys generalizing G with
  | nil =>
    have : G = [] := by simpa using h
    subst this
    rfl
  | cons k ks ih =>
    obtain ⟨hk1, hk2⟩ := List.nodup_cons.1 hk
    have hrest : ∀ x ∈ ks.flatMap L, f x ≠ k := by
      intro x hx e
      obtain ⟨q, hq, hx'⟩ := List.mem_flatMap.1 hx
      rw [hL q x hx'] at e
      subst e
      exact hk1 hq
    rcases G with _ | ⟨⟨q, g⟩, G⟩
    · rfl
    rw [List.map_cons] at h
    by_cases hq : q = k
    · subst hq
      have h' : (G.map Prod.fst).Sublist ks := by
        cases h with
        | cons _ h => exact absurd (h.subset (by simp)) hk1
        | cons_cons _ h => exact h
      rw [keepBy, List.flatMap_cons, List.flatMap_cons]
      have e1 : (L q ++ ks.flatMap L).dropWhile (fun b => decide (f b ≠ q)) = L q ++ ks.flatMap L := by
        have := hne q (by simp)
        cases hLq : L q with
        | nil => exact absurd hLq this
        | cons y ys =>
          rw [List.cons_append, List.dropWhile_cons_of_neg]
          simp [hL q y (by simp [hLq])]
      simp only
      rw [e1, takeWhile_all (fun x hx => by simp [hL q x hx]) (fun x hx => by simp [hrest x hx]),
        dropWhile_all (fun x hx => by simp [hL q x hx]), dropWhile_none (fun x hx => by simp [hrest x hx]),
        ih G hk2 (fun q hq => hne q (by simp [hq])) h']
    · have h' : (((q, g) :: G).map Prod.fst).Sublist ks := by
        cases h with
        | cons _ h => exact h
        | cons_cons _ h => exact absurd rfl hq
      rw [← ih ((q, g) :: G) hk2 (fun q hq => hne q (by simp [hq])) h']
      rw [keepBy, keepBy, List.flatMap_cons]
      rw [dropWhile_all (fun x hx => by simp [hL k x hx, Ne.symm hq])]

theorem keepBy_sorted (f : β → Q) (pick : List Nat → β → β) {keys : List Q} {l : List β} (hl : SortedBy keys f l) (hk : keys.Nodup)
    (G : List (Q × List Nat)) (h : (G.map Prod.fst).Sublist keys) :
    keepBy f pick G l = G.flatMap fun g => (l.filter fun b => decide (f b = g.1)).map (pick g.2) := by
  have ho := hl.order
  unfold InOrderOf at ho
  conv_lhs => rw [ho]
  refine keepBy_pieces f pick (fun q => l.filter fun b => decide (f b = q)) ?_ G keys hk ?_ h
  · intro q b hb
    simpa using (List.mem_filter.1 hb).2
  · intro q hq hn
    obtain ⟨b, hb, e⟩ := hl.all q hq
    have : b ∈ l.filter fun b => decide (f b = q) := List.mem_filter.2 ⟨hb, by simpa using e⟩
    rw [hn] at this
    simp at this

theorem firstRun {f : β → Q} {keys : List Q} {l : List β} (hl : InOrderOf keys f l) (hk : keys.Nodup) {q : Q} (hq : q ∈ keys) :
    (l.drop (if q ∈ l.map f then (l.map f).idxOf q else 0)).takeWhile (fun b => decide (f b = q)) = l.filter fun b => decide (f b = q) := by
  obtain ⟨k1, k2, rfl⟩ := List.append_of_mem hq
  obtain ⟨_, hk2, hk3⟩ := List.nodup_append.1 hk
  have hq2 := (List.nodup_cons.1 hk2).1
  have hq1 : q ∉ k1 := fun h => hk3 q h q (by simp) rfl
  have e : l = (k1.flatMap fun q => l.filter fun b => decide (f b = q)) ++
      (l.filter (fun b => decide (f b = q)) ++ k2.flatMap fun q => l.filter fun b => decide (f b = q)) := by
    unfold InOrderOf at hl
    rw [List.flatMap_append, List.flatMap_cons] at hl
    exact hl
  generalize hA : (k1.flatMap fun q => l.filter fun b => decide (f b = q)) = A at e
  generalize hC : (k2.flatMap fun q => l.filter fun b => decide (f b = q)) = C at e
  generalize hB : l.filter (fun b => decide (f b = q)) = B at e ⊢
  have hAq : ∀ x ∈ A, f x ≠ q := by
    intro x hx h
    rw [← hA] at hx
    obtain ⟨k, hk, hx⟩ := List.mem_flatMap.1 hx
    have : f x = k := by simpa using (List.mem_filter.1 hx).2
    rw [this] at h
    exact hq1 (h ▸ hk)
  have hCq : ∀ x ∈ C, f x ≠ q := by
    intro x hx h
    rw [← hC] at hx
    obtain ⟨k, hk, hx⟩ := List.mem_flatMap.1 hx
    have : f x = k := by simpa using (List.mem_filter.1 hx).2
    rw [this] at h
    exact hq2 (h ▸ hk)
  have hBq : ∀ x ∈ B, f x = q := by
    intro x hx
    rw [← hB] at hx
    simpa using (List.mem_filter.1 hx).2
  rw [e]
  rcases B with _ | ⟨b, B⟩
  · rw [if_neg]
    · rw [List.drop_zero, List.nil_append]
      have : ∀ x ∈ A ++ C, decide (f x = q) = false := by
        intro x hx
        rcases List.mem_append.1 hx with h | h
        · simpa using hAq x h
        · simpa using hCq x h
      exact takeWhile_all (a := []) (by simp) this
    · intro h
      obtain ⟨x, hx, h⟩ := List.mem_map.1 h
      rw [List.nil_append] at hx
      rcases List.mem_append.1 hx with h' | h'
      · exact hAq x h' h
      · exact hCq x h' h
  · have hbq : f b = q := hBq b (by simp)
    rw [if_pos (List.mem_map.2 ⟨b, by simp, hbq⟩)]
    have hidx : ((A ++ (b :: B ++ C)).map f).idxOf q = A.length := by
      rw [List.map_append, List.idxOf_append_of_notMem]
      · simp [hbq]
      · intro h
        obtain ⟨x, hx, h⟩ := List.mem_map.1 h
        exact hAq x hx h
    rw [hidx, List.drop_left]
    exact takeWhile_all (fun x hx => by simpa using hBq x hx) (fun x hx => by simpa using hCq x hx)

end pointer

/-! ### Entries after the restriction -/

section cut
variable {Q K V : Type} [DecidableEq Q] [Zero Q]

/-- The kept labels with the kept positions. -/
def keptGroups (keep : Q × Nat → Bool) (m : BondInfo Q) : List (Q × List Nat) :=
  m.filterMap fun x => if keptAt keep x.1 x.2 = [] then none else some (x.1, keptAt keep x.1 x.2)

theorem mem_keptGroups {keep : Q × Nat → Bool} {m : BondInfo Q} {q : Q} {g : List Nat} :
    (q, g) ∈ keptGroups keep m ↔ ∃ n, (q, n) ∈ m ∧ g = keptAt keep q n ∧ g ≠ [] := by
  unfold keptGroups
  rw [List.mem_filterMap]
  constructor
  · rintro ⟨⟨q', n⟩, h, e⟩
    split at e
    · cases e
    · rename_i hne
      simp at e
      obtain ⟨rfl, rfl⟩ := e
      exact ⟨n, h, rfl, hne⟩
  · rintro ⟨n, h, rfl, hne⟩
    exact ⟨(q, n), h, by simp [hne]⟩

theorem keptGroups_keys (keep : Q × Nat → Bool) (m : BondInfo Q) : ((keptGroups keep m).map Prod.fst).Sublist (m.map Prod.fst) := by
  unfold keptGroups
  induction m with
  | nil => simp
  | cons x m ih =>
    rw [List.filterMap_cons]
    by_cases h : keptAt keep x.1 x.2 = []
    · simp only [h, if_true, List.map_cons]
      exact ih.cons _
    · simp only [h, if_false, List.map_cons]
      exact ih.cons_cons _

theorem keptBond_groups (keep : Q × Nat → Bool) (m : BondInfo Q) : keptBond keep m = (keptGroups keep m).map fun g => (g.1, g.2.length) := by
  unfold keptBond keptGroups
  rw [List.map_filterMap]
  congr 1
  funext x
  by_cases h : keptAt keep x.1 x.2 = [] <;> simp [h]

theorem keptBond_good {keep : Q × Nat → Bool} {m : BondInfo Q} (h : GoodBond m) : GoodBond (keptBond keep m) := by
  refine ⟨?_, ?_⟩
  · unfold Dict.WF
    rw [keptBond_groups, List.map_map]
    exact h.1.sublist (keptGroups_keys keep m)
  · intro x hx
    rw [keptBond_groups] at hx
    obtain ⟨⟨q, g⟩, hg, rfl⟩ := List.mem_map.1 hx
    obtain ⟨n, _, _, hne⟩ := mem_keptGroups.1 hg
    exact List.length_pos_iff.2 hne

theorem keptBond_get {keep : Q × Nat → Bool} {m : BondInfo Q} (hm : GoodBond m) {q : Q} {g : List Nat} (h : (q, g) ∈ keptGroups keep m) :
    Dict.get? (keptBond keep m) q = some g.length := by
  apply Dict.get?_of_mem (keptBond_good hm).1
  rw [keptBond_groups]
  exact List.mem_map.2 ⟨(q, g), h, rfl⟩

/-- `a[..., gl]` or `a[gl, ...]`. -/
def pickSide (s : Bool) (gl : List Nat) (a : Arr K) : Arr K := if s then a.pickLast gl else a.pickFirst gl

theorem pickSide_shape {s : Bool} {gl : List Nat} {a : Arr K} {sl : List Nat} {n : Nat} (h : a.shape = join s sl n) :
    (pickSide s gl a).shape = join s sl gl.length := by
  cases s
  · simp [pickSide, Arr.pickFirst, h, join]
  · simp [pickSide, Arr.pickLast, h, join]

theorem pickSide_get (s : Bool) (gl : List Nat) (a : Arr K) (ix : List Nat) (t : Nat) :
    (pickSide s gl a).get (join s ix t) = a.get (join s ix (gl.getD t 0)) := by
  cases s
  · simp [pickSide, Arr.pickFirst, join]
  · simp [pickSide, Arr.pickLast, join]

/-- The blocks with a kept label, restricted to the kept positions. -/
def cutTo (s : Bool) (keep : Q × Nat → Bool) (m : BondInfo Q) (T : SpT Q K) : SpT Q K :=
  (keptGroups keep m).flatMap fun g => (T.filter fun b => decide (keyOf s b = g.1)).map fun b => (b.1, pickSide s g.2 b.2)

theorem cutTo_conforms {s : Bool} {keep : Q × Nat → Bool} {m : BondInfo Q} (hm : GoodBond m) {legs : List (BondInfo Q)} {T : SpT Q K}
    (hT : Conforms (join s legs m) T) : Conforms (join s legs (keptBond keep m)) (cutTo s keep m T) := by
  intro b hb
  obtain ⟨⟨q, g⟩, hg, hb⟩ := List.mem_flatMap.1 hb
  obtain ⟨c, hc, rfl⟩ := List.mem_map.1 hb
  obtain ⟨hc1, hc2⟩ := List.mem_filter.1 hc
  obtain ⟨ql, q', sl, n, h1, h2, h3, h4⟩ := (isCombination_join s).1 (hT c hc1)
  have e : q' = q := by
    have : c = (join s ql q', c.2) := by rw [← h1]
    rw [this, keyOf_join] at hc2
    simpa using hc2
  subst e
  exact (isCombination_join s).2 ⟨ql, q', sl, g.length, h1, pickSide_shape h2, h3, keptBond_get hm hg⟩

theorem cutTo_labels {s : Bool} {keep : Q × Nat → Bool} {m : BondInfo Q} {T : SpT Q K} {b : List Q × Arr K} (h : b ∈ cutTo s keep m T) :
    b.1 ∈ T.map Prod.fst := by
  obtain ⟨g, hg, hb⟩ := List.mem_flatMap.1 h
  obtain ⟨c, hc, rfl⟩ := List.mem_map.1 hb
  exact List.mem_map.2 ⟨c, (List.mem_filter.1 hc).1, rfl⟩

theorem cutTo_entry [AddCommMonoid K] {s : Bool} {keep : Q × Nat → Bool} {m : BondInfo Q} (hm : GoodBond m) {legs : List (BondInfo Q)} {T : SpT Q K}
    (hT : Conforms (join s legs m) T) (x : List (Q × Nat)) (hx : x.length = legs.length) (z : Q × Nat) (hz : z ∈ legBasis (keptBond keep m)) :
    entry (cutTo s keep m T) (join s x z) = entry T (join s x (cameFrom keep m z)) := by
  obtain ⟨q, t⟩ := z
  obtain ⟨y, hy, hz⟩ := List.mem_flatMap.1 hz
  rw [keptBond_groups] at hy
  obtain ⟨⟨q', g⟩, hg, rfl⟩ := List.mem_map.1 hy
  obtain ⟨t', ht, e⟩ := List.mem_map.1 hz
  simp at e
  obtain ⟨rfl, rfl⟩ := e
  obtain ⟨n, hn, hgn, hne⟩ := mem_keptGroups.1 hg
  have hget : Dict.get? m q' = some n := Dict.get?_of_mem hm.1 hn
  have hcount : Counter.count m q' = n := by
    simp [Counter.count, hget]
  have ht' : t' < g.length := by simpa using ht
  have hcf : cameFrom keep m (q', t') = (q', g.getD t' 0) := by
    simp [cameFrom, hcount, hgn]
  have hlt : g.getD t' 0 < n := by
    have : g.getD t' 0 ∈ g := by
      rw [List.getD_eq_getElem?_getD, List.getElem?_eq_getElem ht']
      simp
    have h' : g.getD t' 0 ∈ keptAt keep q' n := by rw [← hgn]; exact this
    simpa using (List.mem_filter.1 h').1
  rw [hcf]
  unfold entry cutTo
  rw [sum_flatMap']
  have hwf : Dict.WF (keptGroups keep m) := hm.1.sublist (keptGroups_keys keep m)
  have hother : ∀ c ∈ T, ∀ (a : Arr K), keyOf s c ≠ q' → (∃ sl k, a.shape = join s sl k ∧ ∃ ql, IsCombination legs ql sl ∧ c.1 = join s ql (keyOf s c)) → ∀ y,
      blockEntry (c.1, a) (join s x (q', y)) = 0 := by
    rintro c hc a hq ⟨sl, k, h2, ql, h3, h1⟩ y
    rw [h1, blockEntry_join h3 h2 x hx, if_neg]
    rintro ⟨_, h, _⟩
    exact hq h
  have hblk : ∀ c ∈ T, ∃ ql sl k, c.1 = join s ql (keyOf s c) ∧ c.2.shape = join s sl k ∧ IsCombination legs ql sl ∧ Dict.get? m (keyOf s c) = some k := by
    intro c hc
    obtain ⟨ql, q2, sl, k, h1, h2, h3, h4⟩ := (isCombination_join s).1 (hT c hc)
    have : c = (join s ql q2, c.2) := by rw [← h1]
    have e : keyOf s c = q2 := by rw [this, keyOf_join]
    rw [e]
    exact ⟨ql, sl, k, h1, h2, h3, h4⟩
  have hone := sum_dictC hwf q' (fun g' => (((T.filter fun b => decide (keyOf s b = g'.1)).map fun b => ((b.1, pickSide s g'.2 b.2) : List Q × Arr K)).map fun b =>
    blockEntry b (join s x (q', t'))).sum) (by
      intro g' _ hne'
      simp only [List.map_map]
      apply sum_map_zero'
      intro c hc
      obtain ⟨hc1, hc2⟩ := List.mem_filter.1 hc
      obtain ⟨ql, sl, k, h1, h2, h3, h4⟩ := hblk c hc1
      have hk : keyOf s c = g'.1 := by simpa using hc2
      exact hother c hc1 _ (by rw [hk]; exact hne') ⟨sl, _, pickSide_shape h2, ql, h3, h1⟩ t')
  rw [Dict.get?_of_mem hwf hg] at hone
  refine hone.trans ?_
  show (((T.filter fun b => decide (keyOf s b = q')).map fun b => ((b.1, pickSide s g b.2) : List Q × Arr K)).map fun b => blockEntry b (join s x (q', t'))).sum = _
  rw [List.map_map, sum_filter']
  apply sum_map_congr'
  intro c hc
  obtain ⟨ql, sl, k, h1, h2, h3, h4⟩ := hblk c hc
  by_cases hk : keyOf s c = q'
  · simp only [hk, decide_true, if_true, Function.comp]
    rw [hk] at h1 h4
    rw [hget] at h4
    cases h4
    have hc' : c = (join s ql q', c.2) := by rw [← h1]
    rw [h1, blockEntry_join h3 (pickSide_shape h2) x hx]
    conv_rhs => rw [hc', blockEntry_join h3 h2 x hx]
    rw [pickSide_get]
    simp only [ht', hlt]
  · simp only [hk, decide_false, Bool.false_eq_true, if_false]
    have := hother c hc c.2 hk ⟨sl, k, h2, ql, h3, h1⟩ (g.getD t' 0)
    exact this.symm

theorem deflate_entry [AddCommMonoid K] {big : Arr K → Bool} (h : RemovesZeros big) (T : SpT Q K) (x : List (Q × Nat)) :
    entry (SpT.deflate big T) x = entry T x := by
  unfold entry SpT.deflate
  rw [sum_filter']
  apply sum_map_congr'
  intro b _
  cases hb : big b.2 with
  | true => rfl
  | false =>
    simp only [Bool.false_eq_true, if_false]
    unfold blockEntry
    split
    · rename_i hc
      exact (h _ _ hc.2 hb).symm
    · rfl

theorem deflate_conforms {big : Arr K → Bool} {legs : List (BondInfo Q)} {T : SpT Q K} (h : Conforms legs T) : Conforms legs (SpT.deflate big T) :=
  fun b hb => h b (List.mem_filter.1 hb).1

/-! ### Sums over the kept basis vectors -/

theorem getD_range_filter (g : List Nat) (n : Nat) (p : Nat → Bool) (hg : g = (List.range n).filter p) {M : Type} [AddCommMonoid M] (f : Nat → M) :
    ((List.range g.length).map fun t => f (g.getD t 0)).sum = ((List.range n).map fun j => if p j then f j else 0).sum := by
  rw [← sum_filter', ← hg]
  congr 1
  apply List.ext_getElem
  · simp
  · intro i h1 h2
    simp at h1
    simp [h1]

/-- Summing over the new bond is summing over the kept basis vectors of the old one. -/
theorem kept_sum {M : Type} [AddCommMonoid M] {keep : Q × Nat → Bool} {m : BondInfo Q} (hm : GoodBond m) (f : Q × Nat → M) :
    ((legBasis (keptBond keep m)).map fun z => f (cameFrom keep m z)).sum = (((legBasis m).filter keep).map f).sum := by
  rw [sum_filter']
  unfold legBasis
  rw [sum_flatMap', sum_flatMap', keptBond_groups, List.map_map]
  unfold keptGroups
  have : ∀ (m' : BondInfo Q), (∀ x ∈ m', x ∈ m) →
      ((m'.filterMap fun x => if keptAt keep x.1 x.2 = [] then none else some (x.1, keptAt keep x.1 x.2)).map
        ((fun a => (((List.range a.2).map fun i => (a.1, i)).map fun z => f (cameFrom keep m z)).sum) ∘ fun g => (g.1, g.2.length))).sum =
      (m'.map fun a => (((List.range a.2).map fun i => (a.1, i)).map fun x => if keep x = true then f x else 0).sum).sum := by
    intro m' hm'
    induction m' with
    | nil => rfl
    | cons x m' ih =>
      have ih := ih (fun y hy => hm' y (by simp [hy]))
      have hx := hm' x (by simp)
      obtain ⟨q, n⟩ := x
      have hcount : Counter.count m q = n := by
        simp [Counter.count, Dict.get?_of_mem hm.1 hx]
      have key : ((List.range (keptAt keep q n).length).map fun t => f (cameFrom keep m (q, t))).sum =
          ((List.range n).map fun j => if keep (q, j) = true then f (q, j) else 0).sum := by
        have := getD_range_filter (keptAt keep q n) n (fun j => keep (q, j)) rfl (fun j => f (q, j))
        simpa [cameFrom, hcount] using this
      rw [List.filterMap_cons, List.map_cons, List.sum_cons, ← ih]
      simp only [List.map_map]
      by_cases h : keptAt keep q n = []
      · simp only [h, if_true]
        rw [h] at key
        have key' : ((List.range n).map ((fun x => if keep x = true then f x else 0) ∘ fun i => (q, i))).sum = 0 := by
          exact key.symm.trans (by simp)
        rw [key', zero_add]
      · simp only [h, if_false, List.map_cons, List.sum_cons]
        simp only [Function.comp, List.map_map]
        congr 1
  exact this m (fun x hx => hx)

end cut
end Verif
