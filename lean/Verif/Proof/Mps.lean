import Verif.Spec.Mps
import Verif.Proof.Sparse
import Verif.Thm.BondInfo
import Mathlib.Tactic.Common
import Mathlib.Algebra.BigOperators.Group.Finset.Basic

/-! Lemmas for matrix product states. -/

set_option linter.unusedSectionVars false

namespace Verif
section
variable {Q K : Type} [DecidableEq Q]

theorem getD_last {α : Type} (a : α) (p : List α) (j d : α) : (a :: p ++ [j]).getD (p.length + 1) d = j := by
  simp [List.getD_eq_getElem?_getD]

theorem set_last {α : Type} (a : α) (p : List α) (j c : α) : (a :: p ++ [j]).set (p.length + 1) c = a :: p ++ [c] := by
  simp

theorem length_ends {α : Type} (a : α) (p : List α) (j : α) : (a :: p ++ [j]).length = p.length + 2 := by simp

/-- Blocks of a site tensor: first, middle and last leg. -/
theorem IsCombination.ends {l r : BondInfo Q} {ph : List (BondInfo Q)} {qs : List Q} {sh : List Nat}
    (h : IsCombination (l :: ph ++ [r]) qs sh) :
    ∃ ql q qr sl s sr, qs = ql :: q ++ [qr] ∧ sh = sl :: s ++ [sr] ∧ Dict.get? l ql = some sl ∧ IsCombination ph q s ∧
      Dict.get? r qr = some sr := by
  cases h with
  | cons h1 h2 =>
    rename_i ql q' sl s'
    have key : ∀ (ph : List (BondInfo Q)) (q' : List Q) (s' : List Nat), IsCombination (ph ++ [r]) q' s' →
        ∃ q qr s sr, q' = q ++ [qr] ∧ s' = s ++ [sr] ∧ IsCombination ph q s ∧ Dict.get? r qr = some sr := by
      intro ph
      induction ph with
      | nil =>
        intro q' s' h
        cases h with
        | cons h3 h4 =>
          cases h4
          exact ⟨[], _, [], _, rfl, rfl, .nil, h3⟩
      | cons b ph ih =>
        intro q' s' h
        cases h with
        | cons h3 h4 =>
          obtain ⟨q, qr, s, sr, rfl, rfl, h5, h6⟩ := ih _ _ h4
          exact ⟨_ :: q, qr, _ :: s, sr, rfl, rfl, .cons h3 h5, h6⟩
    obtain ⟨q, qr, s, sr, rfl, rfl, h5, h6⟩ := key ph _ _ h2
    exact ⟨ql, q, qr, sl, s, sr, rfl, rfl, h1, h5, h6⟩

theorem IsCombination.ofEnds {l r : BondInfo Q} {ph : List (BondInfo Q)} {ql qr : Q} {q : List Q} {sl sr : Nat} {s : List Nat}
    (h1 : Dict.get? l ql = some sl) (h2 : IsCombination ph q s) (h3 : Dict.get? r qr = some sr) :
    IsCombination (l :: ph ++ [r]) (ql :: q ++ [qr]) (sl :: s ++ [sr]) := by
  refine .cons h1 ?_
  exact IsCombination.append h2 (.cons h3 .nil)

theorem corner_get [Zero K] (full : List Nat) (k0 k1 sl sr : Nat) (s p : List Nat) (g : List Nat → K) (i j : Nat) :
    (SpT.corner full k0 k1 ⟨sl :: s ++ [sr], g⟩).get (i :: p ++ [j]) =
      if k0 ≤ i ∧ i < k0 + sl ∧ k1 ≤ j ∧ j < k1 + sr then g ((i - k0) :: p ++ [j - k1]) else 0 := by
  have h1 : (i :: p ++ [j]).length - 1 = p.length + 1 := by rw [length_ends]; omega
  have h2 : (sl :: s ++ [sr]).length - 1 = s.length + 1 := by rw [length_ends]; omega
  unfold SpT.corner
  simp only [h1, h2, getD_last]
  have h3 : (i :: p ++ [j]).set 0 (i - k0) = (i - k0) :: p ++ [j] := rfl
  have h4 : (i :: p ++ [j]).getD 0 0 = i := rfl
  have h5 : (sl :: s ++ [sr]).getD 0 0 = sl := rfl
  simp only [h3, h4, h5, set_last]

theorem corner_shape [Zero K] (full : List Nat) (k0 k1 : Nat) (b : Arr K) : (SpT.corner full k0 k1 b).shape = full := rfl

/-- The block `b` moved to the low or high end of its first and last leg, in the new dimensions. -/
def padded [Zero Q] [Zero K] (high : Bool) (L R : BondInfo Q) (b : List Q × Arr K) : List Q × Arr K :=
  let n0 := Counter.count L (b.1.getD 0 0)
  let n1 := Counter.count R (b.1.getD (b.1.length - 1) 0)
  (b.1, SpT.corner ((b.2.shape.set 0 n0).set (b.2.shape.length - 1) n1)
    (if high then SpT.fromEnd n0 (b.2.shape.getD 0 0) else 0)
    (if high then SpT.fromEnd n1 (b.2.shape.getD (b.2.shape.length - 1) 0) else 0) b.2)

variable [Zero Q]

theorem padded_eq [Zero K] (high : Bool) (L R : BondInfo Q) (ql qr : Q) (q : List Q) (sl sr : Nat) (s : List Nat) (g : List Nat → K) :
    padded high L R (ql :: q ++ [qr], ⟨sl :: s ++ [sr], g⟩) =
      (ql :: q ++ [qr], SpT.corner (Counter.count L ql :: s ++ [Counter.count R qr])
        (if high then SpT.fromEnd (Counter.count L ql) sl else 0) (if high then SpT.fromEnd (Counter.count R qr) sr else 0)
        ⟨sl :: s ++ [sr], g⟩) := by
  have h1 : (ql :: q ++ [qr]).length - 1 = q.length + 1 := by rw [length_ends]; omega
  have h2 : (sl :: s ++ [sr]).length - 1 = s.length + 1 := by rw [length_ends]; omega
  unfold padded
  simp only [h1, h2, getD_last]
  have h3 : ∀ c, (sl :: s ++ [sr]).set 0 c = c :: s ++ [sr] := fun _ => rfl
  have h4 : (sl :: s ++ [sr]).getD 0 0 = sl := rfl
  have h5 : (ql :: q ++ [qr]).getD 0 0 = ql := rfl
  rw [h3, h4, h5, set_last]

theorem get_of_count {b : BondInfo Q} {q : Q} (h : 0 < Counter.count b q) : Dict.get? b q = some (Counter.count b q) := by
  rcases hg : Dict.get? b q with _ | v
  · rw [Counter.count, hg] at h
    exact absurd h (Nat.lt_irrefl 0)
  · rw [Counter.count, hg]
    rfl

theorem count_of_get {b : BondInfo Q} {q : Q} {s : Nat} (h : Dict.get? b q = some s) : Counter.count b q = s := by
  rw [Counter.count, h]; rfl

/-- What the two outer legs of `A`, `B` and of the sum have to satisfy. -/
structure Fits (l l' L : BondInfo Q) : Prop where
  low : ∀ q, Counter.count l q ≤ Counter.count L q
  high : ∀ q, Counter.count l' q ≤ Counter.count L q
  pos : ∀ x ∈ l, 0 < x.2
  pos' : ∀ x ∈ l', 0 < x.2

theorem Fits.get {l l' L : BondInfo Q} (h : Fits l l' L) {q : Q} {s : Nat} (hq : Dict.get? l q = some s) :
    Dict.get? L q = some (Counter.count L q) ∧ 0 < s ∧ s ≤ Counter.count L q := by
  have h1 := h.pos _ (Dict.mem_of_get? hq)
  have h2 := h.low q
  rw [count_of_get hq] at h2
  exact ⟨get_of_count (Nat.lt_of_lt_of_le h1 h2), h1, h2⟩

theorem Fits.get' {l l' L : BondInfo Q} (h : Fits l l' L) {q : Q} {s : Nat} (hq : Dict.get? l' q = some s) :
    Dict.get? L q = some (Counter.count L q) ∧ 0 < s ∧ s ≤ Counter.count L q := by
  have h1 := h.pos' _ (Dict.mem_of_get? hq)
  have h2 := h.high q
  rw [count_of_get hq] at h2
  exact ⟨get_of_count (Nat.lt_of_lt_of_le h1 h2), h1, h2⟩

variable [AddCommMonoid K]

theorem padded_conforms (high : Bool) {l r L R : BondInfo Q} {ph : List (BondInfo Q)} {T : SpT Q K} (hT : Conforms (l :: ph ++ [r]) T)
    (hL : ∀ q s, Dict.get? l q = some s → Dict.get? L q = some (Counter.count L q))
    (hR : ∀ q s, Dict.get? r q = some s → Dict.get? R q = some (Counter.count R q)) :
    Conforms (L :: ph ++ [R]) (T.map (padded high L R)) := by
  intro b hb
  obtain ⟨⟨qs, arr⟩, hb0, rfl⟩ := List.mem_map.1 hb
  obtain ⟨ql, q, qr, sl, s, sr, h1, h2, h3, h4, h5⟩ := (hT _ hb0).ends
  obtain ⟨sh, g⟩ := arr
  simp only at h1 h2
  subst h1; subst h2
  rw [padded_eq]
  exact IsCombination.ofEnds (hL ql sl h3) h4 (hR qr sr h5)

theorem kronAlloc_fold {L R : BondInfo Q} {ph : List (BondInfo Q)} (l : SpT Q K) (hl : Conforms (L :: ph ++ [R]) (l.map (padded false L R)))
    (m : SpT Q K) (hm : Conforms (L :: ph ++ [R]) m) (hu : UniqueLabels m) (hz : ∀ x, entry m x = 0) :
    Conforms (L :: ph ++ [R]) (l.foldl (SpT.kronAlloc L R) m) ∧ UniqueLabels (l.foldl (SpT.kronAlloc L R) m) ∧
      (∀ x, entry (l.foldl (SpT.kronAlloc L R) m) x = 0) ∧
      (∀ q, Dict.has m q = true → Dict.has (l.foldl (SpT.kronAlloc L R) m) q = true) ∧
      ∀ b ∈ l, Dict.has (l.foldl (SpT.kronAlloc L R) m) b.1 = true := by
  induction l generalizing m with
  | nil => exact ⟨hm, hu, hz, fun _ h => h, by simp⟩
  | cons b l ih =>
    rw [List.map_cons, Conforms.cons] at hl
    have hstep : Conforms (L :: ph ++ [R]) (SpT.kronAlloc L R m b) ∧ UniqueLabels (SpT.kronAlloc L R m b) ∧
        (∀ x, entry (SpT.kronAlloc L R m b) x = 0) ∧ (∀ q, Dict.has m q = true → Dict.has (SpT.kronAlloc L R m b) q = true) ∧
        Dict.has (SpT.kronAlloc L R m b) b.1 = true := by
      rw [SpT.kronAlloc]
      by_cases h : Dict.has m b.1 = true
      · rw [if_pos h]; exact ⟨hm, hu, hz, fun _ h => h, h⟩
      · rw [if_neg h]
        refine ⟨hm.set hl.1, Dict.WF.set hu _ _, ?_, ?_, ?_⟩
        · intro x
          have hnone : Dict.get? m b.1 = none := by
            rcases hg : Dict.get? m b.1 with _ | v
            · rfl
            · exact absurd (by rw [Dict.has, hg]; rfl) h
          rw [entry_set _ _ _ _ hnone, hz, zero_add, blockEntry]
          split <;> rfl
        · intro q hq
          rw [Dict.has, Dict.get?_set]
          split
          · rfl
          · exact hq
        · rw [Dict.has, Dict.get?_set, if_pos rfl]; rfl
    obtain ⟨s1, s2, s3, s4, s5⟩ := hstep
    obtain ⟨r1, r2, r3, r4, r5⟩ := ih hl.2 _ s1 s2 s3
    refine ⟨r1, r2, r3, fun q hq => r4 q (s4 q hq), ?_⟩
    intro c hc
    rcases List.mem_cons.1 hc with rfl | hc
    · exact r4 _ s5
    · exact r5 c hc

theorem kronPlace_eq (high : Bool) {l r L R : BondInfo Q} {ph : List (BondInfo Q)} {m : SpT Q K} (hm : Conforms (L :: ph ++ [R]) m)
    {b : List Q × Arr K} (hb0 : IsCombination (l :: ph ++ [r]) b.1 b.2.shape)
    (hb : IsCombination (L :: ph ++ [R]) (padded high L R b).1 (padded high L R b).2.shape)
    (hh : Dict.has m b.1 = true) :
    SpT.kronPlace high m b = SpT.accumulate m (padded high L R b).1 (padded high L R b).2 := by
  rcases hg : Dict.get? m b.1 with _ | o
  · rw [Dict.has, hg] at hh; simp at hh
  · have hsh : o.shape = (padded high L R b).2.shape := IsCombination.shape_unique (hm.get hg) hb
    obtain ⟨qs, sh, g⟩ := b
    obtain ⟨ql, q, qr, sl, s, sr, h1, h2, -, -, -⟩ := hb0.ends
    simp only at h1 h2
    subst h1; subst h2
    rw [padded_eq] at hsh ⊢
    have hsh' : o.shape = Counter.count L ql :: s ++ [Counter.count R qr] := hsh
    have e1 : (sl :: s ++ [sr]).length - 1 = s.length + 1 := by rw [length_ends]; omega
    have e2 : (Counter.count L ql :: s ++ [Counter.count R qr]).length - 1 = s.length + 1 := by rw [length_ends]; omega
    unfold SpT.kronPlace SpT.accumulate
    simp only at hg ⊢
    rw [hg]
    simp only [hsh', e1, e2, getD_last]
    rfl

theorem kronPlace_fold (high : Bool) {l r L R : BondInfo Q} {ph : List (BondInfo Q)} (T : SpT Q K) (hT : Conforms (l :: ph ++ [r]) T)
    (hT' : Conforms (L :: ph ++ [R]) (T.map (padded high L R))) (m : SpT Q K) (hm : Conforms (L :: ph ++ [R]) m)
    (hh : ∀ b ∈ T, Dict.has m b.1 = true) :
    T.foldl (SpT.kronPlace high) m = (T.map (padded high L R)).foldl (fun m b => SpT.accumulate m b.1 b.2) m := by
  induction T generalizing m with
  | nil => rfl
  | cons b T ih =>
    rw [Conforms.cons] at hT
    rw [List.map_cons, Conforms.cons] at hT'
    rw [List.foldl_cons, List.map_cons, List.foldl_cons,
      kronPlace_eq high hm hT.1 hT'.1 (hh b (List.mem_cons_self ..))]
    refine ih hT.2 hT'.2 _ (hm.accumulate hT'.1) ?_
    intro c hc
    have := hh c (List.mem_cons_of_mem _ hc)
    unfold SpT.accumulate
    split
    · rw [Dict.has, Dict.get?_set]; split
      · rfl
      · exact this
    · rw [Dict.has, Dict.get?_set]; split
      · rfl
      · exact this

theorem has_accumulate_fold (l m : SpT Q K) (q : List Q) (h : Dict.has m q = true) :
    Dict.has (l.foldl (fun m b => SpT.accumulate m b.1 b.2) m) q = true := by
  induction l generalizing m with
  | nil => exact h
  | cons b l ih =>
    refine ih _ ?_
    show Dict.has (SpT.accumulate m b.1 b.2) q = true
    unfold SpT.accumulate
    split <;>
    · rw [Dict.has, Dict.get?_set]; split
      · rfl
      · exact h

/-- `_kron_add`: legs, distinct labels and entries of the result. -/
theorem kronAdd_spec {l r l' r' L R : BondInfo Q} {ph : List (BondInfo Q)} {A B : SpT Q K} (hA : Conforms (l :: ph ++ [r]) A)
    (hB : Conforms (l' :: ph ++ [r']) B) (hL : Fits l l' L) (hR : Fits r r' R) :
    Conforms (L :: ph ++ [R]) (SpT.kronAdd A B L R) ∧ UniqueLabels (SpT.kronAdd A B L R) ∧
      ∀ x, entry (SpT.kronAdd A B L R) x = entry (A.map (padded false L R)) x + entry (B.map (padded true L R)) x := by
  have cA : ∀ h, Conforms (L :: ph ++ [R]) (A.map (padded h L R)) := fun h =>
    padded_conforms h hA (fun q s hq => (hL.get hq).1) fun q s hq => (hR.get hq).1
  have cB : ∀ h, Conforms (L :: ph ++ [R]) (B.map (padded h L R)) := fun h =>
    padded_conforms h hB (fun q s hq => (hL.get' hq).1) fun q s hq => (hR.get' hq).1
  obtain ⟨a1, a2, a3, -, a5⟩ := kronAlloc_fold (A ++ B) (by rw [List.map_append]; exact Conforms.append.2 ⟨cA _, cB _⟩) []
    (by simp [Conforms]) (by simp [UniqueLabels]) (fun _ => rfl)
  have e1 := kronPlace_fold false A hA (cA false) _ a1 fun b hb => a5 b (List.mem_append_left _ hb)
  obtain ⟨b1, b2, b3⟩ := foldl_accumulate _ _ a1 (cA false) a2
  have e2 := kronPlace_fold true B hB (cB true) _ b1 fun b hb => has_accumulate_fold _ _ _ (a5 b (List.mem_append_right _ hb))
  obtain ⟨c1, c2, c3⟩ := foldl_accumulate _ _ b1 (cB true) b2
  rw [SpT.kronAdd, e1, e2]
  refine ⟨c1, c2, fun x => ?_⟩
  rw [c3, b3, a3, zero_add]

theorem inBox_ends {sl i sr j : Nat} {s p : List Nat} :
    inBox (sl :: s ++ [sr]) (i :: p ++ [j]) = true ↔ i < sl ∧ inBox s p = true ∧ j < sr := by
  by_cases h : p.length = s.length
  · rw [List.cons_append, List.cons_append, inBox, inBox_append h]
    simp [inBox]
  · constructor
    · intro h'
      have := inBox_length h'
      simp at this
      exact absurd this h
    · rintro ⟨-, h', -⟩
      exact absurd (inBox_length h') h

theorem entry_low {l r L R : BondInfo Q} {ph : List (BondInfo Q)} {A : SpT Q K} (hA : Conforms (l :: ph ++ [r]) A)
    (hL : ∀ q, Counter.count l q ≤ Counter.count L q) (hR : ∀ q, Counter.count r q ≤ Counter.count R q)
    (x y : Q × Nat) (p : List (Q × Nat)) :
    entry (A.map (padded false L R)) (x :: p ++ [y]) = entry A (x :: p ++ [y]) := by
  unfold entry
  rw [List.map_map]
  refine sum_map_congr' _ _ _ fun b hb => ?_
  obtain ⟨qs, sh, g⟩ := b
  obtain ⟨ql, q, qr, sl, s, sr, h1, h2, h3, -, h5⟩ := (hA _ hb).ends
  simp only at h1 h2
  subst h1; subst h2
  have hl := hL ql
  have hr := hR qr
  rw [count_of_get h3] at hl
  rw [count_of_get h5] at hr
  show blockEntry (padded false L R _) _ = _
  rw [padded_eq]
  unfold blockEntry
  simp only [List.map_cons, List.map_append, List.map_nil, Bool.false_eq_true, if_false, corner_shape]
  have hc := corner_get (K := K) (Counter.count L ql :: s ++ [Counter.count R qr]) 0 0 sl sr s (p.map Prod.snd) g x.2 y.2
  by_cases hq : ql :: q ++ [qr] = x.1 :: p.map Prod.fst ++ [y.1]
  · by_cases hbox : inBox (sl :: s ++ [sr]) (x.2 :: p.map Prod.snd ++ [y.2]) = true
    · have hP : ql :: q ++ [qr] = x.1 :: p.map Prod.fst ++ [y.1] ∧ inBox (sl :: s ++ [sr]) (x.2 :: p.map Prod.snd ++ [y.2]) = true :=
        ⟨hq, hbox⟩
      rw [if_pos hP]
      obtain ⟨g1, g2, g3⟩ := inBox_ends.1 hbox
      rw [if_pos ⟨hq, inBox_ends.2 ⟨Nat.lt_of_lt_of_le g1 hl, g2, Nat.lt_of_lt_of_le g3 hr⟩⟩]
      refine hc.trans ?_
      rw [if_pos (by omega)]
      rfl
    · have hP : ¬ (ql :: q ++ [qr] = x.1 :: p.map Prod.fst ++ [y.1] ∧ inBox (sl :: s ++ [sr]) (x.2 :: p.map Prod.snd ++ [y.2]) = true) :=
        fun h => hbox h.2
      rw [if_neg hP]
      refine ite_eq_right_iff.2 fun h => ?_
      refine hc.trans (ite_eq_right_iff.2 fun h' => ?_)
      exact absurd (inBox_ends.2 ⟨by omega, (inBox_ends.1 h.2).2.1, by omega⟩) hbox
  · rw [if_neg fun h => hq h.1, if_neg fun h => hq h.1]

theorem entry_high {l r L R : BondInfo Q} {ph : List (BondInfo Q)} {B : SpT Q K} (hB : Conforms (l :: ph ++ [r]) B)
    (hL : ∀ q, Counter.count l q ≤ Counter.count L q) (hR : ∀ q, Counter.count r q ≤ Counter.count R q)
    (hl : ∀ x ∈ l, 0 < x.2) (hr : ∀ x ∈ r, 0 < x.2) (x y : Q × Nat) (p : List (Q × Nat)) :
    entry (B.map (padded true L R)) (x :: p ++ [y]) =
      if Counter.count L x.1 - Counter.count l x.1 ≤ x.2 ∧ Counter.count R y.1 - Counter.count r y.1 ≤ y.2 then
        entry B ((x.1, x.2 - (Counter.count L x.1 - Counter.count l x.1)) :: p ++ [(y.1, y.2 - (Counter.count R y.1 - Counter.count r y.1))])
      else 0 := by
  have key : ∀ b ∈ B, blockEntry (padded true L R b) (x :: p ++ [y]) =
      if Counter.count L x.1 - Counter.count l x.1 ≤ x.2 ∧ Counter.count R y.1 - Counter.count r y.1 ≤ y.2 then
        blockEntry b ((x.1, x.2 - (Counter.count L x.1 - Counter.count l x.1)) :: p ++ [(y.1, y.2 - (Counter.count R y.1 - Counter.count r y.1))])
      else 0 := by
    intro b hb
    obtain ⟨qs, sh, g⟩ := b
    obtain ⟨ql, q, qr, sl, s, sr, h1, h2, h3, -, h5⟩ := (hB _ hb).ends
    simp only at h1 h2
    subst h1; subst h2
    have hl' := hl _ (Dict.mem_of_get? h3)
    have hr' := hr _ (Dict.mem_of_get? h5)
    have hl2 := hL ql
    have hr2 := hR qr
    rw [count_of_get h3] at hl2
    rw [count_of_get h5] at hr2
    simp only at hl' hr'
    rw [padded_eq]
    unfold blockEntry
    simp only [List.map_cons, List.map_append, List.map_nil, if_true, corner_shape]
    have hc := corner_get (K := K) (Counter.count L ql :: s ++ [Counter.count R qr]) (SpT.fromEnd (Counter.count L ql) sl)
      (SpT.fromEnd (Counter.count R qr) sr) sl sr s (p.map Prod.snd) g x.2 y.2
    have f1 : SpT.fromEnd (Counter.count L ql) sl = Counter.count L ql - sl := if_neg (by omega)
    have f2 : SpT.fromEnd (Counter.count R qr) sr = Counter.count R qr - sr := if_neg (by omega)
    by_cases hq : ql :: q ++ [qr] = x.1 :: p.map Prod.fst ++ [y.1]
    · have hx : x.1 = ql := by
        rw [List.cons_append, List.cons_append] at hq
        exact (List.cons.inj hq).1.symm
      have hy : y.1 = qr := by
        rw [List.cons_append, List.cons_append] at hq
        exact (List.append_inj_right' (List.cons.inj hq).2 rfl |> List.cons.inj).1.symm
      rw [hx, hy] at hq ⊢
      rw [count_of_get h3, count_of_get h5]
      by_cases hoff : Counter.count L ql - sl ≤ x.2 ∧ Counter.count R qr - sr ≤ y.2
      · rw [if_pos hoff]
        by_cases hbox : inBox (sl :: s ++ [sr]) ((x.2 - (Counter.count L ql - sl)) :: p.map Prod.snd ++ [y.2 - (Counter.count R qr - sr)]) = true
        · have hP : ql :: q ++ [qr] = ql :: p.map Prod.fst ++ [qr] ∧ inBox (sl :: s ++ [sr])
              ((x.2 - (Counter.count L ql - sl)) :: p.map Prod.snd ++ [y.2 - (Counter.count R qr - sr)]) = true := ⟨hq, hbox⟩
          rw [if_pos hP]
          obtain ⟨g1, g2, g3⟩ := inBox_ends.1 hbox
          rw [if_pos ⟨hq, inBox_ends.2 ⟨by omega, g2, by omega⟩⟩]
          refine hc.trans ?_
          rw [f1, f2, if_pos (by omega)]
        · have hP : ¬ (ql :: q ++ [qr] = ql :: p.map Prod.fst ++ [qr] ∧ inBox (sl :: s ++ [sr])
              ((x.2 - (Counter.count L ql - sl)) :: p.map Prod.snd ++ [y.2 - (Counter.count R qr - sr)]) = true) := fun h => hbox h.2
          rw [if_neg hP]
          refine ite_eq_right_iff.2 fun h => ?_
          refine hc.trans (ite_eq_right_iff.2 fun h' => ?_)
          rw [f1, f2] at h'
          exact absurd (inBox_ends.2 ⟨by omega, (inBox_ends.1 h.2).2.1, by omega⟩) hbox
      · rw [if_neg hoff]
        refine ite_eq_right_iff.2 fun h => ?_
        refine hc.trans (ite_eq_right_iff.2 fun h' => ?_)
        rw [f1, f2] at h'
        exact absurd ⟨h'.1, h'.2.2.1⟩ hoff
    · have hP : ∀ P, ¬ (ql :: q ++ [qr] = x.1 :: p.map Prod.fst ++ [y.1] ∧ P) := fun P h => hq h.1
      rw [if_neg (hP _), if_neg (hP _), ite_self]
  unfold entry
  rw [List.map_map]
  refine (sum_map_congr' B _ _ key).trans ?_
  split
  · rfl
  · exact sum_map_zero' _ _ fun _ _ => rfl


/-! Sums over the basis of a bond. -/

theorem mem_legBasis {b : BondInfo Q} (hb : Dict.WF b) {z : Q × Nat} : z ∈ legBasis b ↔ z.2 < Counter.count b z.1 := by
  unfold legBasis
  rw [List.mem_flatMap]
  constructor
  · rintro ⟨p, hp, hz⟩
    obtain ⟨i, hi, rfl⟩ := List.mem_map.1 hz
    rw [Counter.count_of_mem hb hp]
    exact List.mem_range.1 hi
  · intro h
    exact ⟨(z.1, Counter.count b z.1), Dict.mem_of_get? (get_of_count (by omega)), List.mem_map.2 ⟨z.2, List.mem_range.2 h, rfl⟩⟩

theorem sum_legBasis {b : BondInfo Q} (hb : Dict.WF b) (f : Q × Nat → K) :
    ((legBasis b).map f).sum = ∑ z ∈ (legBasis b).toFinset, f z :=
  (List.sum_toFinset f (legBasis_nodup hb)).symm

/-- Two bonds that both contain the support. -/
theorem sum_legBasis_eq {b b' : BondInfo Q} (hb : Dict.WF b) (hb' : Dict.WF b') (f : Q × Nat → K)
    (h : ∀ z, f z ≠ 0 → z.2 < Counter.count b z.1 ∧ z.2 < Counter.count b' z.1) :
    ((legBasis b).map f).sum = ((legBasis b').map f).sum := by
  rw [sum_legBasis hb, sum_legBasis hb']
  have e1 := Finset.sum_subset (s₁ := (legBasis b).toFinset) (f := f) (Finset.subset_union_left (s₂ := (legBasis b').toFinset))
    fun z _ hz => by
      by_contra hf
      exact hz (List.mem_toFinset.2 ((mem_legBasis hb).2 (h z hf).1))
  have e2 := Finset.sum_subset (s₁ := (legBasis b').toFinset) (f := f) (Finset.subset_union_right (s₁ := (legBasis b).toFinset))
    fun z _ hz => by
      by_contra hf
      exact hz (List.mem_toFinset.2 ((mem_legBasis hb').2 (h z hf).2))
  rw [e1, e2]

/-- The basis of a bond whose dimensions are sums. -/
theorem sum_legBasis_add {X Y N : BondInfo Q} (hX : Dict.WF X) (hY : Dict.WF Y) (hN : Dict.WF N)
    (hc : ∀ q, Counter.count N q = Counter.count X q + Counter.count Y q) (f : Q × Nat → K) :
    ((legBasis N).map f).sum =
      ((legBasis X).map f).sum + ((legBasis Y).map fun z => f (z.1, z.2 + Counter.count X z.1)).sum := by
  rw [sum_legBasis hN, sum_legBasis hX, sum_legBasis hY]
  have hinj : Set.InjOn (fun z : Q × Nat => (z.1, z.2 + Counter.count X z.1)) ((legBasis Y).toFinset : Set (Q × Nat)) := by
    intro z _ w _ hzw
    have h1 : z.1 = w.1 := (Prod.mk.inj hzw).1
    have h2 : z.2 + Counter.count X z.1 = w.2 + Counter.count X w.1 := (Prod.mk.inj hzw).2
    rw [h1] at h2
    exact Prod.ext h1 (by omega)
  rw [← Finset.sum_image (f := f) hinj, ← Finset.sum_union]
  · refine Finset.sum_congr ?_ fun _ _ => rfl
    ext z
    rw [Finset.mem_union, Finset.mem_image, List.mem_toFinset, List.mem_toFinset, mem_legBasis hN, mem_legBasis hX, hc]
    constructor
    · intro h
      by_cases hz : z.2 < Counter.count X z.1
      · exact Or.inl hz
      · refine Or.inr ⟨(z.1, z.2 - Counter.count X z.1), ?_, ?_⟩
        · rw [List.mem_toFinset, mem_legBasis hY]
          show z.2 - Counter.count X z.1 < Counter.count Y z.1
          omega
        · exact Prod.ext rfl (show z.2 - Counter.count X z.1 + Counter.count X z.1 = z.2 by omega)
    · rintro (h | ⟨w, hw, rfl⟩)
      · omega
      · rw [List.mem_toFinset, mem_legBasis hY] at hw
        show w.2 + Counter.count X w.1 < Counter.count X w.1 + Counter.count Y w.1
        omega
  · rw [Finset.disjoint_left]
    intro z hz hz'
    obtain ⟨w, hw, rfl⟩ := Finset.mem_image.1 hz'
    rw [List.mem_toFinset, mem_legBasis hX] at hz
    have hz2 : w.2 + Counter.count X w.1 < Counter.count X w.1 := hz
    omega

theorem entry_ends_ne_zero {l r : BondInfo Q} {ph : List (BondInfo Q)} {T : SpT Q K} (hT : Conforms (l :: ph ++ [r]) T) {x y : Q × Nat}
    {p : List (Q × Nat)} (h : entry T (x :: p ++ [y]) ≠ 0) : x.2 < Counter.count l x.1 ∧ y.2 < Counter.count r y.1 := by
  by_contra hn
  refine h (sum_map_zero' _ _ fun b hb => ?_)
  obtain ⟨qs, sh, g⟩ := b
  obtain ⟨ql, q, qr, sl, s, sr, h1, h2, h3, -, h5⟩ := (hT _ hb).ends
  simp only at h1 h2
  subst h1; subst h2
  unfold blockEntry
  simp only [List.map_cons, List.map_append, List.map_nil]
  refine if_neg fun hc => hn ?_
  obtain ⟨hq, hbox⟩ := hc
  have hx : ql = x.1 := by
    rw [List.cons_append, List.cons_append] at hq
    exact (List.cons.inj hq).1
  have hy : qr = y.1 := by
    rw [List.cons_append, List.cons_append] at hq
    exact (List.append_inj_right' (List.cons.inj hq).2 rfl |> List.cons.inj).1
  obtain ⟨g1, -, g3⟩ := inBox_ends.1 hbox
  rw [← hx, ← hy, count_of_get h3, count_of_get h5]
  exact ⟨g1, g3⟩

end

section
variable {Q K : Type} [DecidableEq Q] [Zero Q] [Semiring K]

theorem ampl_cons (T : SpT Q K) (ts : List (SpT Q K)) (b : BondInfo Q) (bs : List (BondInfo Q)) (x : Q × Nat) (p : List (Q × Nat))
    (ps : List (List (Q × Nat))) (y : Q × Nat) :
    ampl (T :: ts) (b :: bs) x (p :: ps) y = ((legBasis b).map fun z => entry T (x :: p ++ [z]) * ampl ts bs z ps y).sum := by
  rw [ampl]

theorem ampl_noSites (ts : List (SpT Q K)) (bs : List (BondInfo Q)) (x y : Q × Nat) : ampl ts bs x [] y = 0 := by
  unfold ampl
  split <;> simp_all

theorem ampl_ne_zero {l E : BondInfo Q} {X : List (BondInfo Q)} {phys : List (List (BondInfo Q))} {ts : List (SpT Q K)}
    (h : OnBonds (l :: X ++ [E]) phys ts) {x y : Q × Nat} {ps : List (List (Q × Nat))} (hne : ampl ts X x ps y ≠ 0) :
    x.2 < Counter.count l x.1 := by
  rcases X with _ | ⟨b, X⟩
  · rcases phys with _ | ⟨ph, phys⟩
    · exact h.elim
    rcases ts with _ | ⟨T, ts⟩
    · exact h.elim
    rcases ps with _ | ⟨p, ps⟩
    · exact absurd (ampl_noSites _ _ _ _) hne
    unfold ampl at hne
    split at hne
    · rename_i h1 _ h3
      obtain ⟨rfl, rfl⟩ := List.cons.inj h1
      obtain ⟨rfl, rfl⟩ := List.cons.inj h3
      exact (entry_ends_ne_zero h.1 hne).1
    · simp_all
    · exact absurd rfl hne
  · rcases phys with _ | ⟨ph, phys⟩
    · exact h.elim
    rcases ts with _ | ⟨T, ts⟩
    · exact h.elim
    rcases ps with _ | ⟨p, ps⟩
    · exact absurd (ampl_noSites _ _ _ _) hne
    rw [ampl_cons] at hne
    by_contra hn
    refine hne (sum_map_zero' _ _ fun z _ => ?_)
    by_contra hz
    have : entry T (x :: p ++ [z]) ≠ 0 := fun h0 => hz (by rw [h0, zero_mul])
    exact hn (entry_ends_ne_zero h.1 this).1

/-- The amplitude does not depend on the bonds used for it. -/
theorem ampl_bonds {l l' E E' : BondInfo Q} {X X' : List (BondInfo Q)} {phys phys' : List (List (BondInfo Q))} {ts : List (SpT Q K)}
    (h : OnBonds (l :: X ++ [E]) phys ts) (h' : OnBonds (l' :: X' ++ [E']) phys' ts) (hX : ∀ b ∈ X, Dict.WF b) (hX' : ∀ b ∈ X', Dict.WF b)
    (x y : Q × Nat) (ps : List (List (Q × Nat))) : ampl ts X x ps y = ampl ts X' x ps y := by
  induction X generalizing l l' X' phys phys' ts x ps with
  | nil =>
    rcases phys with _ | ⟨ph, phys⟩
    · exact h.elim
    rcases ts with _ | ⟨T, ts⟩
    · exact h.elim
    have hts : phys = [] ∧ ts = [] := by
      have h2 := h.2
      rcases phys with _ | ⟨ph, phys⟩ <;> rcases ts with _ | ⟨T, ts⟩ <;> simp_all [OnBonds]
    obtain ⟨rfl, rfl⟩ := hts
    rcases X' with _ | ⟨b', X'⟩
    · rfl
    · rcases phys' with _ | ⟨ph', phys'⟩
      · exact h'.elim
      · have h2 := h'.2
        rcases phys' with _ | ⟨ph', phys'⟩ <;> rcases X' with _ | ⟨c, X'⟩ <;> simp [OnBonds] at h2
  | cons b X ih =>
    rcases phys with _ | ⟨ph, phys⟩
    · exact h.elim
    rcases ts with _ | ⟨T, ts⟩
    · exact h.elim
    rcases ps with _ | ⟨p, ps⟩
    · rw [ampl_noSites, ampl_noSites]
    rcases X' with _ | ⟨b', X'⟩
    · rcases phys' with _ | ⟨ph', phys'⟩
      · exact h'.elim
      · have h2 := h'.2
        have h3 := h.2
        rcases ts with _ | ⟨T', ts⟩
        · rcases phys with _ | ⟨ph, phys⟩ <;> rcases X with _ | ⟨c, X⟩ <;> simp [OnBonds] at h3
        · rcases phys' with _ | ⟨ph', phys'⟩ <;> simp [OnBonds] at h2
    · rcases phys' with _ | ⟨ph', phys'⟩
      · exact h'.elim
      rw [ampl_cons, ampl_cons]
      have hz : ∀ z, ampl ts X z ps y = ampl ts X' z ps y := fun z =>
        ih h.2 h'.2 (fun c hc => hX c (List.mem_cons_of_mem _ hc)) (fun c hc => hX' c (List.mem_cons_of_mem _ hc)) z ps
      simp only [hz]
      refine sum_legBasis_eq (hX b (List.mem_cons_self ..)) (hX' b' (List.mem_cons_self ..)) _ fun z hne => ?_
      have : entry T (x :: p ++ [z]) ≠ 0 := fun h0 => hne (by rw [h0, zero_mul])
      exact ⟨(entry_ends_ne_zero h.1 this).2, (entry_ends_ne_zero h'.1 this).2⟩

theorem Fits.self {E : BondInfo Q} (h : ∀ x ∈ E, 0 < x.2) : Fits E E E := ⟨fun _ => le_rfl, fun _ => le_rfl, h, h⟩

theorem Fits.add {X Y : BondInfo Q} (hX : GoodBond X) (hY : GoodBond Y) : Fits X Y (BondInfo.addCounts X Y) :=
  ⟨fun q => by rw [C06_add X Y hX.1 hY.1]; omega, fun q => by rw [C06_add X Y hX.1 hY.1]; omega, hX.2, hY.2⟩

/-- The entries of one site of the sum. -/
theorem kronAdd_entry {l r l' r' L R : BondInfo Q} {ph : List (BondInfo Q)} {A B : SpT Q K} (hA : Conforms (l :: ph ++ [r]) A)
    (hB : Conforms (l' :: ph ++ [r']) B) (hL : Fits l l' L) (hR : Fits r r' R) (x y : Q × Nat) (p : List (Q × Nat)) :
    entry (SpT.kronAdd A B L R) (x :: p ++ [y]) = entry A (x :: p ++ [y]) +
      if Counter.count L x.1 - Counter.count l' x.1 ≤ x.2 ∧ Counter.count R y.1 - Counter.count r' y.1 ≤ y.2 then
        entry B ((x.1, x.2 - (Counter.count L x.1 - Counter.count l' x.1)) :: p ++ [(y.1, y.2 - (Counter.count R y.1 - Counter.count r' y.1))])
      else 0 := by
  rw [(kronAdd_spec hA hB hL hR).2.2, entry_low hA hL.low hR.low, entry_high hB hL.high hR.high hL.pos' hR.pos']

/-- The chain of direct sums. -/
theorem kronAddSites_spec {as bs : List (SpT Q K)} {X Y : List (BondInfo Q)} {lA lB L E : BondInfo Q} {phys : List (List (BondInfo Q))}
    (hA : OnBonds (lA :: X ++ [E]) phys as) (hB : OnBonds (lB :: Y ++ [E]) phys bs) (hlen : X.length = Y.length)
    (hX : ∀ b ∈ X, GoodBond b) (hY : ∀ b ∈ Y, GoodBond b) (hE : ∀ x ∈ E, 0 < x.2) (hL : Fits lA lB L)
    (N : List (BondInfo Q)) (hN : N = (X.zip Y).map fun x => BondInfo.addCounts x.1 x.2) :
    OnBonds (L :: N ++ [E]) phys (Mps.kronAddSites as bs (L :: N ++ [E])) ∧
      ∀ x ps y, ampl (Mps.kronAddSites as bs (L :: N ++ [E])) N x ps y = ampl as X x ps y +
        if Counter.count L x.1 - Counter.count lB x.1 ≤ x.2 then
          ampl bs Y (x.1, x.2 - (Counter.count L x.1 - Counter.count lB x.1)) ps y else 0 := by
  induction X generalizing as bs Y lA lB L phys N with
  | nil =>
    obtain rfl : Y = [] := List.length_eq_zero_iff.1 hlen.symm
    obtain rfl : N = [] := hN
    rcases phys with _ | ⟨ph, phys⟩
    · exact hA.elim
    rcases as with _ | ⟨A, as⟩
    · exact hA.elim
    rcases bs with _ | ⟨B, bs⟩
    · exact hB.elim
    have e1 : phys = [] ∧ as = [] := by
      have h2 := hA.2
      rcases phys with _ | ⟨ph, phys⟩ <;> rcases as with _ | ⟨T, as⟩ <;> simp_all [OnBonds]
    obtain ⟨rfl, rfl⟩ := e1
    have e2 : bs = [] := by
      have h2 := hB.2
      rcases bs with _ | ⟨T, bs⟩
      · rfl
      · exact h2.elim
    subst e2
    have hs := kronAdd_spec hA.1 hB.1 hL (Fits.self hE)
    refine ⟨⟨hs.1, trivial⟩, fun x ps y => ?_⟩
    have hk : Mps.kronAddSites [A] [B] ([L] ++ [E]) = [SpT.kronAdd A B L E] := rfl
    rw [hk]
    rcases ps with _ | ⟨p, _ | ⟨p', ps⟩⟩
    · simp only [ampl_noSites, add_zero, ite_self]
    · have ha : ∀ (T : SpT Q K) z, ampl [T] [] z [p] y = entry T (z :: p ++ [y]) := fun T z => by rw [ampl]
      rw [ha, ha, ha, kronAdd_entry hA.1 hB.1 hL (Fits.self hE)]
      congr 1
      simp only [Nat.sub_self, Nat.zero_le, and_true, Nat.sub_zero]
    · have ha : ∀ (T : SpT Q K) z, ampl [T] [] z (p :: p' :: ps) y = 0 := fun T z => by
        rw [ampl]
        all_goals simp
      simp only [ha, add_zero, ite_self]
  | cons b X ih =>
    rcases Y with _ | ⟨c, Y⟩
    · simp at hlen
    rcases phys with _ | ⟨ph, phys⟩
    · exact hA.elim
    rcases as with _ | ⟨A, as⟩
    · exact hA.elim
    rcases bs with _ | ⟨B, bs⟩
    · exact hB.elim
    subst hN
    have hb := hX b (List.mem_cons_self ..)
    have hc := hY c (List.mem_cons_self ..)
    have hR := Fits.add hb hc
    have hs := kronAdd_spec hA.1 hB.1 hL hR
    obtain ⟨i1, i2⟩ := ih hA.2 hB.2 (by simpa using hlen) (fun d hd => hX d (List.mem_cons_of_mem _ hd))
      (fun d hd => hY d (List.mem_cons_of_mem _ hd)) hR _ rfl
    refine ⟨⟨hs.1, i1⟩, fun x ps y => ?_⟩
    rcases ps with _ | ⟨p, ps⟩
    · simp only [ampl_noSites, add_zero, ite_self]
    have hk : Mps.kronAddSites (A :: as) (B :: bs) (L :: ((b :: X).zip (c :: Y)).map (fun x => BondInfo.addCounts x.1 x.2) ++ [E]) =
        SpT.kronAdd A B L (BondInfo.addCounts b c) ::
          Mps.kronAddSites as bs (BondInfo.addCounts b c :: (X.zip Y).map (fun x => BondInfo.addCounts x.1 x.2) ++ [E]) := rfl
    rw [hk]
    show ampl (_ :: _) (BondInfo.addCounts b c :: (X.zip Y).map (fun x => BondInfo.addCounts x.1 x.2)) x (p :: ps) y = _
    rw [ampl_cons, ampl_cons, ampl_cons]
    have hcnt := C06_add b c hb.1 hc.1
    rw [sum_legBasis_add hb.1 hc.1 (C06_wf b c).2.2.1 hcnt]
    have hd : ∀ q, Counter.count (BondInfo.addCounts b c) q - Counter.count c q = Counter.count b q := fun q => by rw [hcnt]; omega
    congr 1
    · refine sum_map_congr' _ _ _ fun z hz => ?_
      rw [mem_legBasis hb.1] at hz
      rw [kronAdd_entry hA.1 hB.1 hL hR, i2, hd, if_neg (by omega), if_neg (by omega), add_zero, add_zero]
    · have hz : ∀ z : Q × Nat, entry (SpT.kronAdd A B L (BondInfo.addCounts b c)) (x :: p ++ [(z.1, z.2 + Counter.count b z.1)]) *
            ampl (Mps.kronAddSites as bs (BondInfo.addCounts b c :: (X.zip Y).map (fun x => BondInfo.addCounts x.1 x.2) ++ [E]))
              ((X.zip Y).map fun x => BondInfo.addCounts x.1 x.2) (z.1, z.2 + Counter.count b z.1) ps y =
          if Counter.count L x.1 - Counter.count lB x.1 ≤ x.2 then
            entry B ((x.1, x.2 - (Counter.count L x.1 - Counter.count lB x.1)) :: p ++ [z]) * ampl bs Y z ps y else 0 := by
        intro z
        rw [kronAdd_entry hA.1 hB.1 hL hR, i2, hd]
        have e1 : entry A (x :: p ++ [(z.1, z.2 + Counter.count b z.1)]) = 0 := by
          by_contra hne
          have := (entry_ends_ne_zero hA.1 hne).2
          simp only at this
          omega
        have e2 : ampl as X (z.1, z.2 + Counter.count b z.1) ps y = 0 := by
          by_contra hne
          have := ampl_ne_zero hA.2 hne
          simp only at this
          omega
        rw [e1, e2, zero_add, zero_add]
        simp only [Nat.add_sub_cancel, Nat.le_add_left, and_true, if_true, ite_mul, zero_mul]
      rw [sum_map_congr' _ _ _ fun z _ => hz z]
      split
      · rfl
      · exact sum_map_zero' _ _ fun _ _ => rfl

end
end Verif
