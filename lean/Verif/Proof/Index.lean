import Verif.Spec.Tensor
import Verif.Proof.Fusing
import Mathlib.Algebra.BigOperators.Ring.List
import Mathlib.Data.List.Perm.Basic
import Mathlib.Tactic.Ring
import Mathlib.Tactic.Abel

/-! Lemmas about multi-indices, boxes and list sums. -/

namespace Verif

section sums
variable {α β K : Type}

theorem sum_map_add' [AddCommMonoid K] (l : List α) (f g : α → K) :
    (l.map fun x => f x + g x).sum = (l.map f).sum + (l.map g).sum := by
  induction l with
  | nil => simp
  | cons a t ih => simp only [List.map_cons, List.sum_cons, ih]; abel

theorem sum_map_zero' [AddCommMonoid K] (l : List α) (f : α → K) (h : ∀ x ∈ l, f x = 0) :
    (l.map f).sum = 0 := by
  induction l with
  | nil => simp
  | cons a t ih =>
    simp only [List.map_cons, List.sum_cons]
    rw [h a List.mem_cons_self, ih fun x hx => h x (List.mem_cons_of_mem _ hx), add_zero]

theorem sum_comm' [AddCommMonoid K] (l : List α) (m : List β) (f : α → β → K) :
    (l.map fun a => (m.map fun b => f a b).sum).sum =
      (m.map fun b => (l.map fun a => f a b).sum).sum := by
  induction l with
  | nil => simp
  | cons a t ih => simp only [List.map_cons, List.sum_cons, ih, sum_map_add']

theorem sum_map_mul_left' [NonUnitalNonAssocSemiring K] (l : List α) (c : K) (f : α → K) :
    (l.map fun x => c * f x).sum = c * (l.map f).sum := by
  induction l with
  | nil => simp
  | cons a t ih => simp only [List.map_cons, List.sum_cons, ih, mul_add]

theorem sum_map_mul_right' [NonUnitalNonAssocSemiring K] (l : List α) (c : K) (f : α → K) :
    (l.map fun x => f x * c).sum = (l.map f).sum * c := by
  induction l with
  | nil => simp
  | cons a t ih => simp only [List.map_cons, List.sum_cons, ih, add_mul]

theorem sum_flatMap' [AddCommMonoid K] (l : List α) (g : α → List β) (f : β → K) :
    ((l.flatMap g).map f).sum = (l.map fun a => ((g a).map f).sum).sum := by
  induction l with
  | nil => simp
  | cons a t ih => simp [List.flatMap_cons, ih]

theorem sum_map_congr' [AddCommMonoid K] (l : List α) (f g : α → K) (h : ∀ x ∈ l, f x = g x) :
    (l.map f).sum = (l.map g).sum := by
  rw [List.map_congr_left h]

/-- A sum over a list without repetitions in which one term survives. -/
theorem sum_map_ite_eq' [AddCommMonoid K] [DecidableEq α] (l : List α) (hl : l.Nodup) (a : α) (f : α → K) :
    (l.map fun x => if x = a then f x else 0).sum = if a ∈ l then f a else 0 := by
  induction l with
  | nil => simp
  | cons b t ih =>
    rw [List.nodup_cons] at hl
    simp only [List.map_cons, List.sum_cons, ih hl.2, List.mem_cons]
    by_cases h : b = a
    · subst h; simp [hl.1]
    · simp [h, Ne.symm h]

theorem sum_filter' [AddCommMonoid K] (l : List α) (p : α → Bool) (f : α → K) :
    ((l.filter p).map f).sum = (l.map fun x => if p x then f x else 0).sum := by
  induction l with
  | nil => simp
  | cons a t ih =>
    simp only [List.filter_cons, List.map_cons, List.sum_cons, ← ih]
    split_ifs <;> simp

end sums

section pick
variable {α β : Type} [Zero α] [Zero β]

@[simp] theorem pick_length (axes : List Nat) (xs : List α) : (pick axes xs).length = axes.length := by
  simp [pick]

@[simp] theorem unpick_length (axes : List Nat) (xs : List α) :
    (unpick axes xs).length = axes.length := by
  simp [unpick]

@[simp] theorem pick_nil (xs : List α) : pick [] xs = [] := rfl

theorem pick_cons (i : Nat) (axes : List Nat) (xs : List α) :
    pick (i :: axes) xs = xs.getD i 0 :: pick axes xs := rfl

theorem pick_append (a b : List Nat) (xs : List α) : pick (a ++ b) xs = pick a xs ++ pick b xs := by
  simp [pick]

theorem map_pick (f : α → β) (hf : f 0 = 0) (axes : List Nat) (xs : List α) :
    (pick axes xs).map f = pick axes (xs.map f) := by
  simp only [pick, List.map_map]
  apply List.map_congr_left
  intro i _
  simp only [Function.comp, List.getD_eq_getElem?_getD, List.getElem?_map]
  cases xs[i]? <;> simp [hf]

theorem map_unpick (f : α → β) (hf : f 0 = 0) (axes : List Nat) (xs : List α) :
    (unpick axes xs).map f = unpick axes (xs.map f) := by
  simp only [unpick, List.map_map]
  apply List.map_congr_left
  intro i _
  simp only [Function.comp, List.getD_eq_getElem?_getD, List.getElem?_map]
  cases xs[axes.idxOf i]? <;> simp [hf]

theorem getD_map_range {γ : Type} [Zero γ] (f : Nat → γ) {n i : Nat} (h : i < n) :
    ((List.range n).map f).getD i 0 = f i := by
  simp [List.getD_eq_getElem?_getD, h]

theorem pick_range (xs : List α) : pick (List.range xs.length) xs = xs := by
  apply List.ext_getElem
  · simp
  · intro i h1 h2
    simp [pick, List.getD_eq_getElem?_getD, h2]

theorem perm_range_length {axes : List Nat} {n : Nat} (h : axes.Perm (List.range n)) :
    axes.length = n := by simpa using h.length_eq

theorem unpick_pick {axes : List Nat} {n : Nat} (h : axes.Perm (List.range n)) (xs : List α)
    (hx : xs.length = n) : unpick axes (pick axes xs) = xs := by
  have hn := perm_range_length h
  apply List.ext_getElem
  · simp [hn, hx]
  · intro i h1 h2
    simp only [unpick, List.getElem_map, List.getElem_range]
    have hi : i ∈ axes := h.mem_iff.2 (by simpa [← hx] using h2)
    have hl : axes.idxOf i < axes.length := List.idxOf_lt_length_iff.2 hi
    simp only [pick, List.getD_eq_getElem?_getD, List.getElem?_map, List.getElem?_eq_getElem hl,
      Option.map_some, Option.getD_some, List.getElem_idxOf]
    simp [h2]

theorem pick_unpick {axes : List Nat} {n : Nat} (h : axes.Perm (List.range n)) (v : List α)
    (hv : v.length = n) : pick axes (unpick axes v) = v := by
  have hn := perm_range_length h
  have hnd : axes.Nodup := h.nodup_iff.2 List.nodup_range
  apply List.ext_getElem
  · simp [hn, hv]
  · intro j h1 h2
    have hj : j < axes.length := by omega
    have hlt : axes[j] < axes.length := by
      have := h.mem_iff.1 (List.getElem_mem hj)
      rw [hn]; simpa using this
    simp only [pick, List.getElem_map]
    simp only [unpick]
    rw [getD_map_range _ hlt, hnd.idxOf_getElem]
    simp [h2]

theorem eq_unpick_iff {axes : List Nat} {n : Nat} (h : axes.Perm (List.range n)) (xs v : List α)
    (hx : xs.length = n) (hv : v.length = n) : xs = unpick axes v ↔ pick axes xs = v := by
  constructor
  · rintro rfl; exact pick_unpick h v hv
  · rintro rfl; exact (unpick_pick h xs hx).symm

end pick

section box

theorem inBox_length {s i : List Nat} (h : inBox s i = true) : i.length = s.length := by
  induction s generalizing i with
  | nil => cases i <;> simp_all [inBox]
  | cons a t ih =>
    cases i with
    | nil => simp [inBox] at h
    | cons b u => simp only [inBox, Bool.and_eq_true] at h; simp [ih h.2]

theorem inBox_iff {s i : List Nat} :
    inBox s i = true ↔ i.length = s.length ∧ ∀ p < s.length, i.getD p 0 < s.getD p 0 := by
  induction s generalizing i with
  | nil => cases i <;> simp [inBox]
  | cons a t ih =>
    cases i with
    | nil => simp [inBox]
    | cons b u =>
      simp only [inBox, Bool.and_eq_true, decide_eq_true_eq, ih, List.length_cons, Nat.add_right_cancel_iff]
      constructor
      · rintro ⟨h1, h2, h3⟩
        refine ⟨h2, fun p hp => ?_⟩
        cases p with
        | zero => simpa using h1
        | succ p => simpa using h3 p (by omega)
      · rintro ⟨h1, h2⟩
        refine ⟨by simpa using h2 0 (by omega), h1, fun p hp => by simpa using h2 (p+1) (by omega)⟩

theorem inBox_append {s1 s2 i1 i2 : List Nat} (h : i1.length = s1.length) :
    inBox (s1 ++ s2) (i1 ++ i2) = (inBox s1 i1 && inBox s2 i2) := by
  induction s1 generalizing i1 with
  | nil => cases i1 <;> simp_all [inBox]
  | cons a t ih =>
    cases i1 with
    | nil => simp at h
    | cons b u => simp only [List.cons_append, inBox, ih (by simpa using h), Bool.and_assoc]

theorem mem_box {s i : List Nat} : i ∈ box s ↔ inBox s i = true := by
  unfold box
  rw [mem_cart, List.forall₂_map_left_iff]
  induction s generalizing i with
  | nil => cases i <;> simp [inBox]
  | cons a t ih =>
    cases i with
    | nil => simp [inBox]
    | cons b u => rw [List.forall₂_cons, ih]; simp [inBox]

theorem box_nodup (s : List Nat) : (box s).Nodup := by
  unfold box
  apply cart_nodup
  intro l hl
  obtain ⟨n, _, rfl⟩ := List.mem_map.1 hl
  exact List.nodup_range

theorem inBox_unpick {axes : List Nat} {n : Nat} (h : axes.Perm (List.range n)) (s v : List Nat)
    (hs : s.length = n) (hv : v.length = n) : inBox s (unpick axes v) = inBox (pick axes s) v := by
  have hn := perm_range_length h
  rw [Bool.eq_iff_iff, inBox_iff, inBox_iff]
  simp only [unpick_length, pick_length, hn, hs, hv, true_and]
  constructor
  · intro H p hp
    have hp' : p < axes.length := by omega
    have hm : axes[p] < n := by simpa using h.mem_iff.1 (List.getElem_mem hp')
    have := H _ hm
    have e1 := pick_unpick h v hv
    have e2 : v.getD p 0 = (unpick axes v).getD axes[p] 0 := by
      conv_lhs => rw [← e1]
      simp [pick, List.getD_eq_getElem?_getD, hp']
    rw [e2]
    simp only [pick, List.getD_eq_getElem?_getD (l := axes.map _), List.getElem?_map,
      List.getElem?_eq_getElem hp', Option.map_some, Option.getD_some]
    exact this
  · intro H p hp
    have hm : p ∈ axes := h.mem_iff.2 (by simpa using hp)
    have hl : axes.idxOf p < axes.length := List.idxOf_lt_length_iff.2 hm
    have := H (axes.idxOf p) (by omega)
    unfold unpick
    rw [getD_map_range _ (by omega)]
    refine lt_of_lt_of_eq this ?_
    simp [pick, List.getD_eq_getElem?_getD, hl]

end box

section out

theorem mem_outAxes {n i : Nat} {idx : List Nat} : i ∈ SpT.outAxes n idx ↔ i < n ∧ i ∉ idx := by
  simp [SpT.outAxes]

theorem idx_out_perm {n : Nat} {idx : List Nat} (hnd : idx.Nodup) (hlt : ∀ i ∈ idx, i < n) :
    (idx ++ SpT.outAxes n idx).Perm (List.range n) := by
  rw [List.perm_ext_iff_of_nodup]
  · intro a
    simp only [List.mem_append, mem_outAxes, List.mem_range]
    constructor
    · rintro (h | h)
      · exact hlt a h
      · exact h.1
    · intro h
      by_cases ha : a ∈ idx
      · exact Or.inl ha
      · exact Or.inr ⟨h, ha⟩
  · rw [List.nodup_append]
    refine ⟨hnd, List.nodup_range.filter _, ?_⟩
    intro a ha b hb e
    subst e
    exact (mem_outAxes.1 hb).2 ha
  · exact List.nodup_range

end out

section legs
variable {Q K : Type} [DecidableEq Q]

theorem IsCombination.lengths {legs : List (BondInfo Q)} {qs : List Q} {sh : List Nat}
    (h : IsCombination legs qs sh) : qs.length = legs.length ∧ sh.length = legs.length := by
  induction h with
  | nil => simp
  | cons _ _ ih => simp [ih]

theorem IsCombination.shape_unique {legs : List (BondInfo Q)} {qs : List Q} {sh sh' : List Nat}
    (h : IsCombination legs qs sh) (h' : IsCombination legs qs sh') : sh = sh' := by
  induction h generalizing sh' with
  | nil => cases h'; rfl
  | cons h1 _ ih =>
    cases h' with
    | cons h3 h4 =>
      rw [h1] at h3
      rw [ih h4, Option.some.inj h3]

theorem isCombination_iff_getD [Zero Q] {legs : List (BondInfo Q)} {qs : List Q} {sh : List Nat} :
    IsCombination legs qs sh ↔ qs.length = legs.length ∧ sh.length = legs.length ∧
      ∀ p < legs.length, Dict.get? (legs.getD p []) (qs.getD p 0) = some (sh.getD p 0) := by
  constructor
  · intro h
    refine ⟨h.lengths.1, h.lengths.2, ?_⟩
    induction h with
    | nil => simp
    | cons h1 _ ih =>
      intro p hp
      cases p with
      | zero => simpa using h1
      | succ p => simpa using ih p (by simpa using hp)
  · rintro ⟨h1, h2, h3⟩
    induction legs generalizing qs sh with
    | nil =>
      cases qs <;> cases sh <;> simp_all
      exact .nil
    | cons b bs ih =>
      cases qs with
      | nil => simp at h1
      | cons q qs =>
        cases sh with
        | nil => simp at h2
        | cons s sh =>
          refine .cons (by simpa using h3 0 (by simp)) (ih (by simpa using h1) (by simpa using h2) ?_)
          intro p hp
          simpa using h3 (p+1) (by simpa using hp)

instance : Zero (BondInfo Q) := ⟨[]⟩

theorem IsCombination.pick [Zero Q] {legs : List (BondInfo Q)} {qs : List Q} {sh : List Nat}
    (h : IsCombination legs qs sh) {axes : List Nat} (hax : ∀ i ∈ axes, i < legs.length) :
    IsCombination (pick axes legs) (pick axes qs) (pick axes sh) := by
  induction axes with
  | nil => exact .nil
  | cons i t ih =>
    simp only [pick_cons]
    refine .cons ?_ (ih fun j hj => hax j (List.mem_cons_of_mem _ hj))
    exact (isCombination_iff_getD.1 h).2.2 i (hax i List.mem_cons_self)

theorem IsCombination.append {l1 l2 : List (BondInfo Q)} {q1 q2 : List Q} {s1 s2 : List Nat}
    (h1 : IsCombination l1 q1 s1) (h2 : IsCombination l2 q2 s2) :
    IsCombination (l1 ++ l2) (q1 ++ q2) (s1 ++ s2) := by
  induction h1 with
  | nil => exact h2
  | cons h _ ih => exact .cons h ih

theorem legBasis_nodup {b : BondInfo Q} (hb : Dict.WF b) : (legBasis b).Nodup := by
  unfold legBasis
  rw [List.nodup_flatMap]
  refine ⟨fun p _ => List.Nodup.map (fun i j h => by simpa using h) List.nodup_range, ?_⟩
  have hb' : (b.map Prod.fst).Nodup := hb
  rw [List.Nodup, List.pairwise_map] at hb'
  refine hb'.imp ?_
  intro p q hpq
  rw [Function.onFun, List.disjoint_left]
  intro x hx hy
  obtain ⟨i, _, rfl⟩ := List.mem_map.1 hx
  obtain ⟨j, _, h⟩ := List.mem_map.1 hy
  exact hpq (congrArg Prod.fst h).symm

theorem legBasis_sum [AddCommMonoid K] {b : BondInfo Q} (hb : Dict.WF b) {q : Q} {d : Nat}
    (h : Dict.get? b q = some d) (f : Nat → K) :
    ((legBasis b).map fun c => if c.1 = q ∧ c.2 < d then f c.2 else 0).sum =
      ((List.range d).map f).sum := by
  unfold legBasis
  rw [sum_flatMap']
  induction b with
  | nil => simp at h
  | cons p t ih =>
    obtain ⟨k, v⟩ := p
    simp only [Dict.WF, List.map_cons, List.nodup_cons] at hb
    simp only [List.map_map] at ih
    simp only [List.map_cons, List.sum_cons, List.map_map]
    rw [Dict.get?_cons] at h
    split_ifs at h with e
    · subst e
      simp only [Option.some.injEq] at h
      subst h
      rw [sum_map_zero' t]
      · rw [add_zero]
        apply sum_map_congr'
        intro i hi
        simp at hi
        simp [hi]
      · intro x hx
        apply sum_map_zero'
        intro y hy
        simp only [Function.comp]
        rw [if_neg]
        rintro ⟨h1, h2⟩
        exact hb.1 (List.mem_map.2 ⟨x, hx, h1⟩)
    · rw [ih hb.2 h, sum_map_zero' (List.range v), zero_add]
      intro i _
      simp [e]

theorem legIndices_sum [AddCommMonoid K] {legs : List (BondInfo Q)} (hw : ∀ b ∈ legs, Dict.WF b)
    {qs : List Q} {sh : List Nat} (h : IsCombination legs qs sh) (f : List Nat → K) :
    ((legIndices legs).map fun c => if qs = c.map Prod.fst ∧ inBox sh (c.map Prod.snd) = true then
      f (c.map Prod.snd) else 0).sum = ((box sh).map f).sum := by
  induction h generalizing f with
  | nil => simp [legIndices, cart, box, inBox]
  | @cons b bs q qs s shs h1 h2 ih =>
    have ih := ih (fun b hb => hw b (List.mem_cons_of_mem _ hb))
    have hb := hw b List.mem_cons_self
    unfold legIndices at ih ⊢
    simp only [List.map_cons, cart, box]
    rw [sum_flatMap', sum_flatMap']
    simp only [List.map_map]
    have : ∀ x : Q × Nat, ((cart (bs.map legBasis)).map ((fun c => if q :: qs = c.map Prod.fst ∧
        inBox (s :: shs) (c.map Prod.snd) = true then f (c.map Prod.snd) else 0) ∘
          fun xs => x :: xs)).sum =
        if x.1 = q ∧ x.2 < s then ((cart (shs.map List.range)).map fun v => f (x.2 :: v)).sum else 0 := by
      intro x
      have := ih (fun v => f (x.2 :: v))
      unfold box at this
      rw [← this]
      split_ifs with hx
      · obtain ⟨rfl, hx2⟩ := hx
        apply sum_map_congr'
        intro c _
        simp [inBox, hx2]
      · apply sum_map_zero'
        intro c _
        simp only [Function.comp, List.map_cons, List.cons.injEq, inBox, Bool.and_eq_true,
          decide_eq_true_eq]
        rw [if_neg]
        rintro ⟨⟨e1, _⟩, e2, _⟩
        exact hx ⟨e1.symm, e2⟩
    simp only [this]
    rw [legBasis_sum hb h1 (fun i => ((cart (shs.map List.range)).map fun v => f (i :: v)).sum)]
    rfl

end legs
end Verif
