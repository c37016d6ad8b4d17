import Verif.Spec.Canon
import Verif.Proof.Ravel
import Verif.Proof.Sparse
import Verif.Proof.Mps
import Mathlib.Algebra.Star.BigOperators

/-! Lemmas for canonical forms: grouping, stacking and splitting of blocks. -/

set_option linter.unusedSectionVars false

namespace Verif

/-! ### The leg that is treated separately: the last one (`true`) or the first one (`false`) -/

section side
variable {α β : Type}

/-- Put `a` behind (`true`) or before (`false`) the list. -/
def join (s : Bool) (x : List α) (a : α) : List α := if s then x ++ [a] else a :: x

/-- The list without its last (`true`) or first (`false`) member. -/
def rows (s : Bool) (x : List α) : List α := if s then x.dropLast else x.tail

theorem rows_join (s : Bool) (x : List α) (a : α) : rows s (join s x a) = x := by
  cases s <;> simp [rows, join]

theorem join_inj (s : Bool) {x y : List α} {a b : α} : join s x a = join s y b ↔ x = y ∧ a = b := by
  cases s
  · simp [join, and_comm]
  · simp [join]

theorem map_join (s : Bool) (f : α → β) (x : List α) (a : α) : (join s x a).map f = join s (x.map f) (f a) := by
  cases s <;> simp [join]

theorem length_join (s : Bool) (x : List α) (a : α) : (join s x a).length = x.length + 1 := by
  cases s <;> simp [join]

theorem prod_join (s : Bool) (x : List Nat) (a : Nat) : (join s x a).prod = x.prod * a := by
  cases s <;> simp [join, Nat.mul_comm]

theorem inBox_join (s : Bool) {sh x : List Nat} (n i : Nat) (h : x.length = sh.length) :
    inBox (join s sh n) (join s x i) = (inBox sh x && decide (i < n)) := by
  cases s
  · simp [join, inBox, Bool.and_comm]
  · simp only [join, if_true]
    rw [inBox_append h]
    simp [inBox]

variable {Q : Type} [DecidableEq Q]

theorem isCombination_join (s : Bool) {legs : List (BondInfo Q)} {r : BondInfo Q} {qs : List Q} {sh : List Nat} :
    IsCombination (join s legs r) qs sh ↔
      ∃ ql q sl n, qs = join s ql q ∧ sh = join s sl n ∧ IsCombination legs ql sl ∧ Dict.get? r q = some n := by
  cases s
  · simp only [join]
    constructor
    · intro h
      cases h with
      | cons h1 h2 => exact ⟨_, _, _, _, rfl, rfl, h2, h1⟩
    · rintro ⟨ql, q, sl, n, rfl, rfl, h2, h1⟩
      exact .cons h1 h2
  · simp only [join]
    constructor
    · intro h
      induction legs generalizing qs sh with
      | nil =>
        cases h with
        | cons h1 h2 => cases h2; exact ⟨[], _, [], _, rfl, rfl, .nil, h1⟩
      | cons b bs ih =>
        cases h with
        | cons h1 h2 =>
          obtain ⟨ql, q, sl, n, rfl, rfl, h3, h4⟩ := ih h2
          exact ⟨_ :: ql, q, _ :: sl, n, rfl, rfl, .cons h1 h3, h4⟩
    · rintro ⟨ql, q, sl, n, rfl, rfl, h2, h1⟩
      exact h2.append (.cons h1 .nil)

end side

/-! ### Grouping -/

section group
variable {Q β : Type} [DecidableEq Q]

theorem get?_groupBy (key : β → Q) (l : List β) (q : Q) :
    (Dict.get? (groupBy key l) q).getD [] = l.filter fun b => key b = q := by
  unfold groupBy
  suffices h : ∀ (m : Dict Q (List β)),
      (Dict.get? (l.foldl (fun m b => Dict.set m (key b) ((Dict.get? m (key b)).getD [] ++ [b])) m) q).getD [] =
      (Dict.get? m q).getD [] ++ l.filter fun b => key b = q by
    simpa using h []
  induction l with
  | nil => simp
  | cons b t ih =>
    intro m
    simp only [List.foldl_cons]
    rw [ih, Dict.get?_set]
    by_cases e : key b = q
    · subst e; simp
    · simp [e]

theorem wf_groupBy (key : β → Q) (l : List β) : Dict.WF (groupBy key l) := by
  unfold groupBy
  suffices h : ∀ (m : Dict Q (List β)), Dict.WF m →
      Dict.WF (l.foldl (fun m b => Dict.set m (key b) ((Dict.get? m (key b)).getD [] ++ [b])) m) by
    exact h [] (by simp [Dict.WF])
  induction l with
  | nil => intro m h; exact h
  | cons b t ih => intro m h; exact ih _ (h.set _ _)

theorem mem_setD {d : Dict Q β} {k : Q} {v : β} {x : Q × β} (h : x ∈ Dict.set d k v) : x = (k, v) ∨ x ∈ d := by
  induction d with
  | nil => left; simpa [Dict.set] using h
  | cons a d ih =>
    rw [Dict.set] at h
    split at h
    · rename_i e
      rcases List.mem_cons.1 h with h | h
      · exact Or.inl (by rw [h, e])
      · exact Or.inr (List.mem_cons_of_mem _ h)
    · rcases List.mem_cons.1 h with h | h
      · exact Or.inr (by rw [h]; exact List.mem_cons_self)
      · rcases ih h with h | h
        · exact Or.inl h
        · exact Or.inr (List.mem_cons_of_mem _ h)

theorem mem_groupBy {key : β → Q} {l : List β} {g : Q × List β} (h : g ∈ groupBy key l) :
    g.2 = (l.filter fun b => key b = g.1) ∧ g.2 ≠ [] := by
  have h1 := get?_groupBy key l g.1
  rw [Dict.get?_of_mem (wf_groupBy key l) h] at h1
  refine ⟨by simpa using h1, ?_⟩
  unfold groupBy at h
  suffices hs : ∀ (m : Dict Q (List β)), (∀ g ∈ m, g.2 ≠ []) →
      ∀ g ∈ l.foldl (fun m b => Dict.set m (key b) ((Dict.get? m (key b)).getD [] ++ [b])) m, g.2 ≠ [] by
    exact hs [] (by simp) g h
  clear h h1
  induction l with
  | nil => intro m hm; exact hm
  | cons b t ih =>
    intro m hm
    refine ih _ ?_
    intro g hg
    rcases mem_setD hg with h | h
    · rw [h]; simp
    · exact hm g h

theorem get?_groupBy_some {key : β → Q} {l : List β} {q : Q} (h : ∃ b ∈ l, key b = q) :
    Dict.get? (groupBy key l) q = some (l.filter fun b => key b = q) := by
  have h1 := get?_groupBy key l q
  cases hg : Dict.get? (groupBy key l) q with
  | none =>
    rw [hg] at h1
    obtain ⟨b, hb, hk⟩ := h
    have : b ∈ l.filter fun b => key b = q := List.mem_filter.2 ⟨hb, by simp [hk]⟩
    rw [← h1] at this; simp at this
  | some v => rw [hg] at h1; simpa using h1

end group

/-! ### Stacking and splitting -/

theorem box_map_ravel (sh : List Nat) : (box sh).map (ravel sh) = List.range sh.prod := by
  induction sh with
  | nil => rfl
  | cons a t ih =>
    unfold box at ih ⊢
    simp only [List.map_cons, cart, List.prod_cons, List.map_flatMap, List.map_map]
    have : ∀ x, (cart (t.map List.range)).map (ravel (a :: t) ∘ fun xs => x :: xs) = (List.range t.prod).map (x * t.prod + ·) := by
      intro x
      rw [← ih, List.map_map]
      rfl
    simp only [this]
    induction a with
    | zero => simp
    | succ a iha =>
      rw [List.range_succ, List.flatMap_append, iha, Nat.succ_mul, List.range_add]
      · simp
      · intro x
        exact this x

theorem box_sum_ravel {K : Type} [AddCommMonoid K] (sh : List Nat) (f : Nat → K) :
    ((box sh).map fun v => f (ravel sh v)).sum = ((List.range sh.prod).map f).sum := by
  rw [← box_map_ravel, List.map_map]
  rfl


section stack
variable {K : Type}

/-- `ps` are the blocks cut from the rows of `U`, starting with row `o`; `k` is their dimension on the separate leg. -/
def Pieces (s : Bool) (U : Nat → Nat → K) (k : Nat) : Nat → List (Arr K) → List (Arr K) → Prop
  | _, [], [] => True
  | o, a :: as, p :: ps => (p.shape = join s (rows s a.shape) k ∧
      ∀ x t, inBox (rows s a.shape) x = true → t < k → p.get (join s x t) = U (o + ravel (rows s a.shape) x) t) ∧
      Pieces s U k (o + (rows s a.shape).prod) as ps
  | _, _, _ => False

/-- The rows of `M` from row `o` on are those of the blocks `as`; `n` is the dimension of the separate leg. -/
def Stacked (s : Bool) (M : Nat → Nat → K) (n : Nat) : Nat → List (Arr K) → Prop
  | _, [] => True
  | o, a :: as => (∀ x y, inBox (rows s a.shape) x = true → y < n →
      M (o + ravel (rows s a.shape) x) y = a.get (join s x y)) ∧
      Stacked s M n (o + (rows s a.shape).prod) as

/-- The number of rows of a list of blocks. -/
def height (s : Bool) (as : List (Arr K)) : Nat := (as.map fun a => (rows s a.shape).prod).sum

theorem height_cons (s : Bool) (a : Arr K) (as : List (Arr K)) :
    height s (a :: as) = (rows s a.shape).prod + height s as := rfl

theorem Pieces.length {s : Bool} {U : Nat → Nat → K} {k o : Nat} {as ps : List (Arr K)} (h : Pieces s U k o as ps) :
    ps.length = as.length := by
  induction as generalizing o ps with
  | nil => cases ps with
    | nil => rfl
    | cons => exact h.elim
  | cons a as ih => cases ps with
    | nil => exact h.elim
    | cons p ps => simp [ih h.2]

/-- Entries of a concatenation along axis `m` of matrices. -/
theorem concatGet_cons [Zero K] (m : Nat) (a : Arr K) (as : List (Arr K)) (ix : List Nat) :
    Arr.concatGet m (a :: as) ix = if ix.getD m 0 < a.shape.getD m 0 then a.get ix
      else Arr.concatGet m as (ix.set m (ix.getD m 0 - a.shape.getD m 0)) := rfl

/-- One matrix above the other. -/
theorem stacked_concat [Zero K] (s : Bool) (n : Nat) (f : Arr K → Arr K) (as : List (Arr K))
    (hsh : ∀ a ∈ as, (f a).shape = [(rows s a.shape).prod, n])
    (hf : ∀ a ∈ as, ∀ x y, inBox (rows s a.shape) x = true → y < n → (f a).get [ravel (rows s a.shape) x, y] = a.get (join s x y)) :
    Stacked s (fun i y => Arr.concatGet 0 (as.map f) [i, y]) n 0 as := by
  suffices h : ∀ (M : Nat → Nat → K) o, (∀ i y, M (o + i) y = Arr.concatGet 0 (as.map f) [i, y]) → Stacked s M n o as by
    exact h _ 0 (by simp)
  induction as with
  | nil => intros; trivial
  | cons a as ih =>
    intro M o hM
    refine ⟨?_, ?_⟩
    · intro x y hx hy
      rw [hM, List.map_cons, concatGet_cons, hsh a List.mem_cons_self]
      have := ravel_lt hx
      simp only [List.getD_cons_zero, this, if_true]
      exact hf a List.mem_cons_self x y hx hy
    · apply ih (fun a ha => hsh a (List.mem_cons_of_mem _ ha)) (fun a ha => hf a (List.mem_cons_of_mem _ ha))
      intro i y
      rw [Nat.add_assoc, hM, List.map_cons, concatGet_cons, hsh a List.mem_cons_self]
      simp

/-- One matrix beside the other. -/
theorem stacked_concat1 [Zero K] (s : Bool) (n : Nat) (f : Arr K → Arr K) (as : List (Arr K))
    (hsh : ∀ a ∈ as, (f a).shape = [n, (rows s a.shape).prod])
    (hf : ∀ a ∈ as, ∀ x y, inBox (rows s a.shape) x = true → y < n → (f a).get [y, ravel (rows s a.shape) x] = a.get (join s x y)) :
    Stacked s (fun i y => Arr.concatGet 1 (as.map f) [y, i]) n 0 as := by
  suffices h : ∀ (M : Nat → Nat → K) o, (∀ i y, M (o + i) y = Arr.concatGet 1 (as.map f) [y, i]) → Stacked s M n o as by
    exact h _ 0 (by simp)
  induction as with
  | nil => intros; trivial
  | cons a as ih =>
    intro M o hM
    refine ⟨?_, ?_⟩
    · intro x y hx hy
      rw [hM, List.map_cons, concatGet_cons, hsh a List.mem_cons_self]
      have := ravel_lt hx
      simp only [List.getD_cons_zero, List.getD_cons_succ, this, if_true]
      exact hf a List.mem_cons_self x y hx hy
    · apply ih (fun a ha => hsh a (List.mem_cons_of_mem _ ha)) (fun a ha => hf a (List.mem_cons_of_mem _ ha))
      intro i y
      rw [Nat.add_assoc, hM, List.map_cons, concatGet_cons, hsh a List.mem_cons_self]
      simp

theorem concat_shapeC [Zero K] (m : Nat) {c : Nat} (f : Arr K → Arr K) (g : Arr K → Nat) (hm : m < 2) (as : List (Arr K)) (hne : as ≠ [])
    (hsh : ∀ a ∈ as, (f a).shape = if m = 0 then [g a, c] else [c, g a]) :
    (Arr.concat m (as.map f)).shape = if m = 0 then [(as.map g).sum, c] else [c, (as.map g).sum] := by
  obtain ⟨a, as, rfl⟩ := List.exists_cons_of_ne_nil hne
  have h0 := hsh a List.mem_cons_self
  have hs : ((List.map f (a :: as)).map fun a => a.shape.getD m 0).sum = ((a :: as).map g).sum := by
    rw [List.map_map]
    congr 1
    apply List.map_congr_left
    intro b hb
    simp only [Function.comp, hsh b hb]
    rcases Nat.lt_succ_iff_lt_or_eq.1 hm with h | h
    · have : m = 0 := by omega
      simp [this]
    · simp [h]
  unfold Arr.concat
  simp only [hs]
  simp only [List.map_cons, List.head?_cons, Option.map_some, Option.getD_some, h0]
  rcases Nat.lt_succ_iff_lt_or_eq.1 hm with h | h
  · have : m = 0 := by omega
    simp [this]
  · simp [h]

/-- Cutting at the accumulated heights. -/
theorem pieces_split (s : Bool) (m : Nat) (u : Arr K) (U : Nat → Nat → K) (k : Nat) (f : Arr K → Arr K → Arr K) (as : List (Arr K))
    (hne : as ≠ []) (hu : u.shape.getD m 0 = height s as)
    (hf : ∀ o, ∀ a ∈ as, (f (u.sliceAxis m o (rows s a.shape).prod) a).shape = join s (rows s a.shape) k ∧
      ∀ x t, inBox (rows s a.shape) x = true → t < k →
        (f (u.sliceAxis m o (rows s a.shape).prod) a).get (join s x t) = U (o + ravel (rows s a.shape) x) t) :
    Pieces s U k 0 as (List.zipWith f
      (u.split m 0 (accumulateFrom 0 (as.map fun a => (rows s a.shape).prod).dropLast)) as) := by
  suffices h : ∀ o, u.shape.getD m 0 = o + height s as → Pieces s U k o as (List.zipWith f
      (u.split m o (accumulateFrom o (as.map fun a => (rows s a.shape).prod).dropLast)) as) by
    exact h 0 (by simpa using hu)
  clear hu
  induction as with
  | nil => exact absurd rfl hne
  | cons a as ih =>
    intro o hu
    cases as with
    | nil =>
      simp only [List.map_cons, List.map_nil, List.dropLast_singleton, accumulateFrom, Arr.split]
      have : u.shape.getD m 0 - o = (rows s a.shape).prod := by
        rw [hu]; simp [height]
      rw [this]
      exact ⟨hf o a List.mem_cons_self, trivial⟩
    | cons b as =>
      simp only [List.map_cons, List.dropLast_cons_cons, accumulateFrom, Arr.split]
      rw [Nat.add_sub_cancel_left]
      refine ⟨hf o a List.mem_cons_self, ?_⟩
      have h2 := ih (by simp) (fun o a ha => hf o a (List.mem_cons_of_mem _ ha)) (o + (rows s a.shape).prod)
        (by rw [hu, height_cons]; omega)
      exact h2

end stack

/-! ### Entries of a group of blocks -/

section grp
variable {Q K : Type} [DecidableEq Q]

/-- The blocks of one group: the separate leg has the label `q` and the dimension `n`. -/
def InGroup (s : Bool) (legs : List (BondInfo Q)) (q : Q) (n : Nat) (b : List Q × Arr K) : Prop :=
  ∃ ql sl, b.1 = join s ql q ∧ b.2.shape = join s sl n ∧ IsCombination legs ql sl

theorem blockEntry_join [Zero K] {s : Bool} {legs : List (BondInfo Q)} {ql : List Q} {q : Q} {sl : List Nat} {n : Nat} {a : Arr K}
    (hc : IsCombination legs ql sl) (hs : a.shape = join s sl n) (x : List (Q × Nat)) (hx : x.length = legs.length) (q' : Q) (y : Nat) :
    blockEntry (join s ql q, a) (join s x (q', y)) =
      if (ql = x.map Prod.fst ∧ inBox sl (x.map Prod.snd) = true) ∧ q = q' ∧ y < n then a.get (join s (x.map Prod.snd) y) else 0 := by
  unfold blockEntry
  simp only [map_join, hs]
  rw [inBox_join s n y (by simp [hx, hc.lengths.2])]
  simp only [join_inj]
  by_cases h1 : ql = x.map Prod.fst <;> by_cases h2 : q = q' <;> by_cases h3 : inBox sl (x.map Prod.snd) = true <;> by_cases h4 : y < n <;> simp [h1, h2, h3, h4]

theorem entry_other [AddCommMonoid K] {s : Bool} {legs : List (BondInfo Q)} {q : Q} {n : Nat} {bs : SpT Q K}
    (h : ∀ b ∈ bs, InGroup s legs q n b) (x : List (Q × Nat)) (hx : x.length = legs.length) (q' : Q) (y : Nat) (hq : q ≠ q') :
    entry bs (join s x (q', y)) = 0 := by
  unfold entry
  apply sum_map_zero'
  intro b hb
  obtain ⟨ql, sl, h1, h2, h3⟩ := h b hb
  have : b = (join s ql q, b.2) := by rw [← h1]
  rw [this, blockEntry_join h3 h2 x hx]
  simp [hq]

theorem entry_outside [AddCommMonoid K] {s : Bool} {legs : List (BondInfo Q)} {q : Q} {n : Nat} {bs : SpT Q K}
    (h : ∀ b ∈ bs, InGroup s legs q n b) (x : List (Q × Nat)) (hx : x.length = legs.length) (q' : Q) (y : Nat) (hy : n ≤ y) :
    entry bs (join s x (q', y)) = 0 := by
  unfold entry
  apply sum_map_zero'
  intro b hb
  obtain ⟨ql, sl, h1, h2, h3⟩ := h b hb
  have : b = (join s ql q, b.2) := by rw [← h1]
  rw [this, blockEntry_join h3 h2 x hx]
  rw [if_neg]
  rintro ⟨_, _, h⟩
  omega

/-- The pieces carry the labels of the group and the new dimension. -/
theorem pieces_inGroup {s : Bool} {legs : List (BondInfo Q)} {q : Q} {n k o : Nat} {U : Nat → Nat → K} {bs : SpT Q K} {ps : List (Arr K)}
    (h : ∀ b ∈ bs, InGroup s legs q n b) (hp : Pieces s U k o (bs.map Prod.snd) ps) :
    ∀ b ∈ (bs.map Prod.fst).zip ps, InGroup s legs q k b := by
  induction bs generalizing o ps with
  | nil => simp
  | cons b bs ih =>
    cases ps with
    | nil => exact hp.elim
    | cons p ps =>
      intro c hc
      simp only [List.map_cons, List.zip_cons_cons, List.mem_cons] at hc
      rcases hc with rfl | hc
      · obtain ⟨ql, sl, h1, h2, h3⟩ := h b List.mem_cons_self
        refine ⟨ql, sl, h1, ?_, h3⟩
        have := hp.1.1
        rw [h2, rows_join] at this
        exact this
      · exact ih (fun b hb => h b (List.mem_cons_of_mem _ hb)) hp.2 c hc

/-- Multiplying the pieces with the other factor gives back the blocks. -/
theorem group_product [CommSemiring K] {s : Bool} {legs : List (BondInfo Q)} {q : Q} {n k o : Nat} {U M : Nat → Nat → K} {R : Nat → K}
    {bs : SpT Q K} {ps : List (Arr K)} {y : Nat} (hy : y < n)
    (h : ∀ b ∈ bs, InGroup s legs q n b) (hp : Pieces s U k o (bs.map Prod.snd) ps)
    (hst : Stacked s M n o (bs.map Prod.snd))
    (hprod : ∀ i, i < o + height s (bs.map Prod.snd) → ((List.range k).map fun t => U i t * R t).sum = M i y)
    (x : List (Q × Nat)) (hx : x.length = legs.length) :
    ((List.range k).map fun t => entry ((bs.map Prod.fst).zip ps) (join s x (q, t)) * R t).sum = entry bs (join s x (q, y)) := by
  induction bs generalizing o ps with
  | nil => simp [entry]
  | cons b bs ih =>
    cases ps with
    | nil => exact hp.elim
    | cons p ps =>
      obtain ⟨⟨hp1, hp2⟩, hp3⟩ := hp
      obtain ⟨hst1, hst2⟩ := hst
      obtain ⟨ql, sl, h1, h2, h3⟩ := h b List.mem_cons_self
      rw [h2, rows_join] at hp1 hp2 hst1 hp3 hst2
      have hH : height s ((b :: bs).map Prod.snd) = sl.prod + height s (bs.map Prod.snd) := by
        rw [List.map_cons, height_cons, h2, rows_join]
      have ih := ih (fun b hb => h b (List.mem_cons_of_mem _ hb)) hp3 hst2 (fun i hi => hprod i (by rw [hH]; omega))
      simp only [List.map_cons, List.zip_cons_cons]
      rw [entry_cons, ← ih]
      simp only [entry_cons, add_mul, sum_map_add']
      congr 1
      have hb : b = (join s ql q, b.2) := by rw [← h1]
      conv_rhs => rw [hb]
      rw [blockEntry_join h3 h2 x hx, h1]
      simp only [blockEntry_join h3 hp1 x hx]
      by_cases hc : ql = x.map Prod.fst ∧ inBox sl (x.map Prod.snd) = true
      · have hR := ravel_lt hc.2
        rw [if_pos ⟨hc, trivial, hy⟩, ← hst1 _ _ hc.2 hy, ← hprod _ (by rw [hH]; omega)]
        apply sum_map_congr'
        intro t ht
        rw [List.mem_range] at ht
        rw [if_pos ⟨hc, trivial, ht⟩, hp2 _ _ hc.2 ht]
      · rw [if_neg (fun hh => hc hh.1)]
        apply sum_map_zero'
        intro t _
        rw [if_neg (fun hh => hc hh.1), zero_mul]

/-- Sums over the rows of a group. -/
theorem group_isometry [CommSemiring K] [StarRing K] {s : Bool} {legs : List (BondInfo Q)} (hw : ∀ b ∈ legs, Dict.WF b) {q : Q} {n k o : Nat}
    {U : Nat → Nat → K} {bs : SpT Q K} {ps : List (Arr K)} (hu : UniqueLabels bs)
    (h : ∀ b ∈ bs, InGroup s legs q n b) (hp : Pieces s U k o (bs.map Prod.snd) ps) {t t' : Nat} (ht : t < k) (ht' : t' < k) :
    ((legIndices legs).map fun x => star (entry ((bs.map Prod.fst).zip ps) (join s x (q, t))) *
      entry ((bs.map Prod.fst).zip ps) (join s x (q, t'))).sum =
    ((List.range (height s (bs.map Prod.snd))).map fun i => star (U (o + i) t) * U (o + i) t').sum := by
  induction bs generalizing o ps with
  | nil => simp [entry, height]
  | cons b bs ih =>
    cases ps with
    | nil => exact hp.elim
    | cons p ps =>
      obtain ⟨⟨hp1, hp2⟩, hp3⟩ := hp
      obtain ⟨ql, sl, h1, h2, h3⟩ := h b List.mem_cons_self
      rw [h2, rows_join] at hp1 hp2 hp3
      have hH : height s ((b :: bs).map Prod.snd) = sl.prod + height s (bs.map Prod.snd) := by
        rw [List.map_cons, height_cons, h2, rows_join]
      have hu' : b.1 ∉ bs.map Prod.fst ∧ UniqueLabels bs := List.nodup_cons.1 hu
      have ih := ih hu'.2 (fun b hb => h b (List.mem_cons_of_mem _ hb)) hp3
      rw [hH, List.range_add, List.map_append, List.sum_append, List.map_map]
      simp only [Function.comp_def, ← Nat.add_assoc]
      rw [← ih]
      simp only [List.map_cons, List.zip_cons_cons, entry_cons]
      rw [h1]
      have hzero : ∀ x : List (Q × Nat), x.length = legs.length → ∀ t, (ql = x.map Prod.fst) →
          entry ((bs.map Prod.fst).zip ps) (join s x (q, t)) = 0 := by
        intro x hx t hql
        apply entry_of_not_mem
        intro hm
        apply hu'.1
        rw [h1, hql]
        have : (join s x (q, t)).map Prod.fst = join s (x.map Prod.fst) q := map_join _ _ _ _
        rw [this] at hm
        have hz : ((bs.map Prod.fst).zip ps).map Prod.fst = bs.map Prod.fst := by
          rw [List.map_fst_zip]
          have := Pieces.length hp3
          simp only [List.length_map] at this ⊢
          omega
        rw [hz] at hm
        exact hm
      have hsplit : ∀ x ∈ legIndices legs,
          star (blockEntry (join s ql q, p) (join s x (q, t)) + entry ((bs.map Prod.fst).zip ps) (join s x (q, t))) *
            (blockEntry (join s ql q, p) (join s x (q, t')) + entry ((bs.map Prod.fst).zip ps) (join s x (q, t'))) =
          (if ql = x.map Prod.fst ∧ inBox sl (x.map Prod.snd) = true then
            star (U (o + ravel sl (x.map Prod.snd)) t) * U (o + ravel sl (x.map Prod.snd)) t' else 0) +
          star (entry ((bs.map Prod.fst).zip ps) (join s x (q, t))) * entry ((bs.map Prod.fst).zip ps) (join s x (q, t')) := by
        intro x hxm
        have hx : x.length = legs.length := by
          have h := ((mem_cart _ _).1 hxm).length_eq
          rw [List.length_map] at h
          exact h.symm
        rw [blockEntry_join h3 hp1 x hx, blockEntry_join h3 hp1 x hx]
        by_cases hc : ql = x.map Prod.fst ∧ inBox sl (x.map Prod.snd) = true
        · rw [if_pos ⟨hc, rfl, ht⟩, if_pos ⟨hc, rfl, ht'⟩, if_pos hc, hzero x hx t hc.1, hzero x hx t' hc.1, hp2 _ _ hc.2 ht, hp2 _ _ hc.2 ht']
          simp
        · rw [if_neg (fun hh => hc hh.1), if_neg (fun hh => hc hh.1), if_neg hc]
          simp
      rw [sum_map_congr' _ _ _ hsplit, sum_map_add']
      congr 1
      rw [legIndices_sum hw h3 (fun v => star (U (o + ravel sl v) t) * U (o + ravel sl v) t')]
      exact box_sum_ravel sl (fun i => star (U (o + i) t) * U (o + i) t')

end grp

/-! ### Assembling the groups -/

section assemble
variable {Q K : Type} [DecidableEq Q]

theorem sum_dictC {β : Type} [AddCommMonoid K] {d : Dict Q β} (hd : Dict.WF d) (q : Q) (f : Q × β → K) (hf : ∀ g ∈ d, g.1 ≠ q → f g = 0) :
    (d.map f).sum = match Dict.get? d q with
      | some v => f (q, v)
      | none => 0 := by
  induction d with
  | nil => simp [Dict.get?]
  | cons a d ih =>
    obtain ⟨k, v⟩ := a
    have hd' : k ∉ d.map Prod.fst ∧ Dict.WF d := List.nodup_cons.1 hd
    rw [List.map_cons, List.sum_cons, Dict.get?_cons]
    by_cases e : k = q
    · subst e
      rw [if_pos rfl]
      rw [sum_map_zero' d f, add_zero]
      intro g hg
      refine hf g (List.mem_cons_of_mem _ hg) ?_
      intro e
      exact hd'.1 (e ▸ List.mem_map_of_mem hg)
    · rw [if_neg e, hf _ List.mem_cons_self e, zero_add]
      exact ih hd'.2 fun g hg => hf g (List.mem_cons_of_mem _ hg)

/-- What one group contributes to a factorisation. -/
structure GroupOK [Zero K] [Add K] [Mul K] (s : Bool) (legs : List (BondInfo Q)) (n : Nat) (bs : SpT Q K) (k : Nat) (ps : List (Arr K)) (ra : Arr K)
    (U : Nat → Nat → K) : Prop where
  kpos : 0 < k
  kle : k ≤ n
  pieces : Pieces s U k 0 (bs.map Prod.snd) ps
  shape : ra.shape = join s [k] n
  prod : ∃ M : Nat → Nat → K, Stacked s M n 0 (bs.map Prod.snd) ∧ ∀ y < n, ∀ i < height s (bs.map Prod.snd),
    ((List.range k).map fun t => U i t * ra.get (join s [t] y)).sum = M i y

/-- The label of the separate leg. -/
def keyOf [Zero Q] (s : Bool) (b : List Q × Arr K) : Q := if s then b.1.getLastD 0 else b.1.getD 0 0

theorem keyOf_join [Zero Q] (s : Bool) (ql : List Q) (q : Q) (a : Arr K) : keyOf s (join s ql q, a) = q := by
  cases s <;> simp [keyOf, join]

/-- Assembled from groups: the isometric factor, the other factor and the new bond. -/
structure Assembled [Zero Q] [Zero K] [Add K] [Mul K] (s : Bool) (legs : List (BondInfo Q)) (r : BondInfo Q) (T Qt Rt : SpT Q K) (k : Q × SpT Q K → Nat)
    (ps : Q × SpT Q K → List (Arr K)) (ra : Q × SpT Q K → Arr K) (U : Q × SpT Q K → Nat → Nat → K) : Prop where
  conf : Conforms (join s legs r) T
  q_eq : Qt = (groupBy (keyOf s) T).flatMap fun g => (g.2.map Prod.fst).zip (ps g)
  r_eq : Rt = (groupBy (keyOf s) T).map fun g => ([g.1, g.1], ra g)
  ok : ∀ g ∈ groupBy (keyOf s) T, ∀ n, Dict.get? r g.1 = some n → GroupOK s legs n g.2 (k g) (ps g) (ra g) (U g)

/-- The new bond. -/
def newBond [Zero Q] (s : Bool) (T : SpT Q K) (k : Q × SpT Q K → Nat) : BondInfo Q := (groupBy (keyOf s) T).map fun g => (g.1, k g)

section
variable [Zero Q] [CommSemiring K] {s : Bool} {legs : List (BondInfo Q)} {r : BondInfo Q} {T Qt Rt : SpT Q K} {k : Q × SpT Q K → Nat}
  {ps : Q × SpT Q K → List (Arr K)} {ra : Q × SpT Q K → Arr K} {U : Q × SpT Q K → Nat → Nat → K}

theorem newBond_get (q : Q) : Dict.get? (newBond s T k) q = (Dict.get? (groupBy (keyOf s) T) q).map fun bs => k (q, bs) := by
  unfold newBond
  generalize groupBy (keyOf s) T = d
  induction d with
  | nil => rfl
  | cons a d ih =>
    obtain ⟨q', bs⟩ := a
    rw [List.map_cons, Dict.get?_cons, Dict.get?_cons]
    by_cases e : q' = q
    · subst e; simp
    · simp [e, ih]

theorem newBond_wf : Dict.WF (newBond s T k) := by
  have := wf_groupBy (keyOf s) T
  unfold Dict.WF at *
  unfold newBond
  rw [List.map_map]
  exact this

theorem Assembled.group (h : Assembled s legs r T Qt Rt k ps ra U) {g : Q × SpT Q K} (hg : g ∈ groupBy (keyOf s) T) :
    ∃ n, Dict.get? r g.1 = some n ∧ (∀ b ∈ g.2, InGroup s legs g.1 n b) ∧ GroupOK s legs n g.2 (k g) (ps g) (ra g) (U g) := by
  obtain ⟨h1, h2⟩ := mem_groupBy hg
  have hall : ∀ b ∈ g.2, ∃ n, Dict.get? r g.1 = some n ∧ InGroup s legs g.1 n b := by
    intro b hb
    rw [h1, List.mem_filter] at hb
    obtain ⟨hb1, hb2⟩ := hb
    obtain ⟨ql, q, sl, n, e1, e2, e3, e4⟩ := (isCombination_join s).1 (h.conf b hb1)
    have hk : keyOf s b = q := by
      have : b = (join s ql q, b.2) := by rw [← e1]
      rw [this, keyOf_join]
    have hq : q = g.1 := by rw [← hk]; simpa using hb2
    subst hq
    exact ⟨n, e4, ql, sl, e1, e2, e3⟩
  obtain ⟨b, hb⟩ := List.exists_mem_of_ne_nil _ h2
  obtain ⟨n, hn, _⟩ := hall b hb
  refine ⟨n, hn, ?_, h.ok g hg n hn⟩
  intro b hb
  obtain ⟨n', hn', h'⟩ := hall b hb
  rw [hn] at hn'
  cases hn'
  exact h'

theorem Assembled.good (h : Assembled s legs r T Qt Rt k ps ra U) : GoodBond (newBond s T k) := by
  refine ⟨newBond_wf, ?_⟩
  intro x hx
  unfold newBond at hx
  obtain ⟨g, hg, rfl⟩ := List.mem_map.1 hx
  obtain ⟨n, _, _, hok⟩ := h.group hg
  exact hok.kpos

theorem Assembled.le (h : Assembled s legs r T Qt Rt k ps ra U) (q : Q) : Counter.count (newBond s T k) q ≤ Counter.count r q := by
  unfold Counter.count
  rw [newBond_get]
  cases hg : Dict.get? (groupBy (keyOf s) T) q with
  | none => simp
  | some bs =>
    obtain ⟨n, hn, _, hok⟩ := h.group (Dict.mem_of_get? hg)
    simp only at hn
    rw [hn]
    simpa using hok.kle

theorem Assembled.conf_q (h : Assembled s legs r T Qt Rt k ps ra U) : Conforms (join s legs (newBond s T k)) Qt := by
  intro b hb
  rw [h.q_eq, List.mem_flatMap] at hb
  obtain ⟨g, hg, hb⟩ := hb
  obtain ⟨n, hn, hin, hok⟩ := h.group hg
  obtain ⟨ql, sl, e1, e2, e3⟩ := pieces_inGroup hin hok.pieces b hb
  refine (isCombination_join s).2 ⟨ql, g.1, sl, k g, e1, e2, e3, ?_⟩
  rw [newBond_get, Dict.get?_of_mem (wf_groupBy _ _) hg]
  rfl

theorem Assembled.conf_r (h : Assembled s legs r T Qt Rt k ps ra U) : Conforms (join s [newBond s T k] r) Rt := by
  intro b hb
  rw [h.r_eq, List.mem_map] at hb
  obtain ⟨g, hg, rfl⟩ := hb
  obtain ⟨n, hn, hin, hok⟩ := h.group hg
  refine (isCombination_join s).2 ⟨[g.1], g.1, [k g], n, ?_, hok.shape, .cons ?_ .nil, hn⟩
  · cases s <;> rfl
  · rw [newBond_get, Dict.get?_of_mem (wf_groupBy _ _) hg]
    rfl

theorem Assembled.unique_r (h : Assembled s legs r T Qt Rt k ps ra U) : UniqueLabels Rt := by
  unfold UniqueLabels
  rw [h.r_eq, List.map_map]
  have := wf_groupBy (keyOf s) T
  unfold Dict.WF at this
  have he : ((groupBy (keyOf s) T).map (Prod.fst ∘ fun g => ([g.1, g.1], ra g))) = ((groupBy (keyOf s) T).map Prod.fst).map fun q => [q, q] := by
    rw [List.map_map]; rfl
  rw [he]
  exact this.map (fun a b e => by simpa using e)

theorem flatMap_filter_perm {β : Type} (key : β → Q) (l : List β) (ks : List Q) (hk : ks.Nodup) (hmem : ∀ b ∈ l, key b ∈ ks) :
    (ks.flatMap fun q => l.filter fun b => key b = q).Perm l := by
  induction l with
  | nil => simp
  | cons a l ih =>
    have ih := ih fun b hb => hmem b (List.mem_cons_of_mem _ hb)
    have ha := hmem a List.mem_cons_self
    obtain ⟨k1, k2, rfl⟩ := List.append_of_mem ha
    have hnd := List.nodup_append.1 hk
    have h1 : ∀ q ∈ k1, (a :: l).filter (fun b => key b = q) = l.filter fun b => key b = q := by
      intro q hq
      rw [List.filter_cons_of_neg]
      simp only [decide_eq_true_eq]
      exact fun e => hnd.2.2 q hq _ List.mem_cons_self e.symm
    have h2 : ∀ q ∈ k2, (a :: l).filter (fun b => key b = q) = l.filter fun b => key b = q := by
      intro q hq
      rw [List.filter_cons_of_neg]
      simp only [decide_eq_true_eq]
      intro e
      exact (List.nodup_cons.1 hnd.2.1).1 (e ▸ hq)
    rw [List.flatMap_append, List.flatMap_cons] at ih ⊢
    have e1 : (k1.flatMap fun q => (a :: l).filter fun b => key b = q) = k1.flatMap fun q => l.filter fun b => key b = q :=
      List.flatMap_congr h1
    have e2 : (k2.flatMap fun q => (a :: l).filter fun b => key b = q) = k2.flatMap fun q => l.filter fun b => key b = q :=
      List.flatMap_congr h2
    rw [e1, e2, List.filter_cons_of_pos (by simp), List.cons_append]
    exact List.perm_middle.trans (ih.cons a)

theorem groupBy_perm {β : Type} (key : β → Q) (l : List β) : ((groupBy key l).flatMap Prod.snd).Perm l := by
  have h : (groupBy key l).flatMap Prod.snd = ((groupBy key l).map Prod.fst).flatMap fun q => l.filter fun b => key b = q := by
    rw [List.flatMap_map]
    apply List.flatMap_congr
    intro g hg
    exact (mem_groupBy hg).1
  rw [h]
  apply flatMap_filter_perm _ _ _ (wf_groupBy key l)
  intro b hb
  exact Dict.mem_keys_iff.2 ⟨_, get?_groupBy_some ⟨b, hb, rfl⟩⟩

/-- The labels of the isometric factor are those of the tensor. -/
theorem Assembled.labels (h : Assembled s legs r T Qt Rt k ps ra U) : (Qt.map Prod.fst).Perm (T.map Prod.fst) := by
  have hp := (groupBy_perm (keyOf s) T).map Prod.fst
  refine List.Perm.trans ?_ hp
  rw [h.q_eq, List.map_flatMap, List.map_flatMap]
  apply List.Perm.of_eq
  apply List.flatMap_congr
  intro g hg
  obtain ⟨n, hn, hin, hok⟩ := h.group hg
  rw [List.map_fst_zip]
  have := hok.pieces.length
  simp only [List.length_map] at this ⊢
  omega

theorem Assembled.unique_q (h : Assembled s legs r T Qt Rt k ps ra U) (hu : UniqueLabels T) : UniqueLabels Qt :=
  h.labels.nodup_iff.2 hu

theorem Assembled.entry_q (h : Assembled s legs r T Qt Rt k ps ra U) (x : List (Q × Nat)) (hx : x.length = legs.length) (q : Q) (t : Nat) :
    entry Qt (join s x (q, t)) = match Dict.get? (groupBy (keyOf s) T) q with
      | some bs => entry ((bs.map Prod.fst).zip (ps (q, bs))) (join s x (q, t))
      | none => 0 := by
  rw [h.q_eq]
  unfold entry
  rw [sum_flatMap']
  refine (sum_dictC (wf_groupBy (keyOf s) T) q (fun g => (((g.2.map Prod.fst).zip (ps g)).map fun b => blockEntry b (join s x (q, t))).sum) ?_).trans ?_
  · intro g hg hne
    obtain ⟨n, hn, hin, hok⟩ := h.group hg
    exact entry_other (pieces_inGroup hin hok.pieces) x hx q t hne
  · cases Dict.get? (groupBy (keyOf s) T) q <;> rfl

theorem Assembled.entry_t (h : Assembled s legs r T Qt Rt k ps ra U) (x : List (Q × Nat)) (hx : x.length = legs.length) (q : Q) (t : Nat) :
    entry T (join s x (q, t)) = match Dict.get? (groupBy (keyOf s) T) q with
      | some bs => entry bs (join s x (q, t))
      | none => 0 := by
  have : entry T (join s x (q, t)) = entry ((groupBy (keyOf s) T).flatMap Prod.snd) (join s x (q, t)) := by
    unfold entry
    exact ((groupBy_perm (keyOf s) T).symm.map _).sum_eq
  rw [this]
  unfold entry
  rw [sum_flatMap']
  refine (sum_dictC (wf_groupBy (keyOf s) T) q (fun g => (g.2.map fun b => blockEntry b (join s x (q, t))).sum) ?_).trans ?_
  · intro g hg hne
    obtain ⟨n, hn, hin, hok⟩ := h.group hg
    exact entry_other hin x hx q t hne
  · cases Dict.get? (groupBy (keyOf s) T) q <;> rfl

theorem Assembled.entry_r (h : Assembled s legs r T Qt Rt k ps ra U) (q : Q) (t : Nat) (q' : Q) (y : Nat) :
    entry Rt (join s [(q, t)] (q', y)) = match Dict.get? (groupBy (keyOf s) T) q with
      | some bs => if t < k (q, bs) ∧ q = q' ∧ y < Counter.count r q then (ra (q, bs)).get (join s [t] y) else 0
      | none => 0 := by
  have hb : ∀ g ∈ groupBy (keyOf s) T, blockEntry ([g.1, g.1], ra g) (join s [(q, t)] (q', y)) =
      if g.1 = q ∧ t < k g ∧ q = q' ∧ y < Counter.count r q then (ra g).get (join s [t] y) else 0 := by
    intro g hg
    obtain ⟨n, hn, hin, hok⟩ := h.group hg
    have e : ([g.1, g.1], ra g) = (join s [g.1] g.1, ra g) := by cases s <;> rfl
    have hc : IsCombination [newBond s T k] [g.1] [k g] := by
      refine .cons ?_ .nil
      rw [newBond_get, Dict.get?_of_mem (wf_groupBy _ _) hg]
      rfl
    rw [e, blockEntry_join hc hok.shape [(q, t)] rfl q' y]
    have hcount : Counter.count r g.1 = n := by simp [Counter.count, hn]
    simp only [List.map_cons, List.map_nil, List.cons.injEq, and_true, inBox, Bool.and_true, decide_eq_true_eq]
    by_cases e1 : g.1 = q
    · subst e1
      rw [hcount]
      simp only [true_and]
    · simp [e1]
  rw [h.r_eq]
  unfold entry
  rw [List.map_map]
  have h1 := sum_dictC (wf_groupBy (keyOf s) T) q (fun g => blockEntry ([g.1, g.1], ra g) (join s [(q, t)] (q', y))) (by
    intro g hg hne
    rw [hb g hg]
    simp [hne])
  refine Eq.trans h1 ?_
  cases hg : Dict.get? (groupBy (keyOf s) T) q with
  | none => rfl
  | some bs =>
    simp only
    rw [hb _ (Dict.mem_of_get? hg)]
    simp only [true_and]

/-- The two factors give back the tensor. -/
theorem Assembled.product (h : Assembled s legs r T Qt Rt k ps ra U) (x : List (Q × Nat)) (hx : x.length = legs.length) (y : Q × Nat) :
    ((legBasis (newBond s T k)).map fun z => entry Qt (join s x z) * entry Rt (join s [z] y)).sum = entry T (join s x y) := by
  obtain ⟨q', y⟩ := y
  unfold legBasis newBond
  rw [sum_flatMap', List.map_map]
  have h1 := sum_dictC (wf_groupBy (keyOf s) T) q' (fun g => ((List.range (k g)).map fun t =>
    entry Qt (join s x (g.1, t)) * entry Rt (join s [(g.1, t)] (q', y))).sum) (by
      intro g hg hne
      apply sum_map_zero'
      intro t _
      rw [h.entry_r, Dict.get?_of_mem (wf_groupBy _ _) hg]
      simp [hne])
  simp only [List.map_map, Function.comp_def]
  refine Eq.trans h1 ?_
  rw [h.entry_t x hx]
  cases hg : Dict.get? (groupBy (keyOf s) T) q' with
  | none => rfl
  | some bs =>
    obtain ⟨n, hn, hin, hok⟩ := h.group (Dict.mem_of_get? hg)
    simp only at hn hin
    have hcount : Counter.count r q' = n := by simp [Counter.count, hn]
    obtain ⟨M, hM, hprod⟩ := hok.prod
    simp only
    by_cases hy : y < n
    · rw [← group_product hy hin hok.pieces hM (fun i hi => hprod y hy i (by simpa using hi)) x hx]
      apply sum_map_congr'
      intro t ht
      rw [List.mem_range] at ht
      rw [h.entry_q x hx, h.entry_r, hg]
      simp only [hcount, ht, hy, and_self, if_true]
    · rw [entry_outside hin x hx q' y (by omega)]
      apply sum_map_zero'
      intro t _
      rw [h.entry_r, hg]
      simp [hcount, hy]

/-- The first factor is an isometry when the dense one is. -/
theorem Assembled.isometry [StarRing K] (h : Assembled s legs r T Qt Rt k ps ra U) (hw : ∀ b ∈ legs, Dict.WF b) (hu : UniqueLabels T)
    (hdet : ∀ ql q q', join s ql q ∈ T.map Prod.fst → join s ql q' ∈ T.map Prod.fst → q = q')
    (hU : ∀ g ∈ groupBy (keyOf s) T, ∀ t < k g, ∀ t' < k g,
      ((List.range (height s (g.2.map Prod.snd))).map fun i => star (U g i t) * U g i t').sum = if t = t' then 1 else 0) :
    ∀ z ∈ legBasis (newBond s T k), ∀ z' ∈ legBasis (newBond s T k),
      ((legIndices legs).map fun x => star (entry Qt (join s x z)) * entry Qt (join s x z')).sum = if z = z' then 1 else 0 := by
  have hmemB : ∀ z ∈ legBasis (newBond s T k), ∃ bs, Dict.get? (groupBy (keyOf s) T) z.1 = some bs ∧ z.2 < k (z.1, bs) := by
    intro z hz
    unfold legBasis newBond at hz
    simp only [List.mem_flatMap, List.mem_map, List.mem_range] at hz
    obtain ⟨_, ⟨g, hg, rfl⟩, i, hi, rfl⟩ := hz
    exact ⟨g.2, Dict.get?_of_mem (wf_groupBy _ _) hg, hi⟩
  have hlen : ∀ x ∈ legIndices legs, x.length = legs.length := by
    intro x hxm
    have h := ((mem_cart _ _).1 hxm).length_eq
    rw [List.length_map] at h
    exact h.symm
  rintro ⟨q, t⟩ hz ⟨q', t'⟩ hz'
  obtain ⟨bs, hbs, ht⟩ := hmemB _ hz
  obtain ⟨bs', hbs', ht'⟩ := hmemB _ hz'
  simp only at hbs ht hbs' ht'
  by_cases e : q = q'
  · subst e
    rw [hbs] at hbs'
    cases hbs'
    obtain ⟨n, hn, hin, hok⟩ := h.group (Dict.mem_of_get? hbs)
    simp only at hn hin
    have hub : UniqueLabels bs := by
      have := (mem_groupBy (Dict.mem_of_get? hbs)).1
      simp only at this
      rw [this]
      exact hu.sublist (List.filter_sublist.map _)
    have h2 := group_isometry hw hub hin hok.pieces ht ht'
    simp only [Nat.zero_add] at h2
    rw [hU _ (Dict.mem_of_get? hbs) t ht t' ht'] at h2
    rw [sum_map_congr' _ _ _ (fun x hx => by rw [h.entry_q x (hlen x hx), h.entry_q x (hlen x hx), hbs])]
    refine h2.trans ?_
    simp
  · rw [if_neg (by simp [e])]
    apply sum_map_zero'
    intro x hx
    have hor : entry Qt (join s x (q, t)) = 0 ∨ entry Qt (join s x (q', t')) = 0 := by
      by_contra hcon
      rw [not_or] at hcon
      have m1 : (join s x (q, t)).map Prod.fst ∈ Qt.map Prod.fst := by
        by_contra hc
        exact hcon.1 (entry_of_not_mem hc)
      have m2 : (join s x (q', t')).map Prod.fst ∈ Qt.map Prod.fst := by
        by_contra hc
        exact hcon.2 (entry_of_not_mem hc)
      rw [map_join] at m1 m2
      exact e (hdet _ _ _ (h.labels.mem_iff.1 m1) (h.labels.mem_iff.1 m2))
    rcases hor with h0 | h0 <;> simp [h0]

end
end assemble

/-! ### The three ways of stacking -/

section ways
variable {K : Type}

theorem height_pos {s : Bool} {as : List (Arr K)} (hne : as ≠ []) (h : ∀ a ∈ as, 0 < (rows s a.shape).prod) : 0 < height s as := by
  obtain ⟨a, as, rfl⟩ := List.exists_cons_of_ne_nil hne
  have := h a List.mem_cons_self
  rw [height_cons]
  omega

theorem div_rows {s : Bool} {sl : List Nat} {n : Nat} (h : 0 < sl.prod) : (join s sl n).prod / sl.prod = n := by
  rw [prod_join, Nat.mul_div_cancel_left _ h]

theorem swap2 {α : Type} (i y : Nat) : unpick [1, 0] [i, y] = [y, i] := by
  simp [unpick, List.range_succ]

/-- The arrays of a group: dimension `n` on the separate leg, and no empty rows. -/
def GroupShapes (s : Bool) (n : Nat) (as : List (Arr K)) : Prop := ∀ a ∈ as, ∃ sl, a.shape = join s sl n ∧ 0 < sl.prod

theorem GroupShapes.pos {s : Bool} {n : Nat} {as : List (Arr K)} (h : GroupShapes s n as) : ∀ a ∈ as, 0 < (rows s a.shape).prod := by
  intro a ha
  obtain ⟨sl, h1, h2⟩ := h a ha
  rw [h1, rows_join]
  exact h2

section left
variable [Zero K] {n : Nat} {as : List (Arr K)}

theorem stackLeft_shape (h : GroupShapes true n as) (hne : as ≠ []) : (stackLeft as).shape = [height true as, n] := by
  unfold stackLeft
  refine concat_shapeC 0 (c := n) _ (fun a => (rows true a.shape).prod) (by omega) as hne ?_
  intro a ha
  obtain ⟨sl, h1, h2⟩ := h a ha
  have hr : (join true sl n).dropLast = sl := by simp [join]
  simp only [Arr.reshape, if_true, hr, h1, rows_join, div_rows h2]

theorem stackLeft_stacked (h : GroupShapes true n as) : Stacked true (fun i y => (stackLeft as).get [i, y]) n 0 as := by
  unfold stackLeft Arr.concat
  refine stacked_concat true n _ as ?_ ?_
  · intro a ha
    obtain ⟨sl, h1, h2⟩ := h a ha
    have hr : (join true sl n).dropLast = sl := by simp [join]
    simp only [Arr.reshape, hr, h1, rows_join, div_rows h2]
  · intro a ha x y hx hy
    obtain ⟨sl, h1, h2⟩ := h a ha
    have hr : (join true sl n).dropLast = sl := by simp [join]
    rw [h1, rows_join] at hx
    simp only [Arr.reshape, hr, h1, rows_join, div_rows h2]
    have := reshape_group (l := []) (s := sl) (r := [n]) (il := []) (ir := [y]) (j := ravel sl x) rfl (ravel_lt hx) (by simp [inBox, hy])
    simp only [List.nil_append, List.singleton_append] at this
    simp only [join, if_true]
    rw [this, unravel_ravel hx]

omit [Zero K] in
theorem leftPieces_pieces {u : Arr K} {k : Nat} (h : GroupShapes true n as) (hne : as ≠ []) (hu : u.shape = [height true as, k]) :
    Pieces true (fun i t => u.get [i, t]) k 0 as (leftPieces u k as) := by
  unfold leftPieces
  refine pieces_split true 0 u _ k (fun p a => p.reshape (a.shape.dropLast ++ [k])) as hne (by rw [hu]; rfl) ?_
  intro o a ha
  obtain ⟨sl, h1, h2⟩ := h a ha
  have hr : (join true sl n).dropLast = sl := by simp [join]
  refine ⟨?_, ?_⟩
  · simp only [Arr.reshape, hr, h1, rows_join]
    simp [join]
  · intro x t hx ht
    rw [h1, rows_join] at hx
    have := reshape_ungroup (l := []) (s := sl) (r := [k]) (il := []) (ir := [t]) (is := x) rfl hx (by simp [inBox, ht])
    simp only [List.nil_append, List.singleton_append] at this
    simp only [Arr.reshape, Arr.sliceAxis, hr, h1, rows_join, hu, List.set_cons_zero]
    simp only [join, if_true]
    rw [this]
    simp [Nat.add_comm]

end left

section right
variable [Zero K] {n : Nat} {as : List (Arr K)}

theorem stackRightT_shape (h : GroupShapes false n as) (hne : as ≠ []) : (stackRightT as).shape = [height false as, n] := by
  unfold stackRightT
  refine concat_shapeC 0 (c := n) _ (fun a => (rows false a.shape).prod) (by omega) as hne ?_
  intro a ha
  obtain ⟨sl, h1, h2⟩ := h a ha
  have hr : (join false sl n).tail = sl := by simp [join]
  simp only [Arr.transpose, Arr.reshape, if_true, hr, h1, rows_join, div_rows h2]
  simp [Verif.pick]

theorem stackRight_shape (h : GroupShapes false n as) (hne : as ≠ []) : (stackRight as).shape = [n, height false as] := by
  unfold stackRight
  refine concat_shapeC 1 (c := n) _ (fun a => (rows false a.shape).prod) (by omega) as hne ?_
  intro a ha
  obtain ⟨sl, h1, h2⟩ := h a ha
  have hr : (join false sl n).tail = sl := by simp [join]
  simp only [Arr.reshape, hr, h1, rows_join, div_rows h2]
  simp

theorem reshape_right_get {a : Arr K} {sl x : List Nat} {y : Nat} (h1 : a.shape = join false sl n) (h2 : 0 < sl.prod) (hx : inBox sl x = true) (hy : y < n) :
    (a.reshape [a.shape.prod / a.shape.tail.prod, a.shape.tail.prod]).get [y, ravel sl x] = a.get (y :: x) := by
  have hr : (join false sl n).tail = sl := by simp [join]
  simp only [Arr.reshape, hr, h1, div_rows h2]
  have := reshape_group (l := [n]) (s := sl) (r := []) (il := [y]) (ir := []) (j := ravel sl x) (by simp [inBox, hy]) (ravel_lt hx) rfl
  simp only [List.append_nil, List.singleton_append] at this
  simp only [join, Bool.false_eq_true, if_false]
  rw [this, unravel_ravel hx]

theorem stackRightT_stacked (h : GroupShapes false n as) : Stacked false (fun i y => (stackRightT as).get [i, y]) n 0 as := by
  unfold stackRightT Arr.concat
  refine stacked_concat false n _ as ?_ ?_
  · intro a ha
    obtain ⟨sl, h1, h2⟩ := h a ha
    have hr : (join false sl n).tail = sl := by simp [join]
    simp only [Arr.transpose, Arr.reshape, hr, h1, rows_join, div_rows h2]
    simp [Verif.pick]
  · intro a ha x y hx hy
    obtain ⟨sl, h1, h2⟩ := h a ha
    rw [h1, rows_join] at hx
    simp only [Arr.transpose]
    rw [swap2 (α := Nat)]
    rw [h1, rows_join, ← h1]
    exact reshape_right_get h1 h2 hx hy

theorem stackRight_stacked (h : GroupShapes false n as) : Stacked false (fun i y => (stackRight as).get [y, i]) n 0 as := by
  unfold stackRight Arr.concat
  refine stacked_concat1 false n _ as ?_ ?_
  · intro a ha
    obtain ⟨sl, h1, h2⟩ := h a ha
    have hr : (join false sl n).tail = sl := by simp [join]
    simp only [Arr.reshape, hr, h1, rows_join, div_rows h2]
  · intro a ha x y hx hy
    obtain ⟨sl, h1, h2⟩ := h a ha
    rw [h1, rows_join] at hx
    rw [h1, rows_join, ← h1]
    exact reshape_right_get h1 h2 hx hy

omit [Zero K] in
theorem rightPiecesT_pieces {u : Arr K} {k : Nat} (h : GroupShapes false n as) (hne : as ≠ []) (hu : u.shape = [height false as, k]) :
    Pieces false (fun i t => u.get [i, t]) k 0 as (rightPiecesT u k as) := by
  unfold rightPiecesT
  refine pieces_split false 0 u _ k (fun p a => (p.transpose [1, 0]).reshape (k :: a.shape.tail)) as hne (by rw [hu]; rfl) ?_
  intro o a ha
  obtain ⟨sl, h1, h2⟩ := h a ha
  have hr : (join false sl n).tail = sl := by simp [join]
  refine ⟨?_, ?_⟩
  · simp only [Arr.reshape, hr, h1, rows_join]
    simp [join]
  · intro x t hx ht
    rw [h1, rows_join] at hx
    have := reshape_ungroup (l := [k]) (s := sl) (r := []) (il := [t]) (ir := []) (is := x) (by simp [inBox, ht]) hx rfl
    simp only [List.append_nil, List.singleton_append] at this
    simp only [Arr.reshape, Arr.transpose, Arr.sliceAxis, hr, h1, rows_join, hu, List.set_cons_zero]
    simp only [join, Bool.false_eq_true, if_false]
    have hpk : pick [1, 0] [sl.prod, k] = [k, sl.prod] := by simp [Verif.pick]
    rw [hpk, this, swap2 (α := Nat)]
    simp [Nat.add_comm]

omit [Zero K] in
theorem rightPieces_pieces {vh : Arr K} {k : Nat} (h : GroupShapes false n as) (hne : as ≠ []) (hu : vh.shape = [k, height false as]) :
    Pieces false (fun i t => vh.get [t, i]) k 0 as (rightPieces vh as) := by
  unfold rightPieces
  refine pieces_split false 1 vh _ k (fun p a => p.reshape (vh.shape.getD 0 0 :: a.shape.tail)) as hne (by rw [hu]; rfl) ?_
  intro o a ha
  obtain ⟨sl, h1, h2⟩ := h a ha
  have hr : (join false sl n).tail = sl := by simp [join]
  have hk : vh.shape.getD 0 0 = k := by rw [hu]; rfl
  refine ⟨?_, ?_⟩
  · simp only [Arr.reshape, hr, h1, rows_join, hk]
    simp [join]
  · intro x t hx ht
    rw [h1, rows_join] at hx
    have := reshape_ungroup (l := [k]) (s := sl) (r := []) (il := [t]) (ir := []) (is := x) (by simp [inBox, ht]) hx rfl
    simp only [List.append_nil, List.singleton_append] at this
    simp only [Arr.reshape, Arr.sliceAxis, hr, h1, rows_join, hk]
    simp only [join, Bool.false_eq_true, if_false, hu, List.set_cons_succ, List.set_cons_zero]
    rw [this]
    simp [Nat.add_comm]

end right
end ways

/-! ### The groups of the model -/

section models
variable {Q K : Type} [DecidableEq Q] [Zero Q]

theorem isCombination_prod_pos {legs : List (BondInfo Q)} {ql : List Q} {sl : List Nat} (hg : ∀ b ∈ legs, GoodBond b)
    (h : IsCombination legs ql sl) : 0 < sl.prod := by
  induction h with
  | nil => simp
  | cons h1 _ ih =>
    rw [List.prod_cons]
    exact Nat.mul_pos ((hg _ List.mem_cons_self).2 _ (Dict.mem_of_get? h1)) (ih fun b hb => hg b (List.mem_cons_of_mem _ hb))

theorem group_shapes {s : Bool} {legs : List (BondInfo Q)} {r : BondInfo Q} {T : SpT Q K} (hc : Conforms (join s legs r) T)
    (hg : ∀ b ∈ legs, GoodBond b) {g : Q × SpT Q K} (hm : g ∈ groupBy (keyOf s) T) {n : Nat} (hn : Dict.get? r g.1 = some n) :
    GroupShapes s n (g.2.map Prod.snd) ∧ g.2.map Prod.snd ≠ [] := by
  obtain ⟨h1, h2⟩ := mem_groupBy hm
  refine ⟨?_, by simpa using h2⟩
  intro a ha
  obtain ⟨b, hb, rfl⟩ := List.mem_map.1 ha
  rw [h1, List.mem_filter] at hb
  obtain ⟨hb1, hb2⟩ := hb
  obtain ⟨ql, q, sl, n', e1, e2, e3, e4⟩ := (isCombination_join s).1 (hc b hb1)
  have hk : keyOf s b = q := by
    have : b = (join s ql q, b.2) := by rw [← e1]
    rw [this, keyOf_join]
  have hq : q = g.1 := by rw [← hk]; simpa using hb2
  subst hq
  rw [hn] at e4
  cases e4
  exact ⟨sl, e2, isCombination_prod_pos hg e3⟩

variable [CommSemiring K]

theorem assembled_left (qr : Arr K → Arr K × Arr K) (hqr : Factorises qr) {legs : List (BondInfo Q)} {r : BondInfo Q} {T : SpT Q K}
    (hc : Conforms (legs ++ [r]) T) (hg : ∀ b ∈ legs, GoodBond b) (hr : GoodBond r) :
    Assembled true legs r T (SpT.leftCanonicalize qr T).1 (SpT.leftCanonicalize qr T).2
      (fun g => (qr (stackLeft (g.2.map Prod.snd))).2.shape.getD 0 0)
      (fun g => leftPieces (qr (stackLeft (g.2.map Prod.snd))).1 ((qr (stackLeft (g.2.map Prod.snd))).2.shape.getD 0 0) (g.2.map Prod.snd))
      (fun g => (qr (stackLeft (g.2.map Prod.snd))).2)
      (fun g i t => (qr (stackLeft (g.2.map Prod.snd))).1.get [i, t]) := by
  have hc' : Conforms (join true legs r) T := hc
  refine ⟨hc', rfl, rfl, ?_⟩
  intro g hm n hn
  obtain ⟨hs, hne⟩ := group_shapes hc' hg hm hn
  have hnp : 0 < n := hr.2 _ (Dict.mem_of_get? hn)
  have hsh := stackLeft_shape hs hne
  have hp := height_pos hne hs.pos
  have h1 := hqr.left _ _ _ hsh hp hnp
  have h2 := hqr.right _ _ _ hsh hp hnp
  have hk : (qr (stackLeft (g.2.map Prod.snd))).2.shape.getD 0 0 = min (height true (g.2.map Prod.snd)) n := by rw [h2]; rfl
  refine ⟨?_, ?_, ?_, ?_, ?_⟩
  · rw [hk]; omega
  · rw [hk]; omega
  · rw [hk]
    exact leftPieces_pieces hs hne h1
  · rw [hk, h2]; rfl
  · refine ⟨_, stackLeft_stacked hs, ?_⟩
    intro y hy i hi
    rw [hk]
    exact hqr.product _ _ _ hsh hp hnp i hi y hy

theorem assembled_right (qr : Arr K → Arr K × Arr K) (hqr : Factorises qr) {legs : List (BondInfo Q)} {r : BondInfo Q} {T : SpT Q K}
    (hc : Conforms (r :: legs) T) (hg : ∀ b ∈ legs, GoodBond b) (hr : GoodBond r) :
    Assembled false legs r T (SpT.rightCanonicalize qr T).2 (SpT.rightCanonicalize qr T).1
      (fun g => (qr (stackRightT (g.2.map Prod.snd))).2.shape.getD 0 0)
      (fun g => rightPiecesT (qr (stackRightT (g.2.map Prod.snd))).1 ((qr (stackRightT (g.2.map Prod.snd))).2.shape.getD 0 0) (g.2.map Prod.snd))
      (fun g => (qr (stackRightT (g.2.map Prod.snd))).2.transpose [1, 0])
      (fun g i t => (qr (stackRightT (g.2.map Prod.snd))).1.get [i, t]) := by
  have hc' : Conforms (join false legs r) T := hc
  refine ⟨hc', rfl, rfl, ?_⟩
  intro g hm n hn
  obtain ⟨hs, hne⟩ := group_shapes hc' hg hm hn
  have hnp : 0 < n := hr.2 _ (Dict.mem_of_get? hn)
  have hsh := stackRightT_shape hs hne
  have hp := height_pos hne hs.pos
  have h1 := hqr.left _ _ _ hsh hp hnp
  have h2 := hqr.right _ _ _ hsh hp hnp
  have hk : (qr (stackRightT (g.2.map Prod.snd))).2.shape.getD 0 0 = min (height false (g.2.map Prod.snd)) n := by rw [h2]; rfl
  refine ⟨?_, ?_, ?_, ?_, ?_⟩
  · rw [hk]; omega
  · rw [hk]; omega
  · rw [hk]
    exact rightPiecesT_pieces hs hne h1
  · rw [hk]
    simp only [Arr.transpose, h2]
    simp [Verif.pick, join]
  · refine ⟨_, stackRightT_stacked hs, ?_⟩
    intro y hy i hi
    rw [hk]
    have := hqr.product _ _ _ hsh hp hnp i hi y hy
    rw [← this]
    apply sum_map_congr'
    intro t _
    simp only [Arr.transpose, join, Bool.false_eq_true, if_false]
    rw [swap2 (α := Nat)]

end models

end Verif
