import Verif.Proof.BondInfo
import Mathlib.Data.List.Basic
import Mathlib.Tactic.Linarith
import Mathlib.Tactic.Ring
import Mathlib.Algebra.Order.BigOperators.Group.List

/-!
Properties C05-C07: products, set operations and truncation of bonds.
A bond is a finite map from labels to multiplicities; `Counter.count b q` is the multiplicity of `q`.
`Dict.WF b` (distinct keys) holds for every Python dictionary.
-/

namespace Verif
open BondInfo

/-! ### C05 -/

section C05
variable {Q : Type} [DecidableEq Q] [Add Q]

/-- C05: multiplicity of every label in the product; with a reference exactly the labels of the
reference survive. -/
theorem C05_count (a b : BondInfo Q) (ref : Option (BondInfo Q)) (q : Q) :
    Counter.count (tensorProduct a b ref) q =
      if (∀ r ∈ ref, q ∈ Dict.keys r) then
        (a.flatMap fun x => b.map fun y => if x.1 + y.1 = q then x.2 * y.2 else 0).sum
      else 0 := by
  have hok : (ref.all fun r => Dict.has r q) = true ↔ ∀ r ∈ ref, q ∈ Dict.keys r := by
    cases ref with
    | none => simp
    | some r => simp [Dict.has_iff, Dict.keys]
  have key : ∀ r : BondInfo Q, Counter.count (a.foldl (fun quanta (x : Q × Nat) =>
      b.foldl (fun quanta (y : Q × Nat) =>
        if ref.all (fun r => Dict.has r (x.1 + y.1)) then
          Counter.incr quanta (x.1 + y.1) (x.2 * y.2) else quanta) quanta) r) q =
      Counter.count r q + if (ref.all fun r => Dict.has r q) then
        (a.flatMap fun x => b.map fun y => if x.1 + y.1 = q then x.2 * y.2 else 0).sum else 0 := by
    induction a with
    | nil => intro r; simp
    | cons x t ih =>
      intro r
      simp only [List.foldl_cons]
      rw [ih, count_inner (fun z => ref.all fun r => Dict.has r z)]
      by_cases h : (ref.all fun r => Dict.has r q) = true
      · simp [h, List.flatMap_cons]; omega
      · simp [h]
  have := key []
  simp only [Counter.count_nil, Nat.zero_add, hok] at this
  exact this

/-- C05: the total dimension of the product is the product of the total dimensions. -/
theorem C05_dim (a b : BondInfo Q) : nBonds (tensorProduct a b none) = nBonds a * nBonds b := by
  have key : ∀ r : BondInfo Q, (Dict.values (a.foldl (fun quanta (x : Q × Nat) =>
      b.foldl (fun quanta (y : Q × Nat) => Counter.incr quanta (x.1 + y.1) (x.2 * y.2)) quanta) r)).sum
      = (Dict.values r).sum + (Dict.values a).sum * (Dict.values b).sum := by
    induction a with
    | nil => intro r; simp [Dict.values]
    | cons x t ih =>
      intro r
      simp only [List.foldl_cons]
      rw [ih, sum_inner]
      simp only [Dict.values, List.map_cons, List.sum_cons, Nat.add_mul]
      omega
  have := key []
  simpa [nBonds, tensorProduct, Dict.values] using this

/-- C05: labels of the product are distinct keys. -/
theorem C05_wf (a b : BondInfo Q) (ref : Option (BondInfo Q)) :
    Dict.WF (tensorProduct a b ref) := by
  have key : ∀ r : BondInfo Q, Dict.WF r → Dict.WF (a.foldl (fun quanta (x : Q × Nat) =>
      b.foldl (fun quanta (y : Q × Nat) =>
        if ref.all (fun r => Dict.has r (x.1 + y.1)) then
          Counter.incr quanta (x.1 + y.1) (x.2 * y.2) else quanta) quanta) r) := by
    induction a with
    | nil => intro r hr; simpa using hr
    | cons x t ih =>
      intro r hr
      simp only [List.foldl_cons]
      apply ih
      clear ih
      induction b generalizing r with
      | nil => simpa using hr
      | cons y s ih2 =>
        simp only [List.foldl_cons]
        apply ih2
        split_ifs
        · exact hr.set _ _
        · exact hr
  exact key [] Dict.WF.nil

end C05

/-- two half-filled-looking bonds over the integers: labels 0+1 and 1+0 collide. -/
example : tensorProduct [((0 : Int), 2), (1, 3)] [(0, 5), (1, 7)] none
    = [(0, 10), (1, 29), (2, 21)] := by decide

/-! ### C06 -/

section C06
variable {Q : Type} [DecidableEq Q]

/-- C06: intersection is the pointwise minimum. -/
theorem C06_inter (a b : BondInfo Q) (ha : Dict.WF a) (q : Q) :
    Counter.count (inter a b) q = min (Counter.count a q) (Counter.count b q) := by
  have := Dict.get?_foldl_set
    (fun k v => decide (0 < if v < Counter.count b k then v else Counter.count b k))
    (fun k v => if v < Counter.count b k then v else Counter.count b k) a ha [] q
  simp only [decide_eq_true_eq] at this
  simp only [Counter.count, inter] at *
  rw [this]
  obtain ⟨x, hx⟩ : ∃ x, Dict.get? a q = x := ⟨_, rfl⟩
  obtain ⟨y, hy⟩ : ∃ y, Dict.get? b q = y := ⟨_, rfl⟩
  rcases x with _ | v <;> rcases y with _ | w <;> simp [hx, hy]
  by_cases h : v < w <;> simp [h]
  · by_cases h0 : 0 < v <;> simp [h0] <;> omega
  · by_cases h0 : 0 < w <;> simp [h0] <;> omega

/-- C06: union is the pointwise maximum. -/
theorem C06_union (a b : BondInfo Q) (ha : Dict.WF a) (hb : Dict.WF b) (q : Q) :
    Counter.count (union a b) q = max (Counter.count a q) (Counter.count b q) := by
  have h1 := Dict.get?_foldl_set
    (fun k v => decide (0 < if v < Counter.count b k then Counter.count b k else v))
    (fun k v => if v < Counter.count b k then Counter.count b k else v) a ha [] q
  have h2 := fun r => Dict.get?_foldl_set
    (fun k v => !Dict.has a k && decide (0 < v)) (fun _ v => v) b hb r q
  simp only [decide_eq_true_eq] at h1
  simp only [Counter.count, union] at *
  rw [h2, h1]
  have ha' : Dict.has a q = (Dict.get? a q).isSome := rfl
  rw [ha']
  obtain ⟨x, hx⟩ : ∃ x, Dict.get? a q = x := ⟨_, rfl⟩
  obtain ⟨y, hy⟩ : ∃ y, Dict.get? b q = y := ⟨_, rfl⟩
  rcases x with _ | v <;> rcases y with _ | w <;> simp [hx, hy]
  · by_cases hw : 0 < w <;> simp [hw]; omega
  · by_cases hv : 0 < v <;> simp [hv]; omega
  · by_cases hvw : v < w <;> simp [hvw]
    · by_cases hw : 0 < w <;> simp [hw] <;> omega
    · by_cases hv : 0 < v <;> simp [hv] <;> omega

/-- C06: the sum of bonds adds multiplicities. -/
theorem C06_add (a b : BondInfo Q) (ha : Dict.WF a) (hb : Dict.WF b) (q : Q) :
    Counter.count (addCounts a b) q = Counter.count a q + Counter.count b q := by
  have h1 := Dict.get?_foldl_set
    (fun k v => decide (0 < v + Counter.count b k))
    (fun k v => v + Counter.count b k) a ha [] q
  have h2 := fun r => Dict.get?_foldl_set
    (fun k v => !Dict.has a k && decide (0 < v)) (fun _ v => v) b hb r q
  simp only [decide_eq_true_eq] at h1
  simp only [Counter.count, addCounts] at *
  rw [h2, h1]
  have ha' : Dict.has a q = (Dict.get? a q).isSome := rfl
  rw [ha']
  obtain ⟨x, hx⟩ : ∃ x, Dict.get? a q = x := ⟨_, rfl⟩
  obtain ⟨y, hy⟩ : ∃ y, Dict.get? b q = y := ⟨_, rfl⟩
  rcases x with _ | v <;> rcases y with _ | w <;> simp [hx, hy]
  · by_cases hw : 0 < w <;> simp [hw]; omega
  · by_cases hv : 0 < v <;> simp [hv]; omega
  · by_cases hvw : 0 < v ∨ 0 < w
    · simp [hvw]
    · have h1 : v = 0 := by omega
      have h2 : w = 0 := by omega
      simp [h1, h2]

/-- C06: filtering keeps the common labels (as keys) with the smaller multiplicity. -/
theorem C06_filter_get (a b : BondInfo Q) (ha : Dict.WF a) (q : Q) :
    Dict.get? (filter a b) q =
      match Dict.get? a q, Dict.get? b q with
      | some v, some w => some (min v w)
      | _, _ => none := by
  have := Dict.get?_foldl_set (fun k _ => Dict.has b k)
    (fun k v => min (Counter.count b k) v) a ha [] q
  simp only [filter, this]
  cases h : Dict.get? a q with
  | none => simp
  | some v =>
    cases h' : Dict.get? b q with
    | none => simp [Dict.has, h']
    | some w => simp [Dict.has, h', Counter.count, Nat.min_comm]

theorem C06_filter (a b : BondInfo Q) (ha : Dict.WF a) (q : Q) :
    Counter.count (filter a b) q = min (Counter.count a q) (Counter.count b q) := by
  unfold Counter.count
  rw [C06_filter_get a b ha]
  cases Dict.get? a q <;> cases Dict.get? b q <;> simp

/-- C06: the operations return dictionaries with distinct keys. -/
theorem C06_wf (a b : BondInfo Q) :
    Dict.WF (inter a b) ∧ Dict.WF (union a b) ∧ Dict.WF (addCounts a b) ∧ Dict.WF (filter a b) := by
  refine ⟨?_, ?_, ?_, ?_⟩
  · simpa [inter] using Dict.WF_foldl_set
      (fun k v => decide (0 < if v < Counter.count b k then v else Counter.count b k))
      (fun k v => if v < Counter.count b k then v else Counter.count b k) a [] Dict.WF.nil
  · have h1 := Dict.WF_foldl_set
      (fun k v => decide (0 < if v < Counter.count b k then Counter.count b k else v))
      (fun k v => if v < Counter.count b k then Counter.count b k else v) a [] Dict.WF.nil
    simp only [decide_eq_true_eq] at h1
    exact Dict.WF_foldl_set (fun k v => !Dict.has a k && decide (0 < v)) (fun _ v => v) b _ h1
  · have h1 := Dict.WF_foldl_set (fun k v => decide (0 < v + Counter.count b k))
        (fun k v => v + Counter.count b k) a [] Dict.WF.nil
    simp only [decide_eq_true_eq] at h1
    exact Dict.WF_foldl_set (fun k v => !Dict.has a k && decide (0 < v)) (fun _ v => v) b _ h1
  · exact Dict.WF_foldl_set (fun k _ => Dict.has b k)
      (fun k v => min (Counter.count b k) v) a [] Dict.WF.nil

/-- C06: filtering twice with the same bond changes nothing more, for every label. -/
theorem C06_filter_idem (a b : BondInfo Q) (ha : Dict.WF a) (q : Q) :
    Dict.get? (filter (filter a b) b) q = Dict.get? (filter a b) q := by
  rw [C06_filter_get _ _ (C06_wf a b).2.2.2, C06_filter_get a b ha]
  cases Dict.get? a q <;> cases Dict.get? b q <;> simp

/-- C06: filtering never enlarges a multiplicity. -/
theorem C06_filter_le (a b : BondInfo Q) (ha : Dict.WF a) (q : Q) :
    Counter.count (filter a b) q ≤ Counter.count a q := by
  rw [C06_filter a b ha]; exact Nat.min_le_left _ _

theorem negKeys_eq [InvolutiveNeg Q] (a : BondInfo Q) (ha : Dict.WF a) :
    negKeys a = a.map fun x => (-x.1, x.2) := by
  have key : ∀ r : BondInfo Q, (∀ x ∈ a, -x.1 ∉ r.map Prod.fst) →
      a.foldl (fun r (x : Q × Nat) => Dict.set r (-x.1) x.2) r = r ++ a.map fun x => (-x.1, x.2) := by
    induction a with
    | nil => intro r _; simp
    | cons x t ih =>
      intro r hr
      simp only [Dict.WF, List.map_cons, List.nodup_cons] at ha
      simp only [List.foldl_cons]
      rw [ih ha.2, Dict.set_of_not_mem r _ (hr x List.mem_cons_self)]
      · simp
      · intro y hy
        rw [Dict.mem_map_fst_set, not_or]
        refine ⟨fun e => ?_, hr y (List.mem_cons_of_mem _ hy)⟩
        exact ha.1 (List.mem_map.2 ⟨y, hy, by rwa [neg_inj] at e⟩)
  simpa [negKeys] using key [] (by simp)

/-- C06: multiplicities after negating the labels. -/
theorem C06_neg_count [InvolutiveNeg Q] (a : BondInfo Q) (ha : Dict.WF a) (q : Q) :
    Counter.count (negKeys a) q = Counter.count a (-q) := by
  rw [negKeys_eq a ha]
  clear ha
  unfold Counter.count
  congr 1
  induction a with
  | nil => rfl
  | cons x t ih =>
    obtain ⟨k, v⟩ := x
    simp only [List.map_cons, Dict.get?_cons, ih]
    have : (-k = q) = (k = -q) := by rw [neg_eq_iff_eq_neg]
    simp only [this]

/-- C06: negating the labels twice returns the original bond (same order). -/
theorem C06_neg_neg [InvolutiveNeg Q] (a : BondInfo Q) (ha : Dict.WF a) :
    negKeys (negKeys a) = a := by
  have h : Dict.WF (a.map fun x => (-x.1, x.2)) := by
    unfold Dict.WF at *
    rw [List.map_map]
    have : (Prod.fst ∘ fun x : Q × Nat => (-x.1, x.2)) = (fun q => -q) ∘ Prod.fst := rfl
    rw [this, ← List.map_map]
    exact List.Nodup.map neg_injective ha
  rw [negKeys_eq a ha, negKeys_eq _ h, List.map_map]
  convert List.map_id a using 2
  funext x
  simp

end C06

example : Dict.WF [((0 : Int), 2), (1, 3)] ∧
    inter [((0 : Int), 2), (1, 3)] [(1, 1), (2, 4)] = [(1, 1)] ∧
    union [((0 : Int), 2), (1, 3)] [(1, 1), (2, 4)] = [(0, 2), (1, 3), (2, 4)] ∧
    addCounts [((0 : Int), 2), (1, 3)] [(1, 1), (2, 4)] = [(0, 2), (1, 4), (2, 4)] ∧
    filter [((0 : Int), 2), (1, 3)] [(1, 1), (2, 4)] = [(1, 1)] ∧
    negKeys [((0 : Int), 2), (1, 3)] = [(0, 2), (-1, 3)] := by
  refine ⟨by decide, by decide, by decide, by decide, by decide, by decide⟩

/-! ### C07 -/

section C07
variable {Q : Type} [DecidableEq Q]

theorem ceilShare_spec (v D n : Nat) (hn : 0 < n) :
    10 * v * D + n ≤ ceilShare v D n * (10 * n) ∧
    ceilShare v D n * (10 * n) < 10 * v * D + n + 10 * n := by
  unfold ceilShare
  have h := Nat.div_add_mod (10 * v * D + n + 10 * n - 1) (10 * n)
  have h2 := Nat.mod_lt (10 * v * D + n + 10 * n - 1) (y := 10 * n) (by omega)
  rw [Nat.mul_comm] at h
  generalize (10 * v * D + n + 10 * n - 1) / (10 * n) * (10 * n) = z at *
  omega

/-- C07: a bond that already fits is left alone. -/
theorem C07_fits (a : BondInfo Q) (D : Nat) (ref : Option (BondInfo Q)) (h : nBonds a ≤ D) :
    truncate a D ref = a ∧ truncateNoKeep a D ref = a := by
  constructor
  · unfold truncate; simp only; rw [if_neg (by omega)]
  · unfold truncateNoKeep; simp only; rw [if_neg (by omega)]

/-- C07: no sector is removed (and none is added, and the order is kept). -/
theorem C07_keys (a : BondInfo Q) (D : Nat) (ref : Option (BondInfo Q)) :
    Dict.keys (truncate a D ref) = Dict.keys a := by
  unfold truncate Dict.keys; simp only
  split_ifs
  · rw [List.map_map]; rfl
  · rfl

/-- C07: every multiplicity stays positive. -/
theorem C07_positive (a : BondInfo Q) (D : Nat) (ref : Option (BondInfo Q))
    (ha : ∀ x ∈ a, 0 < x.2) (hr : ∀ r ∈ ref, ∀ x ∈ a, 0 < Counter.count r x.1) :
    ∀ x ∈ truncate a D ref, 0 < x.2 := by
  intro x hx
  unfold truncate at hx; simp only at hx
  split_ifs at hx with h
  · obtain ⟨y, hy, rfl⟩ := List.mem_map.1 hx
    have hc := (ceilShare_spec y.2 D (nBonds a) (by omega)).1
    have hpos : 0 < ceilShare y.2 D (nBonds a) := by
      rcases Nat.eq_zero_or_pos (ceilShare y.2 D (nBonds a)) with h0 | h0
      · rw [h0] at hc; omega
      · exact h0
    cases ref with
    | none => exact hpos
    | some r => exact Nat.lt_min.2 ⟨hpos, hr r rfl y hy⟩
  · exact ha x hx

/-- C07: when truncation happens the reference is never exceeded. -/
theorem C07_le_ref (a r : BondInfo Q) (D : Nat) (h : D < nBonds a) :
    ∀ x ∈ truncate a D (some r), x.2 ≤ Counter.count r x.1 := by
  intro x hx
  unfold truncate at hx; simp only at hx
  rw [if_pos h] at hx
  obtain ⟨y, hy, rfl⟩ := List.mem_map.1 hx
  exact Nat.min_le_right _ _

/-- C07: each sector gets at least its proportional share of the target. -/
theorem C07_share (a : BondInfo Q) (D : Nat) (h : D < nBonds a) (i : Nat) (hi : i < a.length) :
    ∃ x, (truncate a D none)[i]? = some ((a[i]).1, x) ∧ (a[i]).2 * D ≤ x * nBonds a := by
  refine ⟨ceilShare (a[i]).2 D (nBonds a), ?_, ?_⟩
  · unfold truncate; simp only; rw [if_pos h]; simp [hi]
  · have := (ceilShare_spec (a[i]).2 D (nBonds a) (by omega)).1
    nlinarith

/-- C07: the target is exceeded by less than 1.1 per sector. -/
theorem C07_overshoot (a : BondInfo Q) (D : Nat) (ref : Option (BondInfo Q)) (h : D < nBonds a) :
    10 * nBonds (truncate a D ref) < 10 * D + 11 * a.length := by
  have hn : 0 < nBonds a := by omega
  have key : ∀ l : BondInfo Q, ∀ n, 0 < n → l ≠ [] →
      (l.map fun x => ceilShare x.2 D n).sum * (10 * n) <
        10 * ((l.map Prod.snd).sum * D) + 11 * n * l.length := by
    intro l n hn
    induction l with
    | nil => intro h; exact absurd rfl h
    | cons x t ih =>
      intro _
      have hx := (ceilShare_spec x.2 D n hn).2
      simp only [List.map_cons, List.sum_cons, List.length_cons]
      by_cases ht : t = []
      · subst ht; simp; nlinarith
      · have := ih ht
        nlinarith
  have hne : a ≠ [] := by rintro rfl; simp [nBonds, Dict.values] at h
  have h1 := key a (nBonds a) hn hne
  have h2 : nBonds (truncate a D none) = (a.map fun x => ceilShare x.2 D (nBonds a)).sum := by
    unfold truncate; simp only; rw [if_pos h]; unfold nBonds Dict.values; rw [List.map_map]; rfl
  have h3 : nBonds (truncate a D ref) ≤ nBonds (truncate a D none) := by
    cases ref with
    | none => exact le_refl _
    | some r =>
      unfold truncate; simp only; rw [if_pos h, if_pos h]
      unfold nBonds Dict.values; rw [List.map_map, List.map_map]
      apply List.sum_le_sum
      intro x _
      exact Nat.min_le_left _ _
  have h4 : (a.map Prod.snd).sum = nBonds a := rfl
  rw [← h2, h4] at h1
  have h5 : nBonds a * (10 * nBonds (truncate a D none)) < nBonds a * (10 * D + 11 * a.length) := by
    nlinarith
  have := Nat.lt_of_mul_lt_mul_left h5
  omega

/-- C07: it is not true that multiplicities only shrink; here the sector `0` grows from 1 to 2
although the bond is being truncated, and the total ends above the target. -/
theorem C07_sector_can_grow :
    ∃ (a : BondInfo Int) (D : Nat), Dict.WF a ∧ D < nBonds a ∧
      Counter.count a 0 < Counter.count (truncate a D none) 0 ∧
      D < nBonds (truncate a D none) := by
  refine ⟨[(0, 1), (1, 99)], 95, by decide, by decide, by decide, by decide⟩

theorem roundShare_spec (v D n : Nat) (hn : 0 < n) :
    2 * (10 * v * D + n) ≤ 2 * (roundShare v D n * (10 * n)) + 10 * n ∧
    2 * (roundShare v D n * (10 * n)) ≤ 2 * (10 * v * D + n) + 10 * n := by
  unfold roundShare
  simp only
  have h := Nat.div_add_mod (10 * v * D + n) (10 * n)
  have h2 := Nat.mod_lt (10 * v * D + n) (y := 10 * n) (by omega)
  rw [Nat.mul_comm] at h
  generalize (10 * v * D + n) / (10 * n) = d at *
  generalize (10 * v * D + n) % (10 * n) = r at *
  generalize 10 * v * D + n = z at *
  split_ifs <;> (try rw [Nat.add_mul]) <;> omega

/-- C07 for the variant that may drop sectors: kept sectors are sectors of the original, have a
positive multiplicity, which is at most the rounding of the share `v D / n + 1/10` (within one half). -/
theorem C07_noKeep (a : BondInfo Q) (D : Nat) (ref : Option (BondInfo Q)) (h : D < nBonds a) :
    ∀ x ∈ truncateNoKeep a D ref, 0 < x.2 ∧ ∃ v, (x.1, v) ∈ a ∧
      2 * (x.2 * (10 * nBonds a)) ≤ 2 * (10 * v * D + nBonds a) + 10 * nBonds a ∧
      (∀ r ∈ ref, x.2 ≤ Counter.count r x.1) ∧
      (ref = none → 2 * (10 * v * D + nBonds a) ≤ 2 * (x.2 * (10 * nBonds a)) + 10 * nBonds a) := by
  intro x hx
  unfold truncateNoKeep at hx; simp only at hx
  rw [if_pos h] at hx
  rw [List.mem_filter] at hx
  obtain ⟨hx, hpos⟩ := hx
  obtain ⟨y, hy, rfl⟩ := List.mem_map.1 hx
  have hs := roundShare_spec y.2 D (nBonds a) (by omega)
  simp only [bne_iff_ne, ne_eq] at hpos
  refine ⟨Nat.pos_of_ne_zero hpos, y.2, hy, ?_, ?_, ?_⟩
  · cases ref with
    | none => exact hs.2
    | some r =>
      have : min (roundShare y.2 D (nBonds a)) (Counter.count r y.1) * (10 * nBonds a) ≤
          roundShare y.2 D (nBonds a) * (10 * nBonds a) :=
        Nat.mul_le_mul_right _ (Nat.min_le_left _ _)
      simp only; omega
  · rintro r rfl
    exact Nat.min_le_right _ _
  · rintro rfl
    exact hs.1

end C07

example : truncate [((0 : Int), 6), (1, 12), (2, 6)] 12 none = [(0, 4), (1, 7), (2, 4)] ∧
    truncate [((0 : Int), 6), (1, 12), (2, 6)] 12 (some [(0, 3), (1, 9), (2, 9)]) = [(0, 3), (1, 7), (2, 4)] ∧
    truncateNoKeep [((0 : Int), 1), (1, 22), (2, 1)] 12 none = [(0, 1), (1, 11), (2, 1)] := by
  refine ⟨by decide, by decide, by decide⟩

end Verif
