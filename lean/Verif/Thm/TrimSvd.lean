import Verif.Proof.TrimSvd
import Mathlib.Algebra.Order.Field.Basic
import Mathlib.Algebra.Order.BigOperators.Group.List
import Mathlib.Tactic.Ring
import Mathlib.Algebra.BigOperators.Ring.List
import Mathlib.Tactic.FieldSimp
import Mathlib.Data.Rat.Defs
import Mathlib.Algebra.Order.Ring.Rat
import Mathlib.Tactic.NormNum

/-! C23: cutoff modes of the fermionic singular value decomposition. -/

set_option linter.unusedSectionVars false

namespace Verif
namespace Trim
section
variable {V : Type} [CommRing V] [LinearOrder V] [IsStrictOrderedRing V]

theorem filter_suffix {α : Type} (p : α → Bool) (l : List α) (h : l.Pairwise fun a b => p a = true → p b = true) :
    l.filter p = l.drop (l.length - l.countP p) := by
  induction l with
  | nil => rfl
  | cons x l ih =>
    rw [List.pairwise_cons] at h
    by_cases hx : p x = true
    · have hall : ∀ y ∈ x :: l, p y = true := by
        intro y hy
        rcases List.mem_cons.1 hy with rfl | hy
        · exact hx
        · exact h.1 y hy hx
      rw [List.filter_eq_self.2 hall, List.countP_eq_length.2 hall]
      simp
    · have hle := List.countP_le_length (p := p) (l := l)
      rw [List.filter_cons_of_neg hx, List.countP_cons_of_neg hx, ih h.2, List.length_cons,
        show l.length + 1 - l.countP p = (l.length - l.countP p) + 1 by omega, List.drop_succ_cons]

theorem sum_range_countP {d : List (List V)} (p : V → Bool) : (d.map fun b => ((b.countP p : Nat) : Int)).sum = (d.flatten.countP p : Nat) := by
  induction d with
  | nil => rfl
  | cons b d ih => simp [ih]

/-- Modes 1 and 2, from the threshold on. -/
theorem capCounts_spec (argsort : List V → List Nat) (ha : IsArgsort argsort) (maxBond : Option Int) (thr : V) (d : List (List V)) (hd : Spectrum d) :
    ∃ n, capCounts argsort maxBond d (countAbove thr d) = some n ∧ Leading n d ∧ Within maxBond (kept n d).length ∧ (∀ y ∈ kept n d, thr < y) ∧
      (HasRoom maxBond (kept n d).length → ∀ x ∈ dropped n d, x ≤ thr) := by
  obtain ⟨hperm, hsort⟩ := ha d.flatten
  obtain ⟨hP, hf, hs⟩ := sorted_pairs (V := V) hperm
  obtain ⟨Ps, hPs⟩ : ∃ Ps, Ps = (argsort d.flatten).map fun i => (pairsFrom d 0).getD i (0, 0) := ⟨_, rfl⟩
  rw [← hPs] at hP hf hs
  rw [← hs] at hsort
  have hlen : Ps.length = d.flatten.length := by rw [hP.length_eq, ← pairs_snd d 0, List.length_map]
  have hcnt : ((countAbove thr d).sum) = (Ps.countP (fun p => decide (thr < p.2)) : Nat) := by
    unfold countAbove
    rw [sum_range_countP, ← pairs_snd d 0, List.countP_map, hP.countP_eq]
    rfl
  obtain ⟨c, hc⟩ : ∃ c, c = Ps.countP (fun p => decide (thr < p.2)) := ⟨_, rfl⟩
  have hcle : c ≤ Ps.length := hc ▸ List.countP_le_length
  have hsuf : Ps.filter (fun p => decide (thr < p.2)) = Ps.drop (Ps.length - c) := by
    rw [hc]
    apply filter_suffix
    have := List.pairwise_map.1 hsort
    refine this.imp fun h1 h2 => ?_
    simp only [decide_eq_true_eq] at h2 ⊢
    exact lt_of_lt_of_le h2 h1
  have h0l : (countAbove thr d).length = d.length := by simp [countAbove]
  have h0 : ∀ b < d.length, (countAbove thr d).getD b 0 = (((Ps.drop (Ps.length - c)).map Prod.fst).count b : Int) := by
    intro b hb
    have e1 : (countAbove thr d).getD b 0 = (((d.getD b []).countP fun x => decide (thr < x) : Nat) : Int) := by
      simp [countAbove, hb]
    rw [e1, ← hsuf]
    have h2 := pairs_filter d 0 b
    simp only [Nat.zero_add] at h2
    rw [← h2, List.countP_map, List.countP_filter, List.count, List.countP_map, List.countP_filter, ← hP.countP_eq]
    congr 1
    apply List.countP_congr
    intro p _
    simp [and_comm]
  have hn0 : ∀ y ∈ (Ps.drop (Ps.length - c)).map Prod.snd, thr < y := by
    intro y hy
    rw [← hsuf] at hy
    obtain ⟨p, hp, rfl⟩ := List.mem_map.1 hy
    simpa using (List.mem_filter.1 hp).2
  have ht0 : ∀ x ∈ (Ps.take (Ps.length - c)).map Prod.snd, x ≤ thr := by
    intro x hx
    obtain ⟨p, hp, rfl⟩ := List.mem_map.1 hx
    by_contra hlt
    have h1 : (Ps.take (Ps.length - c)).countP (fun p => decide (thr < p.2)) = 0 := by
      have h2 : Ps.countP (fun p => decide (thr < p.2)) = (Ps.take (Ps.length - c)).countP (fun p => decide (thr < p.2)) +
          (Ps.drop (Ps.length - c)).countP (fun p => decide (thr < p.2)) := by
        rw [← List.countP_append, List.take_append_drop]
      have h3 : (Ps.drop (Ps.length - c)).countP (fun p => decide (thr < p.2)) = c := by
        rw [List.countP_eq_length.2]
        · simp; omega
        · intro q hq
          simpa using hn0 q.2 (List.mem_map_of_mem hq)
      omega
    have := List.countP_eq_zero.1 h1 p hp
    simp at this
    exact hlt this
  -- nothing to remove
  have plain : Within maxBond c → ∃ n, some (countAbove thr d) = some n ∧ Leading n d ∧ Within maxBond (kept n d).length ∧ (∀ y ∈ kept n d, thr < y) ∧
      (HasRoom maxBond (kept n d).length → ∀ x ∈ dropped n d, x ≤ thr) := by
    intro hw
    obtain ⟨k1, k2, k3⟩ := kept_perm hd hP hsort (Ps.length - c) h0l h0
    refine ⟨_, rfl, k1, ?_, fun y hy => hn0 y (k2.mem_iff.1 hy), fun _ x hx => ht0 x (k3.mem_iff.1 hx)⟩
    rw [k2.length_eq]
    simp
    rwa [show Ps.length - (Ps.length - c) = c by omega]
  unfold capCounts
  cases hmb : maxBond with
  | none =>
    simp only [capOf]
    rw [hmb] at plain
    exact plain (by intro m h; simp at h)
  | some m =>
    rw [hmb] at plain
    by_cases hm : 0 < m
    · simp only [capOf, hm, if_true]
      rw [hcnt, ← hc]
      by_cases hx : 0 < (c : Int) - m
      · rw [if_pos hx]
        have hdne : d ≠ [] := by
          intro h
          have : d.flatten.length = 0 := by rw [h]; rfl
          omega
        have hcc : concatenate d = some d.flatten := by
          cases d with
          | nil => exact absurd rfl hdne
          | cons => rfl
        rw [hcc, Option.map_some]
        have hfold : (List.range ((c : Int) - m).toNat).foldl (fun n (i : Nat) => decr n ((indMap d).getD ((argsort d.flatten).getD ((i : Int) + d.flatten.length - (c : Int)).toNat 0) 0))
            (countAbove thr d) = (((Ps.drop (Ps.length - c)).take ((c : Int) - m).toNat).map Prod.fst).foldl decr (countAbove thr d) := by
          have : ((Ps.drop (Ps.length - c)).take ((c : Int) - m).toNat).map Prod.fst =
              (List.range ((c : Int) - m).toNat).map fun (i : Nat) => (indMap d).getD ((argsort d.flatten).getD ((i : Int) + d.flatten.length - (c : Int)).toNat 0) 0 := by
            rw [List.map_take, List.map_drop, hf]
            apply List.ext_getElem
            · have : (argsort d.flatten).length = Ps.length := by rw [hPs, List.length_map]
              simp [this]
              omega
            · intro i h1 h2
              simp at h1 h2
              have e : ((i : Int) + d.flatten.length - (c : Int)).toNat = Ps.length - c + i := by omega
              have hl2 : Ps.length - c + i < (argsort d.flatten).length := by omega
              simp only [List.getElem_take, List.getElem_drop, List.getElem_map, List.getElem_range, e]
              rw [List.getD_eq_getElem _ _ hl2]
          rw [this, List.foldl_map]
        rw [hfold]
        obtain ⟨f1, f2⟩ := foldl_decr (((Ps.drop (Ps.length - c)).take ((c : Int) - m).toNat).map Prod.fst) (countAbove thr d)
        have hk : Ps.drop (Ps.length - m.toNat) = (Ps.drop (Ps.length - c)).drop ((c : Int) - m).toNat := by
          rw [List.drop_drop]
          congr 1
          omega
        obtain ⟨k1, k2, k3⟩ := kept_perm hd hP hsort (Ps.length - m.toNat) (f1.trans h0l) (by
          intro b hb
          rw [f2 b (by omega), h0 b hb, hk]
          have : ((Ps.drop (Ps.length - c)).map Prod.fst).count b = (((Ps.drop (Ps.length - c)).take ((c : Int) - m).toNat).map Prod.fst).count b +
              (((Ps.drop (Ps.length - c)).drop ((c : Int) - m).toNat).map Prod.fst).count b := by
            rw [← List.count_append, ← List.map_append, List.take_append_drop]
          omega)
        have hkl := k2.length_eq
        simp only [List.length_map, List.length_drop] at hkl
        refine ⟨_, rfl, k1, ?_, ?_, ?_⟩
        · intro m' h _
          simp at h
          omega
        · intro y hy
          apply hn0
          have := k2.mem_iff.1 hy
          rw [hk] at this
          obtain ⟨p, hp, rfl⟩ := List.mem_map.1 this
          exact List.mem_map_of_mem (List.mem_of_mem_drop hp)
        · intro hroom
          have := hroom m rfl hm
          omega
      · rw [if_neg hx]
        refine plain ?_
        intro m' h _
        simp at h
        omega
    · simp only [capOf, hm, if_false]
      refine plain ?_
      intro m' h h'
      simp at h
      omega

/-- C23, modes 1 and 2: the values above the threshold are kept, those not above it are dropped; `max_bond` removes the smallest of the former.
The threshold is the cutoff itself, or the cutoff times the largest value. -/
theorem C23_threshold (argsort : List V → List Nat) (ha : IsArgsort argsort) (cutoff : V) (mode : Nat) (maxBond : Option Int) (d : List (List V))
    (hd : Spectrum d) (thr : V) (hm : mode = 1 ∧ thr = cutoff ∨ mode = 2 ∧ ∃ smax ∈ d.flatten, (∀ x ∈ d.flatten, x ≤ smax) ∧ thr = cutoff * smax) :
    ∃ n, trimSingularVals argsort cutoff mode maxBond d = some n ∧ Leading n d ∧ Within maxBond (kept n d).length ∧ (∀ y ∈ kept n d, thr < y) ∧
      (HasRoom maxBond (kept n d).length → ∀ x ∈ dropped n d, x ≤ thr) := by
  rcases hm with ⟨rfl, rfl⟩ | ⟨rfl, smax, h1, h2, rfl⟩
  · exact capCounts_spec argsort ha maxBond thr d hd
  · have hne : d ≠ [] := by rintro rfl; simp at h1
    have hcc : concatenate d = some d.flatten := by
      cases d with
      | nil => exact absurd rfl hne
      | cons => rfl
    have hmax : maxOf d.flatten = some smax := by
      cases hfl : d.flatten with
      | nil => rw [hfl] at h1; simp at h1
      | cons x xs =>
        rw [hfl] at h1 h2
        have key : ∀ (l : List V) (a : V), (∀ y ∈ l, y ≤ l.foldl max a) ∧ a ≤ l.foldl max a ∧ (l.foldl max a = a ∨ l.foldl max a ∈ l) := by
          intro l
          induction l with
          | nil => simp
          | cons y l ih =>
            intro a
            obtain ⟨i1, i2, i3⟩ := ih (max a y)
            refine ⟨?_, le_trans (le_max_left _ _) i2, ?_⟩
            · intro z hz
              rcases List.mem_cons.1 hz with rfl | hz
              · exact le_trans (le_max_right _ _) i2
              · exact i1 z hz
            · rcases i3 with i3 | i3
              · rw [List.foldl_cons, i3]
                rcases max_choice a y with h | h
                · left; exact h
                · right; rw [h]; simp
              · right; rw [List.foldl_cons]; simp [i3]
        obtain ⟨i1, i2, i3⟩ := key xs x
        simp only [maxOf, Option.some.injEq]
        apply le_antisymm
        · apply h2
          rcases i3 with i3 | i3
          · rw [i3]; simp
          · simp [i3]
        · rcases List.mem_cons.1 h1 with rfl | h1
          · exact i2
          · exact i1 _ h1
    show ∃ n, ((concatenate d).bind fun s => (maxOf s).bind fun smax => capCounts argsort maxBond d (countAbove (cutoff * smax) d)) = some n ∧ _
    rw [hcc, Option.bind_some, hmax, Option.bind_some]
    exact capCounts_spec argsort ha maxBond _ d hd

theorem cumsum_ge (l : List V) (t : V) (hl : ∀ x ∈ l, 0 ≤ x) : ∀ y ∈ cumsum t l, t ≤ y := by
  induction l generalizing t with
  | nil => simp [cumsum]
  | cons x l ih =>
    intro y hy
    have hx := hl x (by simp)
    rcases List.mem_cons.1 hy with rfl | hy
    · linarith
    · have := ih (t + x) (fun z hz => hl z (by simp [hz])) y hy
      linarith

/-- What the number of running sums within the budget means. -/
theorem cumsum_count (l : List V) (t T : V) (hl : ∀ x ∈ l, 0 ≤ x) (c : Nat) (hc : c = (cumsum t l).countP fun x => decide (x ≤ T)) :
    c ≤ l.length ∧ (0 < c → t + (l.take c).sum ≤ T) ∧ (c < l.length → T < t + (l.take (c + 1)).sum) := by
  induction l generalizing t c with
  | nil => simp [cumsum] at hc; subst hc; simp
  | cons x l ih =>
    by_cases h : t + x ≤ T
    · simp only [cumsum] at hc
      rw [List.countP_cons_of_pos (by simpa using h)] at hc
      obtain ⟨i1, i2, i3⟩ := ih (t + x) (fun z hz => hl z (by simp [hz])) _ rfl
      rw [hc]
      refine ⟨by simp; omega, fun _ => ?_, fun hlt => ?_⟩
      · rw [List.take_succ_cons, List.sum_cons, ← add_assoc]
        rcases Nat.eq_zero_or_pos ((cumsum (t + x) l).countP fun x => decide (x ≤ T)) with h0 | h0
        · rw [h0]; simpa using h
        · exact i2 h0
      · rw [List.take_succ_cons, List.sum_cons, ← add_assoc]
        exact i3 (by simp at hlt; omega)
    · have h0 : (cumsum t (x :: l)).countP (fun x => decide (x ≤ T)) = 0 := by
        rw [List.countP_eq_zero]
        intro y hy
        simp only [cumsum] at hy
        simp only [decide_eq_true_eq]
        rcases List.mem_cons.1 hy with rfl | hy
        · exact h
        · have := cumsum_ge l (t + x) (fun z hz => hl z (by simp [hz])) y hy
          intro h'
          exact h (le_trans this h')
      rw [h0] at hc
      subst hc
      simp
      linarith

theorem take_sum_mono (l : List V) (hl : ∀ x ∈ l, 0 ≤ x) (i j : Nat) (h : i ≤ j) : (l.take i).sum ≤ (l.take j).sum := by
  induction l generalizing i j with
  | nil => simp
  | cons x l ih =>
    cases i with
    | zero =>
      simp
      apply List.sum_nonneg
      intro y hy
      exact hl y (List.mem_of_mem_take hy)
    | succ i =>
      obtain ⟨j, rfl⟩ : ∃ j', j = j' + 1 := ⟨j - 1, by omega⟩
      simp only [List.take_succ_cons, List.sum_cons]
      have := ih (fun z hz => hl z (by simp [hz])) i j (by omega)
      linarith

/-- C23, modes 3 to 6: the dropped values (or their squares) add up to no more than the budget, unless `max_bond` forces more of them to go;
no further value could be dropped within the budget. -/
theorem C23_weight (argsort : List V → List Nat) (ha : IsArgsort argsort) (cutoff : V) (h0 : 0 ≤ cutoff) (mode : Nat)
    (hm : mode = 3 ∨ mode = 4 ∨ mode = 5 ∨ mode = 6) (maxBond : Option Int) (d : List (List V)) (hd : Spectrum d) (hne : d ≠ []) :
    ∃ n, trimSingularVals argsort cutoff mode maxBond d = some n ∧ Leading n d ∧ Within maxBond (kept n d).length ∧
      (HasRoom maxBond (kept n d).length → ((dropped n d).map (· ^ power mode)).sum ≤ budget mode cutoff d) ∧
      ∀ y ∈ kept n d, budget mode cutoff d < ((dropped n d).map (· ^ power mode)).sum + y ^ power mode := by
  have hcc : concatenate d = some d.flatten := by
    cases d with
    | nil => exact absurd rfl hne
    | cons => rfl
  obtain ⟨w, hw⟩ : ∃ w : V → V, w = fun x => x ^ power mode := ⟨_, rfl⟩
  have hw' : (fun x : V => if mode = 3 ∨ mode = 4 then x * x else x) = w := by
    rw [hw]
    funext x
    unfold power
    split <;> ring
  have hwnn : ∀ x, 0 ≤ x → 0 ≤ w x := fun x hx => by rw [hw]; exact pow_nonneg hx _
  have hwle : ∀ a b, 0 ≤ a → 0 ≤ b → (w a ≤ w b ↔ a ≤ b) := fun a b ha hb => by
    rw [hw]
    exact pow_le_pow_iff_left₀ ha hb (by unfold power; split <;> simp)
  obtain ⟨s, hs⟩ : ∃ s, s = d.flatten.map w := ⟨_, rfl⟩
  have hslen : s.length = d.flatten.length := by rw [hs, List.length_map]
  have hbud : (if mode = 4 ∨ mode = 6 then cutoff * s.sum else cutoff) = budget mode cutoff d := by
    unfold budget
    rw [hs, hw]
  obtain ⟨T, hT⟩ : ∃ T, T = budget mode cutoff d := ⟨_, rfl⟩
  have hfnn : ∀ x ∈ d.flatten, 0 ≤ x := by
    intro x hx
    obtain ⟨b, hb, hx⟩ := List.mem_flatten.1 hx
    exact (hd b hb).2 x hx
  have hTnn : 0 ≤ T := by
    rw [hT]
    unfold budget
    split
    · apply mul_nonneg h0
      apply List.sum_nonneg
      intro y hy
      obtain ⟨x, hx, rfl⟩ := List.mem_map.1 hy
      exact pow_nonneg (hfnn x hx) _
    · exact h0
  obtain ⟨hperm, hsort⟩ := ha s
  rw [hslen] at hperm
  obtain ⟨hP, hf, hsnd⟩ := sorted_pairs (V := V) hperm
  obtain ⟨Ps, hPs⟩ : ∃ Ps, Ps = (argsort s).map fun i => (pairsFrom d 0).getD i (0, 0) := ⟨_, rfl⟩
  rw [← hPs] at hP hf hsnd
  have hlen : Ps.length = d.flatten.length := by rw [hP.length_eq, ← pairs_snd d 0, List.length_map]
  have hPnn : ∀ x ∈ Ps.map Prod.snd, 0 ≤ x := by
    intro x hx
    apply hfnn
    rw [← pairs_snd d 0]
    exact (hP.map Prod.snd).mem_iff.1 hx
  obtain ⟨l, hl⟩ : ∃ l, l = (Ps.map Prod.snd).map w := ⟨_, rfl⟩
  have hlsort : l.Pairwise (· ≤ ·) := by
    have : l = (argsort s).map fun i => s.getD i 0 := by
      rw [hl, hsnd, List.map_map]
      apply List.map_congr_left
      intro i hi
      have hi' : i < d.flatten.length := by simpa using hperm.mem_iff.1 hi
      simp only [Function.comp_def]
      rw [hs, List.getD_eq_getElem _ _ hi', List.getD_eq_getElem _ _ (by rwa [List.length_map]), List.getElem_map]
    rw [this]
    exact hsort
  have hPsort : (Ps.map Prod.snd).Pairwise (· ≤ ·) := by
    rw [hl, List.pairwise_map] at hlsort
    refine hlsort.imp_of_mem fun {a b} ha hb h => ?_
    exact (hwle _ _ (hPnn a ha) (hPnn b hb)).1 h
  have hlnn : ∀ x ∈ l, 0 ≤ x := by
    intro x hx
    rw [hl] at hx
    obtain ⟨y, hy, rfl⟩ := List.mem_map.1 hx
    exact hwnn y (hPnn y hy)
  have hss : sortBy (fun a b => decide (a ≤ b)) s = l := by
    have h1 : (sortBy (fun a b => decide (a ≤ b)) s).Pairwise (· ≤ ·) := by
      refine (sortBy_sorted (fun a b : V => decide (a ≤ b)) ?_ ?_ s).imp fun h => by simpa using h
      · intro a b
        simpa using le_total a b
      · intro a b c h1 h2
        simp only [decide_eq_true_eq] at *
        exact le_trans h1 h2
    have h2 : (sortBy (fun a b => decide (a ≤ b)) s).Perm l := by
      refine (sortBy_perm _ s).trans ?_
      rw [hs, hl]
      apply List.Perm.map
      rw [← pairs_snd d 0]
      exact (hP.map Prod.snd).symm
    exact h2.eq_of_pairwise' h1 hlsort
  have hllen : l.length = d.flatten.length := by rw [hl]; simp [hlen]
  obtain ⟨c, hc⟩ : ∃ c, c = (cumsum 0 l).countP fun x => decide (x ≤ T) := ⟨_, rfl⟩
  obtain ⟨c1, c2, c3⟩ := cumsum_count l 0 T hlnn c hc
  simp only [zero_add] at c2 c3
  -- the number of values to drop
  obtain ⟨k, hk⟩ : ∃ k : Int, k = match capOf maxBond with
      | some m => max (c : Int) (s.length - m)
      | none => c := ⟨_, rfl⟩
  have hk1 : c ≤ k.toNat ∧ k.toNat ≤ Ps.length ∧ (∀ m, maxBond = some m → 0 < m → ((Ps.length - k.toNat : Nat) : Int) ≤ m) ∧
      ((∀ m, maxBond = some m → 0 < m → ((Ps.length - k.toNat : Nat) : Int) < m) → k.toNat = c) := by
    cases hmb : maxBond with
    | none =>
      rw [hmb] at hk
      simp only [capOf] at hk
      subst hk
      refine ⟨by simp, by simp; omega, by simp, by simp⟩
    | some m =>
      rw [hmb] at hk
      by_cases hm0 : 0 < m
      · simp only [capOf, hm0, if_true] at hk
        have e1 := le_max_left (c : Int) (s.length - m)
        have e2 := le_max_right (c : Int) (s.length - m)
        have e3 := max_choice (c : Int) (s.length - m)
        rw [← hk] at e1 e2 e3
        clear hk
        refine ⟨by omega, by omega, ?_, ?_⟩
        · intro m' h _
          simp at h
          omega
        · intro h
          have := h m rfl hm0
          omega
      · simp only [capOf, hm0, if_false] at hk
        subst hk
        refine ⟨by simp, by simp; omega, ?_, by simp⟩
        intro m' h h'
        simp at h
        omega
  obtain ⟨k1, k2, k3, k4⟩ := hk1
  have hval : trimSingularVals argsort cutoff mode maxBond d = some (((Ps.take k.toNat).map Prod.fst).foldl decr (d.map fun b => (b.length : Int))) := by
    have e1 : mode ≠ 1 := by omega
    have e2 : mode ≠ 2 := by omega
    unfold trimSingularVals
    rw [if_neg e1, if_neg e2, if_pos hm, hcc, Option.map_some]
    simp only [hw']
    simp only [← hs, hbud, hss, ← hT, ← hc]
    congr 1
    have : (Ps.take k.toNat).map Prod.fst = (List.range k.toNat).map fun (i : Nat) => (indMap d).getD ((argsort s).getD i 0) 0 := by
      rw [List.map_take, hf]
      have hal : (argsort s).length = Ps.length := by rw [hPs, List.length_map]
      apply List.ext_getElem
      · simp [hal]; omega
      · intro i h1 h2
        simp at h1 h2
        have hl2 : i < (argsort s).length := by omega
        simp only [List.getElem_take, List.getElem_map, List.getElem_range]
        rw [List.getD_eq_getElem _ _ hl2]
    rw [this, List.foldl_map, hk]
    generalize capOf maxBond = cm
    cases cm <;> rfl
  obtain ⟨f1, f2⟩ := foldl_decr ((Ps.take k.toNat).map Prod.fst) (d.map fun b => (b.length : Int))
  rw [List.length_map] at f1 f2
  have hcountP : ∀ b < d.length, ((d.map fun b => (b.length : Int)).getD b 0) = ((Ps.map Prod.fst).count b : Int) := by
    intro b hb
    have h2 := pairs_filter d 0 b
    simp only [Nat.zero_add] at h2
    have h3 : (d.getD b []).length = (Ps.map Prod.fst).count b := by
      rw [← h2, List.length_map, ← List.countP_eq_length_filter, List.count, List.countP_map, ← hP.countP_eq]
      apply List.countP_congr
      intro p _
      simp
    rw [← h3]
    simp [hb]
  obtain ⟨g1, g2, g3⟩ := kept_perm hd hP hPsort k.toNat f1 (by
    intro b hb
    rw [f2 b hb, hcountP b hb]
    have : (Ps.map Prod.fst).count b = ((Ps.take k.toNat).map Prod.fst).count b + ((Ps.drop k.toNat).map Prod.fst).count b := by
      rw [← List.count_append, ← List.map_append, List.take_append_drop]
    omega)
  have hkl : (kept (((Ps.take k.toNat).map Prod.fst).foldl decr (d.map fun b => (b.length : Int))) d).length = Ps.length - k.toNat := by
    rw [g2.length_eq]
    simp
  have hdrop : ((dropped (((Ps.take k.toNat).map Prod.fst).foldl decr (d.map fun b => (b.length : Int))) d).map (· ^ power mode)).sum = (l.take k.toNat).sum := by
    rw [(g3.map (· ^ power mode)).sum_eq, hl, ← List.map_take, ← List.map_take, hw]
  refine ⟨_, hval, g1, ?_, ?_, ?_⟩
  · rw [hkl]; exact k3
  · intro hroom
    rw [hkl] at hroom
    rw [hdrop, k4 hroom, ← hT]
    rcases Nat.eq_zero_or_pos c with h | h
    · rw [h]; simpa using hTnn
    · exact c2 h
  · intro y hy
    rw [hdrop, ← hT]
    have hy' := g2.mem_iff.1 hy
    have hkl2 : k.toNat < l.length := by
      have : 0 < ((Ps.drop k.toNat).map Prod.snd).length := List.length_pos_of_mem hy'
      simp at this
      omega
    have h1 := c3 (by omega)
    have h2 := take_sum_mono l hlnn (c + 1) (k.toNat + 1) (by omega)
    rw [List.sum_take_succ l k.toNat hkl2] at h2
    have h3 : l[k.toNat] ≤ w y := by
      have h4 : w y ∈ l.drop k.toNat := by
        rw [hl, ← List.map_drop, ← List.map_drop]
        exact List.mem_map_of_mem hy'
      rw [List.drop_eq_getElem_cons hkl2] at h4
      rcases List.mem_cons.1 h4 with h4 | h4
      · rw [h4]
      · have := hlsort.sublist (List.drop_sublist k.toNat l)
        rw [List.drop_eq_getElem_cons hkl2, List.pairwise_cons] at this
        exact this.1 _ h4
    have h5 : y ^ power mode = w y := by rw [hw]
    rw [h5]
    linarith

/-- C23: any other mode is rejected. -/
theorem C23_reject (argsort : List V → List Nat) (cutoff : V) (mode : Nat) (hm : mode = 0 ∨ 6 < mode) (maxBond : Option Int) (d : List (List V)) :
    trimSingularVals argsort cutoff mode maxBond d = none := by
  unfold trimSingularVals
  rw [if_neg (by omega), if_neg (by omega), if_neg (by omega)]

end

section
variable {V K : Type} [Field V] [LinearOrder V] [IsStrictOrderedRing V]

theorem zipIdx_keep (pow : V → V) (b : List V) (k m : Nat) :
    (((b.zipIdx k).filter fun x => decide ((x.2 : Int) < ((k + m : Nat) : Int))).map fun x => pow x.1) = (b.take m).map pow ∧
    (((b.zipIdx k).filter fun x => decide (¬ (x.2 : Int) < ((k + m : Nat) : Int))).map fun x => pow x.1) = (b.drop m).map pow := by
  induction b generalizing k m with
  | nil => simp
  | cons x b ih =>
    cases m with
    | zero =>
      have h1 : ((x :: b).zipIdx k).filter (fun x => decide ((x.2 : Int) < ((k + 0 : Nat) : Int))) = [] := by
        apply List.filter_eq_nil_iff.2
        intro p hp
        have := List.le_snd_of_mem_zipIdx hp
        simp
        omega
      have h2 : ((x :: b).zipIdx k).filter (fun x => decide (¬ (x.2 : Int) < ((k + 0 : Nat) : Int))) = (x :: b).zipIdx k := by
        apply List.filter_eq_self.2
        intro p hp
        have := List.le_snd_of_mem_zipIdx hp
        simp
        omega
      rw [h1, h2]
      refine ⟨rfl, ?_⟩
      have : (fun x : V × Nat => pow x.1) = pow ∘ Prod.fst := rfl
      rw [this, ← List.map_map, List.zipIdx_map_fst]
      rfl
    | succ m =>
      obtain ⟨i1, i2⟩ := ih (k + 1) m
      rw [show k + 1 + m = k + (m + 1) by omega] at i1 i2
      rw [List.zipIdx_cons, List.filter_cons_of_pos (by simp), List.filter_cons_of_neg (by simp), List.map_cons, i1, i2]
      simp

theorem keepLose_eq (pow : V → V) (b : List V) (n : Int) (hn : 0 ≤ n) :
    keepLose pow b n = (((b.take n.toNat).map pow).sum, ((b.drop n.toNat).map pow).sum) := by
  obtain ⟨m, rfl⟩ := Int.eq_ofNat_of_zero_le hn
  obtain ⟨h1, h2⟩ := zipIdx_keep pow b 0 m
  rw [Nat.zero_add] at h1 h2
  unfold keepLose
  rw [h1, h2]
  simp

theorem renorm_sums (pow : V → V) (d : List (List V)) (n : List Int) (hn : ∀ k ∈ n, 0 ≤ k) :
    (((d.zip n).map fun x => keepLose pow x.1 x.2).map Prod.fst).sum = ((kept n d).map pow).sum ∧
    (((d.zip n).map fun x => keepLose pow x.1 x.2).map Prod.snd).sum = ((dropped n d).map pow).sum := by
  unfold kept dropped
  induction d generalizing n with
  | nil => simp
  | cons b d ih =>
    cases n with
    | nil => simp
    | cons k n =>
      obtain ⟨i1, i2⟩ := ih n fun k hk => hn k (by simp [hk])
      simp only [List.zip_cons_cons, List.map_cons, List.sum_cons, List.zipWith_cons_cons, List.flatten_cons, List.map_append, List.sum_append]
      rw [i1, i2, keepLose_eq pow b k (hn k (by simp))]
      exact ⟨rfl, rfl⟩

theorem kept_dropped_perm (n : List Int) (d : List (List V)) (hn : n.length = d.length) : (kept n d ++ dropped n d).Perm d.flatten := by
  unfold kept dropped
  induction d generalizing n with
  | nil => simp
  | cons b d ih =>
    cases n with
    | nil => simp at hn
    | cons k n =>
      have := ih n (by simpa using hn)
      simp only [List.zipWith_cons_cons, List.flatten_cons]
      have e : b = b.take k.toNat ++ b.drop k.toNat := (List.take_append_drop _ _).symm
      conv_rhs => rw [e]
      rw [List.append_assoc, List.append_assoc]
      refine List.Perm.append_left _ ?_
      refine (List.perm_append_comm_assoc _ _ _).trans ?_
      exact List.Perm.append_left _ this

theorem kept_map (f : V → V) (n : List Int) (d : List (List V)) : kept n (d.map fun b => b.map f) = (kept n d).map f := by
  unfold kept
  induction d generalizing n with
  | nil => simp
  | cons b d ih =>
    cases n with
    | nil => simp
    | cons k n =>
      simp only [List.map_cons, List.zipWith_cons_cons, List.flatten_cons, List.map_append, ih]
      rw [List.map_take]

theorem pyTake_nonneg {α : Type} (k : Int) (hk : 0 ≤ k) (l : List α) : pyTake k l = l.take k.toNat := by
  unfold pyTake
  rw [if_pos hk]

theorem zipWith_pyTake (n : List Int) (hn : ∀ k ∈ n, 0 ≤ k) (d : List (List V)) :
    (d.zipWith (fun b k => pyTake k b) n) = d.zipWith (fun b k => b.take k.toNat) n := by
  induction d generalizing n with
  | nil => rfl
  | cons b d ih =>
    cases n with
    | nil => rfl
    | cons k n =>
      simp only [List.zipWith_cons_cons]
      rw [ih n fun k hk => hn k (by simp [hk]), pyTake_nonneg k (hn k (by simp))]

theorem kept_length (n : List Int) (d : List (List V)) (h : Leading n d) : ((kept n d).length : Int) = n.sum := by
  obtain ⟨h1, h2, h3, h4⟩ := h
  clear h4
  unfold kept
  induction d generalizing n with
  | nil =>
    have : n = [] := by simpa using h1
    subst this
    rfl
  | cons b d ih =>
    cases n with
    | nil => simp at h1
    | cons k n =>
      have := ih n (by simpa using h1) (fun k hk => h2 k (by simp [hk])) (fun i hi => by
        have := h3 (i + 1) (by simpa using hi)
        simpa using this)
      have h4 := h3 0 (by simp)
      have h5 := h2 k (by simp)
      simp only [List.getD_cons_zero] at h4
      simp only [List.zipWith_cons_cons, List.flatten_cons, List.length_append, List.length_take, List.sum_cons]
      push_cast
      rw [this]
      omega

/-- C23: what `_trim_and_renorm_SVD` does with these numbers.  Each sector keeps its first values, and the factors keep the columns and rows that
belong to them.  Without `renorm` the values are unchanged; with it they are scaled by one number such that the sum of their powers is that
of the whole spectrum before. -/
theorem C23_renorm (argsort : List V → List Nat) (cutoff : V) (mode : Nat) (maxBond : Option Int) (renorm : Bool) (pow root : V → V)
    (hpow : ∀ x y, 0 ≤ x → 0 ≤ y → pow (y * root x) = pow y * x) (hpos : ∀ x, 0 ≤ x → 0 ≤ pow x)
    (d : List (List V)) (hd : Spectrum d) (uv : List (Arr K × Arr K))
    (n : List Int) (hn : trimSingularVals argsort cutoff mode maxBond d = some n) (hlead : Leading n d) :
    ∃ f d' uv', trimAndRenorm argsort cutoff mode (.total maxBond) renorm pow root d uv = some (d', uv') ∧
      d' = (d.zipWith (fun b k => b.take k.toNat) n).map (fun b => b.map (· * f)) ∧
      (renorm = false → f = 1) ∧
      (renorm = true → ((kept n d).map pow).sum ≠ 0 → (d'.flatten.map pow).sum = (d.flatten.map pow).sum) ∧
      ∀ i (hi : i < n.length) U W r c, uv[i]? = some (U, W) → U.shape = [r, (d.getD i []).length] → W.shape = [(d.getD i []).length, c] →
        ∃ U' W', uv'[i]? = some (U', W') ∧ U'.shape = [r, n[i].toNat] ∧ W'.shape = [n[i].toNat, c] ∧
          ∀ a, ∀ t < n[i].toNat, U'.get [a, t] = U.get [a, t] ∧ W'.get [t, a] = W.get [t, a] := by
  have htot : (d.map fun b => (b.length : Int)).sum = (d.flatten.length : Int) := by
    rw [List.length_flatten]
    clear hn hlead hd
    induction d with
    | nil => rfl
    | cons b d ih => simp [ih]
  have hpm := kept_dropped_perm n d hlead.length
  have hkl := kept_length n d hlead
  have hfnn : ∀ x ∈ d.flatten, 0 ≤ x := by
    intro x hx
    obtain ⟨b, hb, hx⟩ := List.mem_flatten.1 hx
    exact (hd b hb).2 x hx
  have huv : ∀ i (hi : i < n.length) U W r c, uv[i]? = some (U, W) → U.shape = [r, (d.getD i []).length] → W.shape = [(d.getD i []).length, c] →
        ∃ U' W', (uv.zipWith (fun x k => (x.1.pickLast (pyTake k (List.range (x.1.shape.getLastD 0))),
      x.2.pickFirst (pyTake k (List.range (x.2.shape.headD 0))))) n)[i]? = some (U', W') ∧ U'.shape = [r, n[i].toNat] ∧ W'.shape = [n[i].toNat, c] ∧
          ∀ a, ∀ t < n[i].toNat, U'.get [a, t] = U.get [a, t] ∧ W'.get [t, a] = W.get [t, a] := by
    intro i hi U W r c h1 h2 h3
    have hk := hlead.nonneg n[i] (List.getElem_mem hi)
    have hsz := hlead.size i (by rw [← hlead.length]; exact hi)
    rw [List.getD_eq_getElem _ _ hi] at hsz
    obtain ⟨len, hlen⟩ : ∃ len, len = (d.getD i []).length := ⟨_, rfl⟩
    rw [← hlen] at hsz h2 h3
    refine ⟨_, _, by rw [List.getElem?_zipWith, h1, List.getElem?_eq_getElem hi], ?_, ?_, ?_⟩
    · simp only [Arr.pickLast, h2, pyTake_nonneg _ hk]
      simp
      omega
    · simp only [Arr.pickFirst, h3, pyTake_nonneg _ hk]
      simp
      omega
    · intro a t ht
      simp only [Arr.pickLast, Arr.pickFirst, h2, h3, pyTake_nonneg _ hk]
      have ht2 : t < len := by omega
      simp only [List.getLastD_cons, List.headD_cons]
      constructor
      · simp [ht, ht2]
      · simp [ht, ht2]
  by_cases hcut : n.sum < (d.map fun b => (b.length : Int)).sum ∧ renorm = true
  · refine ⟨renormFactor pow root d n, _, _, ?_, rfl, by simp [hcut.2], ?_, huv⟩
    · unfold trimAndRenorm
      simp only [capNumbers, hn, Option.map_some, if_pos hcut]
      rw [zipWith_pyTake n hlead.nonneg, List.map_zipWith, List.zipWith_map_left]
      simp only [List.map_take]
    · intro _ hne
      obtain ⟨s1, s2⟩ := renorm_sums pow d n hlead.nonneg
      have hkk : ((d.zipWith (fun b k => b.take k.toNat) n).map (fun b => b.map (· * renormFactor pow root d n))).flatten = (kept n d).map (· * renormFactor pow root d n) := by
        unfold kept
        rw [← List.map_flatten]
      rw [hkk, List.map_map]
      have hkn : ∀ y ∈ kept n d, 0 ≤ y := fun y hy => hfnn y (hpm.mem_iff.1 (by simp [hy]))
      have hdn : ∀ y ∈ dropped n d, 0 ≤ y := fun y hy => hfnn y (hpm.mem_iff.1 (by simp [hy]))
      have hks : 0 ≤ ((kept n d).map pow).sum := List.sum_nonneg fun x hx => by
        obtain ⟨y, hy, rfl⟩ := List.mem_map.1 hx
        exact hpos y (hkn y hy)
      have hds : 0 ≤ ((dropped n d).map pow).sum := List.sum_nonneg fun x hx => by
        obtain ⟨y, hy, rfl⟩ := List.mem_map.1 hx
        exact hpos y (hdn y hy)
      have e1 : (kept n d).map (pow ∘ fun x => x * renormFactor pow root d n) =
          (kept n d).map fun y => pow y * ((((kept n d).map pow).sum + ((dropped n d).map pow).sum) / ((kept n d).map pow).sum) := by
        apply List.map_congr_left
        intro y hy
        simp only [Function.comp_def, renormFactor, s1, s2]
        exact hpow _ _ (div_nonneg (add_nonneg hks hds) hks) (hkn y hy)
      rw [e1, List.sum_map_mul_right]
      rw [← (hpm.map pow).sum_eq, List.map_append, List.sum_append]
      field_simp
  · refine ⟨1, d.zipWith (fun b k => b.take k.toNat) n, _, ?_, by simp, by simp, ?_, huv⟩
    · unfold trimAndRenorm
      simp only [capNumbers, hn, Option.map_some, if_neg hcut]
      rw [zipWith_pyTake n hlead.nonneg]
    · intro hr _
      have hge : ¬ n.sum < (d.map fun b => (b.length : Int)).sum := fun h => hcut ⟨h, hr⟩
      have hl := hpm.length_eq
      rw [List.length_append] at hl
      have h0 : dropped n d = [] := by
        apply List.eq_nil_of_length_eq_zero
        omega
      rw [h0, List.append_nil] at hpm
      exact (hpm.map pow).sum_eq

/-- C23: one limit for each sector.  The code compares the sum of the limits with the number of values, so the values are not scaled although some
of them are dropped. -/
theorem C23_each_not_renormalised (argsort : List ℚ → List Nat) :
    trimAndRenorm (K := ℚ) argsort 0 3 (.each [2, 2]) true id id [[2], [2, 2, 1]] [] = some ([[2], [2, 2]], []) := by
  rfl

end

/-! ### Concrete cases -/

/-- A way to sort positions over the rationals. -/
def plainArgsort (s : List ℚ) : List Nat := sortBy (fun i j => decide (s.getD i 0 ≤ s.getD j 0)) (List.range s.length)

theorem plainArgsort_spec : IsArgsort plainArgsort := by
  intro s
  refine ⟨sortBy_perm _ _, ?_⟩
  rw [List.pairwise_map]
  refine (sortBy_sorted _ ?_ ?_ (List.range s.length)).imp fun h => by simpa using h
  · intro a b
    simpa using le_total _ _
  · intro a b c h1 h2
    simp only [decide_eq_true_eq] at *
    exact le_trans h1 h2

def someSpectrum : List (List ℚ) := [[5, 3, 1], [4, 1], [2]]

theorem someSpectrum_spec : Spectrum someSpectrum := by
  intro b hb
  simp [someSpectrum] at hb
  rcases hb with rfl | rfl | rfl  <;> norm_num

/-- All modes, with and without `max_bond`, on a spectrum in three sectors. -/
example : trimSingularVals plainArgsort 1 1 none someSpectrum = some [2, 1, 1] ∧ trimSingularVals plainArgsort (1 / 2) 2 none someSpectrum = some [2, 1, 0] ∧
    trimSingularVals plainArgsort 6 3 none someSpectrum = some [2, 1, 0] ∧ trimSingularVals plainArgsort 6 3 (some 2) someSpectrum = some [1, 1, 0] ∧
    trimSingularVals plainArgsort (1 / 8) 6 none someSpectrum = some [2, 1, 1] ∧ trimSingularVals plainArgsort 1 1 (some 3) someSpectrum = some [2, 1, 0] := by
  decide +kernel

example : ∃ n, trimSingularVals plainArgsort 6 3 (some 4) someSpectrum = some n ∧ ((dropped n someSpectrum).map (· ^ 2)).sum ≤ 6 := by
  obtain ⟨n, h1, _, _, h2, _⟩ := C23_weight plainArgsort plainArgsort_spec 6 (by norm_num) 3 (by simp) (some 4) someSpectrum someSpectrum_spec (by simp [someSpectrum])
  refine ⟨n, h1, h2 ?_⟩
  have : some n = some [2, 1, 0] := by
    rw [← h1]
    decide +kernel
  obtain rfl : n = [2, 1, 0] := by simpa using this
  intro m hm _
  obtain rfl : 4 = m := by simpa using hm
  decide +kernel

/-- Powers of real numbers meet the contract of `C23_renorm`: here the first power. -/
example : ∀ x y : ℚ, 0 ≤ x → 0 ≤ y → id (y * id x) = id y * x := fun _ _ _ _ => rfl

end Trim
end Verif
