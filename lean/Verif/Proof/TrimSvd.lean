import Verif.Spec.TrimSvd
import Verif.Proof.Py
import Mathlib.Data.List.Sort
import Mathlib.Data.List.GetD
import Mathlib.Algebra.Order.Ring.Defs
import Mathlib.Tactic.Linarith

/-! Lemmas about the truncation of a spectrum that is distributed over sectors. -/

set_option linter.unusedSectionVars false

namespace Verif
namespace Trim
section
variable {V : Type}

/-- All values with the numbers of their sectors. -/
def pairsFrom (d : List (List V)) (k : Nat) : List (Nat × V) := (d.zipIdx k).flatMap fun b => b.1.map fun x => (b.2, x)

theorem pairs_snd (d : List (List V)) (k : Nat) : (pairsFrom d k).map Prod.snd = d.flatten := by
  induction d generalizing k with
  | nil => rfl
  | cons b d ih =>
    have := ih (k + 1)
    simp only [pairsFrom, List.zipIdx_cons, List.flatMap_cons, List.map_append, List.map_map] at this ⊢
    rw [this]
    simp [Function.comp_def]

theorem pairs_fst (d : List (List V)) : (pairsFrom d 0).map Prod.fst = indMap d := by
  unfold indMap pairsFrom
  rw [List.map_flatMap]
  congr 1
  funext b
  simp [Function.comp_def, List.map_const']

theorem pairs_lt (d : List (List V)) (k : Nat) : ∀ p ∈ pairsFrom d k, k ≤ p.1 ∧ p.1 < k + d.length := by
  intro p hp
  unfold pairsFrom at hp
  simp only [List.mem_flatMap, List.mem_map] at hp
  obtain ⟨b, hb, x, _, rfl⟩ := hp
  have h1 := List.le_snd_of_mem_zipIdx hb
  have h2 := List.snd_lt_add_of_mem_zipIdx hb
  exact ⟨h1, by omega⟩

theorem pairs_filter (d : List (List V)) (k i : Nat) : ((pairsFrom d k).filter fun p => decide (p.1 = k + i)).map Prod.snd = d.getD i [] := by
  induction d generalizing k i with
  | nil => rfl
  | cons b d ih =>
    have e : pairsFrom (b :: d) k = b.map (fun x => (k, x)) ++ pairsFrom d (k + 1) := by
      simp [pairsFrom]
    rw [e, List.filter_append, List.map_append]
    cases i with
    | zero =>
      have h1 : (b.map fun x => (k, x)).filter (fun p => decide (p.1 = k + 0)) = b.map fun x => (k, x) := by
        apply List.filter_eq_self.2
        intro p hp
        obtain ⟨x, _, rfl⟩ := List.mem_map.1 hp
        simp
      have h2 : (pairsFrom d (k + 1)).filter (fun p => decide (p.1 = k + 0)) = [] := by
        apply List.filter_eq_nil_iff.2
        intro p hp
        have := pairs_lt d (k + 1) p hp
        simp
        omega
      rw [h1, h2]
      simp [Function.comp_def]
    | succ i =>
      have h1 : (b.map fun x => (k, x)).filter (fun p => decide (p.1 = k + (i + 1))) = [] := by
        apply List.filter_eq_nil_iff.2
        intro p hp
        obtain ⟨x, _, rfl⟩ := List.mem_map.1 hp
        simp
      have h2 := ih (k + 1) i
      rw [h1]
      rw [show k + (i + 1) = k + 1 + i by omega, h2]
      simp

/-- Sorting by sector permutes. -/
theorem by_sector_perm (l : List (Nat × V)) (m : Nat) (h : ∀ p ∈ l, p.1 < m) :
    ((List.range m).flatMap fun i => l.filter fun p => decide (p.1 = i)).Perm l := by
  classical
  rw [List.perm_iff_count]
  intro p
  rw [List.count_flatMap]
  have e : ∀ i, (l.filter fun q => decide (q.1 = i)).count p = if i = p.1 then l.count p else 0 := by
    intro i
    by_cases hi : i = p.1
    · rw [if_pos hi, List.count_filter]
      simp [hi]
    · rw [if_neg hi, List.count_eq_zero]
      simp
      intro _ h
      exact absurd h.symm hi
  have : List.map (List.count p ∘ fun i => l.filter fun q => decide (q.1 = i)) (List.range m) = (List.range m).map fun i => if i = p.1 then l.count p else 0 := by
    apply List.map_congr_left
    intro i _
    exact e i
  rw [this]
  by_cases hp : p ∈ l
  · have hm := h p hp
    have hs : ((List.range m).map fun i => if i = p.1 then l.count p else 0).sum = l.count p := by
      clear this e
      obtain ⟨c, hc⟩ : ∃ c, c = l.count p := ⟨_, rfl⟩
      rw [← hc]
      clear hc
      induction m with
      | zero => omega
      | succ m ih =>
        rw [List.range_succ, List.map_append, List.sum_append]
        by_cases hpm : p.1 = m
        · have : ((List.range m).map fun i => if i = p.1 then c else 0).sum = 0 := by
            apply List.sum_eq_zero
            intro x hx
            obtain ⟨i, hi, rfl⟩ := List.mem_map.1 hx
            rw [if_neg]
            simp at hi
            omega
          rw [this]
          simp [hpm]
        · have : ((List.range m).map fun i => if i = p.1 then c else 0).sum = c := by
            clear h
            have hm' : p.1 < m := by omega
            clear ih hm hpm hp
            induction m with
            | zero => omega
            | succ m ih2 =>
              rw [List.range_succ, List.map_append, List.sum_append]
              by_cases h' : p.1 = m
              · have : ((List.range m).map fun i => if i = p.1 then c else 0).sum = 0 := by
                  apply List.sum_eq_zero
                  intro x hx
                  obtain ⟨i, hi, rfl⟩ := List.mem_map.1 hx
                  rw [if_neg]
                  simp at hi
                  omega
                rw [this]
                simp [h']
              · rw [ih2 (by omega)]
                simp
                omega
          rw [this]
          simp
          omega
    exact hs
  · rw [List.count_eq_zero.2 hp]
    simp

theorem decr_length (n : List Int) (i : Nat) : (decr n i).length = n.length := by simp [decr]

theorem decr_getD (n : List Int) (i b : Nat) : (decr n i).getD b 0 = n.getD b 0 - if i = b ∧ b < n.length then 1 else 0 := by
  unfold decr
  simp only [List.getD_eq_getElem?_getD, List.getElem?_modify]
  by_cases hb : b < n.length
  · by_cases hi : i = b
    · simp [hi, hb]
    · simp [hi, hb]
  · simp [hb]

theorem foldl_decr (L : List Nat) (n : List Int) : (L.foldl decr n).length = n.length ∧
    ∀ b < n.length, (L.foldl decr n).getD b 0 = n.getD b 0 - (L.count b : Int) := by
  induction L generalizing n with
  | nil => simp
  | cons i L ih =>
    obtain ⟨h1, h2⟩ := ih (decr n i)
    rw [decr_length] at h1 h2
    refine ⟨h1, fun b hb => ?_⟩
    rw [List.foldl_cons, h2 b hb, decr_getD, List.count_cons]
    by_cases hi : i = b
    · simp [hi, hb]; omega
    · simp [hi]

end

section
variable {V : Type} [Zero V] [LinearOrder V]

/-- The heart of the matter: in the sorted list of all values the last ones are kept, counted by sector. -/
theorem kept_perm {d : List (List V)} (hd : Spectrum d) {Ps : List (Nat × V)} (hP : Ps.Perm (pairsFrom d 0)) (hs : (Ps.map Prod.snd).Pairwise (· ≤ ·))
    (k : Nat) {n : List Int} (hn : n.length = d.length) (hc : ∀ b < d.length, n.getD b 0 = (((Ps.drop k).map Prod.fst).count b : Int)) :
    Leading n d ∧ (kept n d).Perm ((Ps.drop k).map Prod.snd) ∧ (dropped n d).Perm ((Ps.take k).map Prod.snd) := by
  have hlt : ∀ p ∈ Ps, p.1 < d.length := fun p hp => by
    have := pairs_lt d 0 p (hP.mem_iff.1 hp)
    omega
  have hb : ∀ b < d.length, d.getD b [] = ((Ps.filter fun p => decide (p.1 = b)).map Prod.snd).reverse := by
    intro b hb
    have h1 : ((Ps.filter fun p => decide (p.1 = b)).map Prod.snd).Perm (d.getD b []) := by
      have := (hP.filter fun p => decide (p.1 = b)).map Prod.snd
      have h2 := pairs_filter d 0 b
      simp only [Nat.zero_add] at h2
      rwa [h2] at this
    have h2 : (d.getD b []).Pairwise (· ≥ ·) := by
      rw [List.getD_eq_getElem _ _ hb]
      exact (hd _ (List.getElem_mem hb)).1
    have h3 : ((Ps.filter fun p => decide (p.1 = b)).map Prod.snd).Pairwise (· ≤ ·) :=
      hs.sublist (List.filter_sublist.map _)
    have h4 : (((Ps.filter fun p => decide (p.1 = b)).map Prod.snd).reverse).Pairwise (· ≥ ·) := by
      rw [List.pairwise_reverse]
      exact h3
    exact ((List.reverse_perm _).trans h1).symm.eq_of_pairwise' h2 h4
  have hcount : ∀ (l : List (Nat × V)) b, (l.map Prod.fst).count b = (l.filter fun p => decide (p.1 = b)).length := by
    intro l b
    rw [List.count, List.countP_map, List.countP_eq_length_filter]
    congr 1
  have hsplit : ∀ b, Ps.filter (fun p => decide (p.1 = b)) = (Ps.take k).filter (fun p => decide (p.1 = b)) ++ (Ps.drop k).filter (fun p => decide (p.1 = b)) := by
    intro b
    rw [← List.filter_append, List.take_append_drop]
  have htake : ∀ b < d.length, (d.getD b []).take (n.getD b 0).toNat = (((Ps.drop k).filter fun p => decide (p.1 = b)).map Prod.snd).reverse := by
    intro b h
    rw [hb b h, hc b h, hsplit, List.map_append, List.reverse_append, Int.toNat_natCast, hcount]
    apply List.take_left'
    simp
  have hdrop : ∀ b < d.length, (d.getD b []).drop (n.getD b 0).toNat = (((Ps.take k).filter fun p => decide (p.1 = b)).map Prod.snd).reverse := by
    intro b h
    rw [hb b h, hc b h, hsplit, List.map_append, List.reverse_append, Int.toNat_natCast, hcount]
    apply List.drop_left'
    simp
  have hzip : ∀ f : List V → Int → List V, d.zipWith f n = (List.range d.length).map fun b => f (d.getD b []) (n.getD b 0) := by
    intro f
    apply List.ext_getElem
    · simp [hn]
    · intro i h1 h2
      simp at h1 h2
      simp [h2, hn]
  have hperm : ∀ l : List (Nat × V), (∀ p ∈ l, p.1 < d.length) →
      (((List.range d.length).map fun b => ((l.filter fun p => decide (p.1 = b)).map Prod.snd).reverse).flatten).Perm (l.map Prod.snd) := by
    intro l hl
    rw [← List.flatMap_def]
    refine (List.Perm.flatMap_left _ fun b _ => List.reverse_perm _).trans ?_
    have := (by_sector_perm l d.length hl).map Prod.snd
    rwa [List.map_flatMap] at this
  have hk : (kept n d).Perm ((Ps.drop k).map Prod.snd) := by
    unfold kept
    rw [hzip]
    rw [List.map_congr_left (g := fun b => (((Ps.drop k).filter fun p => decide (p.1 = b)).map Prod.snd).reverse) fun b hb => htake b (by simpa using hb)]
    exact hperm _ fun p hp => hlt p (List.mem_of_mem_drop hp)
  have hr : (dropped n d).Perm ((Ps.take k).map Prod.snd) := by
    unfold dropped
    rw [hzip]
    rw [List.map_congr_left (g := fun b => (((Ps.take k).filter fun p => decide (p.1 = b)).map Prod.snd).reverse) fun b hb => hdrop b (by simpa using hb)]
    exact hperm _ fun p hp => hlt p (List.mem_of_mem_take hp)
  refine ⟨⟨hn, ?_, ?_, ?_⟩, hk, hr⟩
  · intro x hx
    obtain ⟨i, hi, rfl⟩ := List.mem_iff_getElem.1 hx
    have := hc i (by omega)
    rw [List.getD_eq_getElem _ _ hi] at this
    omega
  · intro i hi
    rw [hc i hi, hcount, hb i hi, hsplit]
    simp
  · intro x hx y hy
    rw [hr.mem_iff] at hx
    rw [hk.mem_iff] at hy
    rw [← List.take_append_drop k Ps, List.map_append, List.pairwise_append] at hs
    exact hs.2.2 x hx y hy

/-- Looking the positions up in the list of pairs. -/
theorem sorted_pairs {d : List (List V)} {ind : List Nat} (hp : ind.Perm (List.range d.flatten.length)) :
    (ind.map fun i => (pairsFrom d 0).getD i (0, 0)).Perm (pairsFrom d 0) ∧
      (ind.map fun i => (pairsFrom d 0).getD i (0, 0)).map Prod.fst = ind.map (fun i => (indMap d).getD i 0) ∧
      (ind.map fun i => (pairsFrom d 0).getD i (0, 0)).map Prod.snd = ind.map (fun i => d.flatten.getD i 0) := by
  have hl : (pairsFrom d 0).length = d.flatten.length := by
    rw [← pairs_snd d 0, List.length_map]
  refine ⟨?_, ?_, ?_⟩
  · refine (hp.map _).trans ?_
    rw [← hl]
    apply List.Perm.of_eq
    apply List.ext_getElem
    · simp
    · intro i h1 h2
      simp [h2]
  · rw [List.map_map]
    apply List.map_congr_left
    intro i hi
    have hi' : i < (pairsFrom d 0).length := by
      have := hp.mem_iff.1 hi
      rw [hl]
      simpa using this
    simp only [Function.comp_def]
    rw [← pairs_fst]
    simp [hi']
  · rw [List.map_map]
    apply List.map_congr_left
    intro i hi
    have hi' : i < (pairsFrom d 0).length := by
      have := hp.mem_iff.1 hi
      rw [hl]
      simpa using this
    simp only [Function.comp_def]
    rw [← pairs_snd d 0]
    simp [hi']

end
end Trim
end Verif
