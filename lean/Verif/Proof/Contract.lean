import Verif.Thm.OpT

/-! Contraction of a run of consecutive legs of one tensor with a run of consecutive legs of another. -/

set_option linter.unusedSectionVars false

namespace Verif
section
variable {Q K : Type} [DecidableEq Q] [Zero Q]

theorem freeAxes_mid (a n b : Nat) : freeAxes (a + n + b) (List.range' a n) = List.range a ++ List.range' (a + n) b := by
  unfold freeAxes
  have e : List.range (a + n + b) = List.range a ++ List.range' a n ++ List.range' (a + n) b := by
    rw [List.range_eq_range', List.range_eq_range']
    have h1 := List.range'_append_1 (s := 0) (m := a) (n := n)
    have h2 := List.range'_append_1 (s := 0) (m := a + n) (n := b)
    rw [Nat.zero_add] at h1 h2
    rw [h1, h2]
  rw [e, List.filter_append, List.filter_append]
  have h1 : (List.range a).filter (fun i => decide (i ∉ List.range' a n)) = List.range a := by
    rw [List.filter_eq_self]
    intro i hi
    simp at hi ⊢
    omega
  have h2 : (List.range' a n).filter (fun i => decide (i ∉ List.range' a n)) = [] := by
    rw [List.filter_eq_nil_iff]
    intro i hi
    simpa using hi
  have h3 : (List.range' (a + n) b).filter (fun i => decide (i ∉ List.range' a n)) = List.range' (a + n) b := by
    rw [List.filter_eq_self]
    intro i hi
    simp at hi ⊢
    omega
  rw [h1, h2, h3, List.append_nil]

theorem pick_append_idx {α : Type} [Zero α] (i j : List Nat) (l : List α) : pick (i ++ j) l = pick i l ++ pick j l := by
  unfold pick; rw [List.map_append]

theorem pick_outer {α : Type} [Zero α] (u c v : List α) :
    pick (List.range u.length ++ List.range' (u.length + c.length) v.length) (u ++ c ++ v) = u ++ v := by
  rw [pick_append_idx]
  congr 1
  · rw [List.append_assoc]; exact pick_first u (c ++ v)
  · have := pick_second (u ++ c) v
    rwa [List.length_append] at this

/-- The axes `k, ..., k + n - 1` as Python integers. -/
def axesAt (k n : Nat) : List Int := (List.range' k n).map Int.ofNat

theorem hasIndices_mid {c u v : List (Q × Nat)} : HasIndices (List.range' u.length c.length) c (u ++ v) (u ++ c ++ v) := by
  refine ⟨by simp; omega, pick_range' u c v, ?_⟩
  rw [List.length_append, List.length_append, freeAxes_mid]
  exact pick_outer u c v

end

section
variable {Q K : Type} [DecidableEq Q] [AddCommGroup Q] [CommRing K]

theorem split3 {α : Type} {l : List α} {a n b : Nat} (h : l.length = a + n + b) :
    ∃ u c v, l = u ++ c ++ v ∧ u.length = a ∧ c.length = n ∧ v.length = b := by
  refine ⟨l.take a, (l.drop a).take n, (l.drop a).drop n, ?_, ?_, ?_, ?_⟩
  · rw [List.append_assoc, List.take_append_drop, List.take_append_drop]
  · rw [List.length_take]; omega
  · rw [List.length_take, List.length_drop]; omega
  · rw [List.length_drop, List.length_drop]; omega

/-- Contraction of consecutive legs `s`. -/
theorem sp_contract (a1 s a2 b1 b2 : List (BondInfo Q)) (hw : ∀ b ∈ s, Dict.WF b) (A B : SpT Q K)
    (hA : Conforms (a1 ++ s ++ a2) A) (hB : Conforms (b1 ++ s ++ b2) B) :
    ∃ R, SpT.tensordot A B (axesAt a1.length s.length) (axesAt b1.length s.length) = some R ∧
      Conforms ((a1 ++ a2) ++ (b1 ++ b2)) R ∧ UniqueLabels R ∧
      (∀ u v u' v', u.length = a1.length → v.length = a2.length → u'.length = b1.length → v'.length = b2.length →
        entry R ((u ++ v) ++ (u' ++ v')) = ((legIndices s).map fun m => entry A (u ++ m ++ v) * entry B (u' ++ m ++ v')).sum) ∧
      ∀ r ∈ R, ∃ u v m u' v' : List Q, u.length = a1.length ∧ v.length = a2.length ∧ m.length = s.length ∧ u'.length = b1.length ∧
        v'.length = b2.length ∧ (∃ a ∈ A, a.1 = u ++ m ++ v) ∧ (∃ b ∈ B, b.1 = u' ++ m ++ v') ∧ r.1 = (u ++ v) ++ (u' ++ v') := by
  have nA : (a1 ++ s ++ a2).length = a1.length + s.length + a2.length := by simp; omega
  have nB : (b1 ++ s ++ b2).length = b1.length + s.length + b2.length := by simp; omega
  have g1 : (List.range' a1.length s.length).map (fun i => (a1 ++ s ++ a2).getD i []) = s := by
    let _ : Zero (BondInfo Q) := ⟨[]⟩
    exact pick_range' a1 s a2
  have g2 : (List.range' b1.length s.length).map (fun i => (b1 ++ s ++ b2).getD i []) = s := by
    let _ : Zero (BondInfo Q) := ⟨[]⟩
    exact pick_range' b1 s b2
  have f1 : (List.range a1.length ++ List.range' (a1.length + s.length) a2.length).map (fun i => (a1 ++ s ++ a2).getD i []) = a1 ++ a2 := by
    let _ : Zero (BondInfo Q) := ⟨[]⟩
    exact pick_outer a1 s a2
  have f2 : (List.range b1.length ++ List.range' (b1.length + s.length) b2.length).map (fun i => (b1 ++ s ++ b2).getD i []) = b1 ++ b2 := by
    let _ : Zero (BondInfo Q) := ⟨[]⟩
    exact pick_outer b1 s b2
  obtain ⟨R, h1, h2, h3, h4⟩ := C12_tensordot A B (axesAt a1.length s.length) (axesAt b1.length s.length) _ _ s
    (List.range' a1.length s.length) (List.range' b1.length s.length) hA hB
    (namesAxes_ofNat _ (by intro i hi; simp at hi ⊢; omega)) (namesAxes_ofNat _ (by intro i hi; simp at hi ⊢; omega))
    List.nodup_range' List.nodup_range' g1 g2 hw
  rw [nA, nB, freeAxes_mid, freeAxes_mid] at h2 h4
  rw [f1, f2] at h2
  refine ⟨R, h1, h2, h3, ?_, ?_⟩
  · intro u v u' v' hu hv hu' hv'
    refine h4 (u ++ v) (u' ++ v') (by simp [hu, hv]) (by simp [hu', hv']) (fun m => u ++ m ++ v) (fun m => u' ++ m ++ v') ?_ ?_
    · intro m hm
      have hm := legIndices_length hm
      rw [← hu, ← hm]
      exact hasIndices_mid
    · intro m hm
      have hm := legIndices_length hm
      rw [← hu', ← hm]
      exact hasIndices_mid
  · intro r hr
    obtain ⟨a, ha, b, hb, e1, e2⟩ := tensordot_labels A B R _ _ h1 r hr
    have ndA : A.ndim = a1.length + s.length + a2.length := by rw [ndim_eq hA (List.ne_nil_of_mem ha), nA]
    have ndB : B.ndim = b1.length + s.length + b2.length := by rw [ndim_eq hB (List.ne_nil_of_mem hb), nB]
    have la : a.1.length = a1.length + s.length + a2.length := by rw [(hA a ha).lengths.1, nA]
    have lb : b.1.length = b1.length + s.length + b2.length := by rw [(hB b hb).lengths.1, nB]
    unfold axesAt at e1 e2
    rw [normAxes_ofNat, normAxes_ofNat] at e1 e2
    rw [ndA, ndB, ← freeAxes_eq, ← freeAxes_eq, freeAxes_mid, freeAxes_mid] at e1
    obtain ⟨u, m, v, hq, hu, hm, hv⟩ := split3 la
    obtain ⟨u', m', v', hq', hu', hm', hv'⟩ := split3 lb
    rw [hq, hq'] at e1 e2
    have p1 := pick_outer u m v
    have p2 := pick_outer u' m' v'
    have p3 := pick_range' u m v
    have p4 := pick_range' u' m' v'
    rw [hu, hm, hv] at p1
    rw [hu', hm', hv'] at p2
    rw [hu, hm] at p3
    rw [hu', hm'] at p4
    rw [p1, p2] at e1
    rw [p3, p4] at e2
    subst e2
    exact ⟨u, v, m', u', v', hu, hv, hm, hu', hv', ⟨a, ha, hq⟩, ⟨b, hb, hq'⟩, e1⟩

end
end Verif
