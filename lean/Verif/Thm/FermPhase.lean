import Verif.Proof.FermPhase

set_option linter.unusedSectionVars false

/-!
C78: the phases of the compiled kernels.
-/

namespace Verif
open FermPhase

/-- C78: the phase of a transposition is the sign of the new order of the odd legs. -/
theorem C78_transpose_phase (odd : List Bool) (perm : List Nat) (hp : perm.Perm (List.range odd.length)) :
    phase1 odd perm = reorderSign odd perm := phase_order odd perm hp

/-- C78: the phase of the first operand: the contracted legs are moved to the back, the first one ends last. -/
theorem C78_left_phase (odd : List Bool) (idx : List Nat) (hnd : idx.Nodup) (hlt : ∀ i ∈ idx, i < odd.length) :
    phase2 odd idx = reorderSign odd (freeAxes odd.length idx ++ idx.reverse) := by
  have hp := idx_out_perm hnd hlt
  rw [← freeAxes_eq] at hp
  exact phase_order odd _ ((List.perm_append_comm.trans (List.Perm.append_right _ (List.reverse_perm _))).trans hp)

/-- C78: the phase of the second operand: the contracted legs are moved to the front. -/
theorem C78_right_phase (odd : List Bool) (idx : List Nat) (hnd : idx.Nodup) (hlt : ∀ i ∈ idx, i < odd.length) :
    phase3 odd idx = reorderSign odd (idx ++ freeAxes odd.length idx) := by
  have hp := idx_out_perm hnd hlt
  rw [← freeAxes_eq] at hp
  exact phase_order odd _ hp

/-- C78: the compiled phases are those of `compute_phase`. -/
theorem C78_same_as_python (plist idx : List Nat) (hnd : idx.Nodup) (hlt : ∀ i ∈ idx, i < plist.length) :
    (idx.Perm (List.range plist.length) → phase1 (plist.map fun p => decide (p % 2 = 1)) idx = computePhase plist idx false) ∧
    phase2 (plist.map fun p => decide (p % 2 = 1)) idx = computePhase plist idx true ∧
    phase3 (plist.map fun p => decide (p % 2 = 1)) idx = computePhase plist idx false := by
  refine ⟨fun hp => ?_, ?_, ?_⟩
  · rw [C24_left plist idx hnd hlt, C78_transpose_phase _ _ (by simpa using hp)]
    have : freeAxes plist.length idx = [] := by
      unfold freeAxes
      rw [List.filter_eq_nil_iff]
      intro i hi
      simpa using hp.mem_iff.2 hi
    rw [this, List.append_nil]
  · rw [C24_right plist idx hnd hlt, C78_left_phase _ _ hnd (by simpa using hlt), List.length_map]
  · rw [C24_left plist idx hnd hlt, C78_right_phase _ _ hnd (by simpa using hlt), List.length_map]

/-- Five legs, four odd; a cycle of length three and a fixed point among the odd legs, then one of length four. -/
example : phase1 [true, true, false, true, true] [1, 3, 2, 0, 4] = 1 ∧ phase1 [true, true, false, true, true] [1, 3, 2, 4, 0] = -1 ∧
    phase2 [true, true, false, true, true] [0, 2] = -1 ∧ phase3 [true, true, false, true, true] [4, 1] = 1 ∧
    [1, 3, 2, 4, 0].Perm (List.range 5) ∧ [0, 2].Nodup := by decide

end Verif
