import Verif.Proof.FermTraceDot
import Verif.Proof.FermTraceOrder

/-!
Property C73: the trace of a fermionic tensor.
-/

set_option linter.unusedSectionVars false

namespace Verif
variable {Q K : Type} [DecidableEq Q] [AddCommGroup Q] [CommRing K]

/-- C73: the trace succeeds; it is a number if no leg is left and else a tensor on the remaining legs; its value is that of bringing the traced
pairs side by side to the front, with the sign of this reordering, and summing over equal indices. -/
theorem C73_trace (par : Q → Nat) (T : FermT Q K) (legs : List (BondInfo Q)) (ax1 ax2 : List Nat) (h : Traceable T legs ax1 ax2) :
    ∃ R, T.trace par ax1 ax2 = some R ∧
      IsResult R ((freeAxes legs.length (ax1 ++ ax2)).map fun i => T.pattern.getD i true)
        ((freeAxes legs.length (ax1 ++ ax2)).map fun i => legs.getD i []) (traceValue par T legs ax1 ax2) :=
  trace_spec par h

/-- C73: contracting two tensors and then tracing a leg of the first with a leg of the second is the same as contracting these legs as well. -/
theorem C73_contract (par : Q → Nat) (A B : FermT Q K) (axesA axesB : List Int) (x y : Int) (legsA legsB legs : List (BondInfo Q)) (leg : BondInfo Q)
    (ia ib : List Nat) (i j : Nat) (h : Contractible A B (axesA ++ [x]) (axesB ++ [y]) legsA legsB (legs ++ [leg]) (ia ++ [i]) (ib ++ [j]))
    (hB : B.blocks ≠ []) (dA dB : Q) (hpA : A.pattern.length = legsA.length)
    (hpB : B.pattern.length = legsB.length) (hdA : Conserves A.pattern dA A.blocks) (hdB : Conserves B.pattern dB B.blocks) :
    ∃ C D, FermT.tensordot par A B axesA axesB = some C ∧ FermT.tensordot par A B (axesA ++ [x]) (axesB ++ [y]) = some D ∧
      (C.blocks ≠ [] → ∃ R, C.trace par [(freeAxes legsA.length ia).idxOf i]
          [(freeAxes legsA.length ia).length + (freeAxes legsB.length ib).idxOf j] = some R ∧
        IsResult R D.pattern ((freeAxes legsA.length (ia ++ [i])).map (fun i => legsA.getD i []) ++
          (freeAxes legsB.length (ib ++ [j])).map (fun i => legsB.getD i [])) (entry D.blocks)) := by
  simp only [freeAxes_eq]
  exact contract_trace par h hB hpA hpB hdA hdB

/-- C73: the order of the pairs, and the order of the two legs in a pair, do not matter. -/
theorem C73_pair_order (par : Q → Nat) (T : FermT Q K) (legs : List (BondInfo Q)) (π ax1 ax2 ax1' ax2' : List Nat) (h : Traceable T legs ax1 ax2)
    (h' : Traceable T legs ax1' ax2') (hπ : π.Perm (List.range ax1.length)) (hs : SamePairs π ax1 ax2 ax1' ax2') :
    ∃ R R', T.trace par ax1 ax2 = some R ∧ T.trace par ax1' ax2' = some R' ∧ ∃ pattern free val,
      IsResult R pattern free val ∧ IsResult R' pattern free val := by
  obtain ⟨R, h1, h2⟩ := trace_spec par h
  obtain ⟨R', h1', h2'⟩ := trace_spec par h'
  obtain ⟨e, hv⟩ := trace_same par h h' hπ hs
  refine ⟨R, R', h1, h1', _, _, _, h2, ?_⟩
  rw [e] at h2'
  unfold IsResult at h2' ⊢
  cases R' with
  | inl v => exact ⟨h2'.1, h2'.2.trans (hv [] (by have := congrArg List.length h2'.1; simpa using this.symm))⟩
  | inr S => exact ⟨h2'.1, h2'.2.1, h2'.2.2.1, h2'.2.2.2.1, fun f hf => (h2'.2.2.2.2 f hf).trans (hv f (by simpa using hf))⟩

/-- C73: a tensor without blocks cannot be traced: it does not know its charge. -/
theorem C73_empty (par : Q → Nat) (p : List Bool) (ax1 ax2 : List Nat) : (⟨p, []⟩ : FermT Q K).trace par ax1 ax2 = none := by
  unfold FermT.trace FermT.dq
  split_ifs <;> rfl

/-! ### A concrete case: labels are particle numbers modulo nothing, parity is the number modulo two -/

/-- A bond with one even and one odd state. -/
def trBond : BondInfo Int := [(0, 1), (1, 1)]

/-- Four legs `+ + - -`; legs 0 and 2 are traced, the odd leg 1 stands between them. -/
def trT : FermT Int Int :=
  ⟨[true, true, false, false], [([0, 0, 0, 0], ⟨[1, 1, 1, 1], fun _ => 2⟩), ([0, 1, 0, 1], ⟨[1, 1, 1, 1], fun _ => 3⟩),
    ([1, 0, 1, 0], ⟨[1, 1, 1, 1], fun _ => 5⟩), ([1, 1, 1, 1], ⟨[1, 1, 1, 1], fun _ => 7⟩), ([0, 1, 1, 0], ⟨[1, 1, 1, 1], fun _ => 11⟩)]⟩

theorem trT_traceable : Traceable trT [trBond, trBond, trBond, trBond] [0] [2] :=
  ⟨by decide +kernel, by decide +kernel, ⟨0, by unfold Conserves; decide +kernel⟩, rfl, rfl, by decide, by decide +kernel, rfl,
    by unfold trBond Dict.WF; decide +kernel, .cons rfl .nil⟩

theorem trT_traceable_two : Traceable trT [trBond, trBond, trBond, trBond] [0, 1] [2, 3] :=
  ⟨by decide +kernel, by decide +kernel, ⟨0, by unfold Conserves; decide +kernel⟩, rfl, rfl, by decide, by decide +kernel, rfl,
    by unfold trBond Dict.WF; decide +kernel, .cons rfl (.cons rfl .nil)⟩

theorem trT_traceable_two' : Traceable trT [trBond, trBond, trBond, trBond] [3, 0] [1, 2] :=
  ⟨by decide +kernel, by decide +kernel, ⟨0, by unfold Conserves; decide +kernel⟩, rfl, rfl, by decide, by decide +kernel, rfl,
    by unfold trBond Dict.WF; decide +kernel, .cons rfl (.cons rfl .nil)⟩

example : SamePairs [1, 0] [0, 1] [2, 3] [3, 0] [1, 2] := ⟨rfl, rfl, by decide⟩

/-- The values: `2 + 5` on the even states, `3 - 7` on the odd ones; the full trace is `2 + 5 + 3 - 7`. -/
example : ((trT.trace (fun q => q.toNat % 2) [0] [2]).map fun R => match R with
      | .inl v => [v]
      | .inr S => [entry S.blocks [(0, 0), (0, 0)], entry S.blocks [(1, 0), (1, 0)], entry S.blocks [(0, 0), (1, 0)]]) = some [7, -4, 0] ∧
    ((trT.trace (fun q => q.toNat % 2) [3, 0] [1, 2]).map fun R => match R with
      | .inl v => [v]
      | .inr _ => []) = some [3] := by decide +kernel

/-- Two tensors that can be contracted over two pairs of legs. -/
def trA : FermT Int Int := ⟨[true, true, false], [([1, 0, 1], ⟨[1, 1, 1], fun _ => 2⟩), ([0, 1, 1], ⟨[1, 1, 1], fun _ => 3⟩), ([0, 0, 0], ⟨[1, 1, 1], fun _ => 5⟩)]⟩

theorem trA_contractible : Contractible trA ⟨trA.pattern.map not, trA.blocks⟩ ([2] ++ [0]) ([2] ++ [0]) [trBond, trBond, trBond] [trBond, trBond, trBond]
    ([trBond] ++ [trBond]) ([2] ++ [0]) ([2] ++ [0]) :=
  ⟨by decide +kernel, by decide +kernel, by simp [NamesAxis], by simp [NamesAxis], by decide, by decide, rfl, rfl,
    by unfold trBond Dict.WF; decide +kernel, by decide +kernel, .cons rfl (.cons rfl .nil)⟩

example : Conserves trA.pattern 0 trA.blocks ∧ Conserves (trA.pattern.map not) 0 trA.blocks := by unfold Conserves; decide +kernel

end Verif
