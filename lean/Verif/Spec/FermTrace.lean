import Verif.Spec.Tensor
import Verif.Spec.Fermion
import Verif.Model.FermTrace

/-!
Specification of the trace of a fermionic tensor.
-/

namespace Verif
variable {Q K : Type}

/-- The traced pairs side by side, in each pair the leg that stands first in the tensor first. -/
def sideBySide (ax1 ax2 : List Nat) : List Nat := (ax1.zip ax2).flatMap fun p => [min p.1 p.2, max p.1 p.2]

/-- Each index twice: `[x, y]` gives `[x, x, y, y]`. -/
def twice (c : List (Q × Nat)) : List (Q × Nat) := c.flatMap fun x => [x, x]

/-- The second lists name the same pairs as the first, in the order `π`, each pair in either order. -/
def SamePairs (π ax1 ax2 ax1' ax2' : List Nat) : Prop :=
  ax1'.length = π.length ∧ ax2'.length = π.length ∧ ∀ k < π.length,
    (ax1'.getD k 0 = ax1.getD (π.getD k 0) 0 ∧ ax2'.getD k 0 = ax2.getD (π.getD k 0) 0) ∨
    (ax1'.getD k 0 = ax2.getD (π.getD k 0) 0 ∧ ax2'.getD k 0 = ax1.getD (π.getD k 0) 0)

section
variable [DecidableEq Q] [AddCommGroup Q]

/-- The value of a trace: transpose so that the traced pairs stand side by side in front, then sum over equal indices. -/
def traceValue [CommRing K] (par : Q → Nat) (T : FermT Q K) (legs : List (BondInfo Q)) (ax1 ax2 : List Nat) (f : List (Q × Nat)) : K :=
  ((legIndices (ax1.map fun i => legs.getD i [])).map fun c =>
    entry (T.transpose par (some (sideBySide ax1 ax2 ++ freeAxes legs.length (ax1 ++ ax2)))).blocks (twice c ++ f)).sum

/-- When the legs `ax1` can be traced with the legs `ax2`: the tensor lives on `legs`, has a block (without blocks the tensor does not know its
charge) and all blocks have the same charge; the axes are distinct legs; paired legs carry the same bond with opposite signs. -/
structure Traceable (T : FermT Q K) (legs : List (BondInfo Q)) (ax1 ax2 : List Nat) : Prop where
  on : Conforms legs T.blocks
  ne : T.blocks ≠ []
  charge : ∃ dq, Conserves T.pattern dq T.blocks
  plen : T.pattern.length = legs.length
  len : ax1.length = ax2.length
  nd : (ax1 ++ ax2).Nodup
  lt : ∀ i ∈ ax1 ++ ax2, i < legs.length
  bonds : ax1.map (fun i => legs.getD i []) = ax2.map fun i => legs.getD i []
  wf : ∀ i ∈ ax1, Dict.WF (legs.getD i [])
  pat : List.Forall₂ (fun i j => T.pattern.getD i true = !T.pattern.getD j true) ax1 ax2

/-- The result is a number if there are no legs, else a tensor on `legs` with the given signs; its entries are `val`. -/
def IsResult [Zero K] [Add K] (R : K ⊕ FermT Q K) (pattern : List Bool) (legs : List (BondInfo Q)) (val : List (Q × Nat) → K) : Prop :=
  match R with
  | .inl v => legs = [] ∧ v = val []
  | .inr S => legs ≠ [] ∧ S.pattern = pattern ∧ Conforms legs S.blocks ∧ UniqueLabels S.blocks ∧
      ∀ f, f.length = legs.length → entry S.blocks f = val f

end
end Verif
