import Verif.Spec.Tensor
import Verif.Spec.Fock
import Verif.Spec.Fermion
import Verif.Model.Symmetry

/-!
What it means that a labelling of the four states of a site is faithful, and that an operator tensor has a definite charge.
-/

namespace Verif
namespace FermiOps

/-- The basis vector of the leg that a state is sent to. -/
def slot {Q : Type} (sm : Nat → Q × Nat × Nat) (s : Nat) : Q × Nat := ((sm s).1, (sm s).2.1)

/-- The labelling `sm` is faithful: the leg `bond` has exactly the four states as its basis vectors, each label has the
dimension that the map announces, and the parity of the label is the parity of the number of electrons. -/
structure Faithful {Q : Type} [DecidableEq Q] (par : Q → Nat) (sm : Nat → Q × Nat × Nat) (bond : BondInfo Q) : Prop where
  wf : Dict.WF bond
  basis : (legBasis bond).Perm ([0, 1, 2, 3].map (slot sm))
  dim : ∀ s < 4, Dict.get? bond (sm s).1 = some (sm s).2.2
  parity : ∀ s < 4, par (sm s).1 % 2 = (Fock.occupations s).count true % 2

/-- All blocks have the charge `dq`, in the arithmetic of the symmetry class (`true` is `+`). -/
def HasChargeIn {C P K : Type} (S : SymClass C P) (pattern : List Bool) (dq : C) (T : SpT C K) : Prop :=
  ∀ b ∈ T, S.accum S.zero (b.1.zip pattern) = dq

instance {C P K : Type} [DecidableEq C] (S : SymClass C P) (pattern : List Bool) (dq : C) (T : SpT C K) :
    Decidable (HasChargeIn S pattern dq T) := inferInstanceAs (Decidable (∀ b ∈ T, _))

/-- Occupations of several sites, one after the other. -/
def occOf (ss : List Nat) : List Bool := ss.flatMap Fock.occupations

/-- Sign of reversing the order of the sites in the states `ss`: minus one for each pair of sites with an odd number of electrons. -/
def reversalSign (ss : List Nat) : Int :=
  reorderSign (ss.map fun s => decide ((Fock.occupations s).count true % 2 = 1)) (List.range ss.length).reverse

/-- The tensor `A` with `m` outgoing and `m` incoming legs stands for the operator `H` on `m` sites.  The incoming legs are read in
reverse order (the order in which fermionic contraction meets them), hence the sign. -/
def Represents {Q K : Type} [DecidableEq Q] [Ring K] (sm : Nat → Q × Nat × Nat) (m : Nat) (H : Fock.FockOp K) (A : SpT Q K) : Prop :=
  ∀ out inn : List Nat, out.length = m → inn.length = m → (∀ s ∈ out, s < 4) → (∀ s ∈ inn, s < 4) →
    entry A (out.map (slot sm) ++ inn.map (slot sm)) = (reversalSign inn : K) * Fock.matrixElement H (occOf out) (occOf inn)

end FermiOps
end Verif
