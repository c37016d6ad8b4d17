import Verif.Spec.QcMpo

/-!
Specification for the conventional matrix product operator of a quantum-chemistry Hamiltonian, with integrals that may depend on the spins.
-/

namespace Verif
namespace ConvMpo
open Fock
variable {K : Type} [Field K]

/-- The Hamiltonian `Σ t_s,ij c†_is c_js + 1/2 Σ v_st,ijkl c†_is c†_kt c_lt c_js` with the sums over the `n` orbitals and both spins (`false` is spin up). -/
def spinOp (n : Nat) (t : Bool → Nat → Nat → K) (v : Bool → Bool → Nat → Nat → Nat → Nat → K) : FockOp K :=
  ((List.range n).flatMap fun i => (List.range n).flatMap fun j => [false, true].map fun s => (t s i j, [(true, 2 * i + s.toNat), (false, 2 * j + s.toNat)])) ++
  ((List.range n).flatMap fun i => (List.range n).flatMap fun j => (List.range n).flatMap fun k => (List.range n).flatMap fun l =>
    [false, true].flatMap fun s => [false, true].map fun s' =>
      (1 / 2 * v s s' i j k l, [(true, 2 * i + s.toNat), (true, 2 * k + s'.toNat), (false, 2 * l + s'.toNat), (false, 2 * j + s.toNat)]))

/-- Integrals vanish unless the point-group labels of their orbitals combine to the trivial one. -/
structure SpinAllowed (g : List Nat) (t : Bool → Nat → Nat → K) (v : Bool → Bool → Nat → Nat → Nat → Nat → K) : Prop where
  one : ∀ s i j, t s i j ≠ 0 → g.getD i 0 ^^^ g.getD j 0 = 0
  two : ∀ s s' i j k l, v s s' i j k l ≠ 0 → g.getD i 0 ^^^ g.getD j 0 ^^^ g.getD k 0 ^^^ g.getD l 0 = 0

/-- The two-electron integrals do not change when the two electrons are exchanged, or the two orbitals of one electron. -/
structure SpinSymmetric (v : Bool → Bool → Nat → Nat → Nat → Nat → K) : Prop where
  electrons : ∀ s s' i j k l, v s s' i j k l = v s' s k l i j
  orbitals : ∀ s s' i j k l, v s s' i j k l = v s s' j i k l

end ConvMpo
end Verif
