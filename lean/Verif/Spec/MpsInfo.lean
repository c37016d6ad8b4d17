import Verif.Spec.Mps
import Verif.Spec.Tensor
import Mathlib.Algebra.Group.Defs

/-! Specification of the bonds of a state with given charge. -/

namespace Verif
section
variable {Q : Type} [DecidableEq Q] [AddCommGroup Q]

/-- Charge of a configuration: one basis vector per site. -/
def totalCharge (x : List (Q × Nat)) : Q := (x.map Prod.fst).sum

/-- The configurations of the first `d` sites that lead from the vacuum to the charge `q`. -/
def leftStates (vacuum : Q) (basis : List (BondInfo Q)) (d : Nat) (q : Q) : List (List (Q × Nat)) :=
  (legIndices (basis.take d)).filter fun x => vacuum + totalCharge x = q

/-- The configurations of the sites from `d` on that lead from the charge `q` to the target. -/
def rightStates (target : Q) (basis : List (BondInfo Q)) (d : Nat) (q : Q) : List (List (Q × Nat)) :=
  (legIndices (basis.drop d)).filter fun x => q + totalCharge x = target

/-- Amplitude of a configuration in a state on the given bonds: the first and the last bond have one basis vector each. -/
def confAmpl {K : Type} [Zero K] [Add K] [Mul K] (vacuum target : Q) (bonds : List (BondInfo Q)) (ts : List (SpT Q K)) (x : List (Q × Nat)) : K :=
  ampl ts bonds.tail.dropLast (vacuum, 0) (x.map fun p => [p]) (target, 0)

/-- Some configuration has the target charge. -/
def Reachable (vacuum target : Q) (basis : List (BondInfo Q)) : Prop := ∃ x ∈ legIndices basis, vacuum + totalCharge x = target

/-- Bonds on which a state with the target charge can live: one more than sites, the outer ones with one basis vector, no empty sector and no bond
without sectors. -/
structure StateBonds (vacuum target : Q) (basis bonds : List (BondInfo Q)) : Prop where
  len : bonds.length = basis.length + 1
  first : bonds.headD [] = [(vacuum, 1)]
  last : bonds.getLastD [] = [(target, 1)]
  good : ∀ b ∈ bonds, GoodBond b ∧ b ≠ []

end
end Verif
