import Verif.Spec.QcMpo
import Mathlib.Data.Fintype.Pi
import Mathlib.Data.Fintype.Prod
import Mathlib.Algebra.BigOperators.Group.Finset.Defs

/-!
Specification of states and operators in occupation-number space for matrix product states and operators of quantum chemistry.
-/

namespace Verif
namespace Hamiltonian
open Fock
variable {K : Type} [Field K]

/-- A matrix product state of the orbitals: the sites have the four states of an orbital, the left edge has the label of the vacuum, the right edge the label `q` of
the particles in the state, and every block is bosonic (the number of fermionic labels is even), except that the blocks of the last tensor may all be fermionic.
It has no constant. -/
structure StateOn (orbSym : List Nat) (q : SZ) (b : Mps SZ K) (Y : List (BondInfo SZ)) : Prop where
  bonds : OnBonds ([(0, 1)] :: Y ++ [[(q, 1)]]) (orbSym.map fun g => [siteBasis g]) b.tensors
  good : ∀ c ∈ Y, GoodBond c
  even : EvenInside SZ.isFermion b.tensors
  const : b.const = 0

/-- The tensors `ws` with the bonds `X` between them are a matrix product operator on the orbitals whose matrix elements are those of `H`.  As in `Represents`, but `H` may
change the number of fermions by one: then the blocks of the last tensor are fermionic. -/
structure ActsAs (orbSym : List Nat) (H : FockOp K) (ws : List (OpT SZ K)) (X : List (BondInfo SZ)) : Prop where
  bonds : OpOnBonds SZ.isFermion ([(0, 1)] :: X ++ [[(0, 1)]]) (orbSym.map fun g => ([siteBasis g], [siteBasis g])) ws
  good : ∀ b ∈ X, GoodBond b
  even : EvenInside SZ.isFermion (ws.map OpT.both)
  elements : ∀ u d : Fin orbSym.length → Bool × Bool,
    opAmpl SZ.isFermion ws X false (0, 0) (legsOf orbSym u) (legsOf orbSym d) (0, 0) = matrixElement H (modes u) (modes d)

/-- Amplitude of a matrix product state in the occupation-number state `u`. -/
def amplitude (orbSym : List Nat) (q : SZ) (ts : List (SpT SZ K)) (Y : List (BondInfo SZ)) (u : Fin orbSym.length → Bool × Bool) : K :=
  ampl ts Y (0, 0) (legsOf orbSym u) (q, 0)

/-- The operator `H + e`. -/
def shifted (H : FockOp K) (e : K) : FockOp K := H ++ [(e, [])]

/-- The product of two operators: every term of the first times every term of the second. -/
def compose (H H' : FockOp K) : FockOp K := H.flatMap fun t => H'.map fun t' => (t.1 * t'.1, t.2 ++ t'.2)

/-- The operator `H` on an amplitude function: `(H ψ)(u) = Σ_d ⟨u|H|d⟩ ψ(d)`. -/
def actOn {n : Nat} (H : FockOp K) (f : (Fin n → Bool × Bool) → K) (u : Fin n → Bool × Bool) : K := ∑ d, matrixElement H (modes u) (modes d) * f d

end Hamiltonian
end Verif
