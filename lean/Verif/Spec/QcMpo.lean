import Verif.Spec.Fock
import Verif.Spec.Mpo
import Verif.Thm.Hamiltonian

/-!
Specification for the matrix product operator of a quantum-chemistry Hamiltonian.

A state of `n` orbitals is a function from orbitals to pairs of occupations (spin up, spin down).
-/

namespace Verif
namespace Hamiltonian
open Fock
variable {K : Type} {n : Nat}

/-- The basis vectors of the physical legs of the tensors for a state of the orbitals. -/
def legsOf (orbSym : List Nat) (u : Fin n → Bool × Bool) : List (List (SZ × Nat)) :=
  List.ofFn fun i => [(occ (orbSym.getD i.1 0) (u i).1 (u i).2, 0)]

/-- The symbol of an operator: `C` for creation, `D` for annihilation, on orbital `o.2 / 2`; odd modes have spin down. -/
def symbolOf [Field K] (orbSym : List Nat) (o : Op) : OpElement Nat SZ K :=
  elementary orbSym (!o.1) (o.2 / 2) (decide (o.2 % 2 = 1))

/-- What an operator changes: particle number, twice the spin projection, point-group label. -/
def chargeOf (orbSym : List Nat) (o : Op) : SZ :=
  ⟨if o.1 then 1 else -1, if o.1 = decide (o.2 % 2 = 0) then 1 else -1, orbSym.getD (o.2 / 2) 0⟩

/-- The terms are products of operators of the `n` orbitals, and conserve particle number, spin projection and point-group label. -/
structure NeutralOn (orbSym : List Nat) (H : FockOp K) : Prop where
  modes : ∀ t ∈ H, ∀ o ∈ t.2, o.2 < 2 * orbSym.length
  neutral : ∀ t ∈ H, (t.2.map (chargeOf orbSym)).sum = 0

/-- The terms as strings of symbols, as `build_mpo` has them. -/
def termsOf [Field K] (orbSym : List Nat) (H : FockOp K) : List (OpString Nat SZ K) :=
  H.map fun t => OpString.mk' (t.2.map (symbolOf orbSym)) t.1

/-- The Hamiltonian `Σ h_ij c†_is c_js + 1/2 Σ g_ijkl c†_is c†_kt c_lt c_js` with the sums over the `n` orbitals and both spins. -/
def qcOp [Field K] (n : Nat) (h : Nat → Nat → K) (g : Nat → Nat → Nat → Nat → K) : FockOp K :=
  ((List.range n).flatMap fun i => (List.range n).flatMap fun j => [0, 1].map fun s => (h i j, [(true, 2 * i + s), (false, 2 * j + s)])) ++
  ((List.range n).flatMap fun i => (List.range n).flatMap fun j => (List.range n).flatMap fun k => (List.range n).flatMap fun l =>
    [0, 1].flatMap fun s => [0, 1].map fun t =>
      (1 / 2 * g i j k l, [(true, 2 * i + s), (true, 2 * k + t), (false, 2 * l + t), (false, 2 * j + s)]))

/-- Integrals vanish unless the point-group labels of their orbitals combine to the trivial one. -/
structure Allowed [Field K] (orbSym : List Nat) (h : Nat → Nat → K) (g : Nat → Nat → Nat → Nat → K) : Prop where
  one : ∀ i j, h i j ≠ 0 → orbSym.getD i 0 ^^^ orbSym.getD j 0 = 0
  two : ∀ i j k l, g i j k l ≠ 0 → orbSym.getD i 0 ^^^ orbSym.getD j 0 ^^^ orbSym.getD k 0 ^^^ orbSym.getD l 0 = 0

/-- The tensors `ws` with the bonds `X` between them are a matrix product operator on the orbitals, with bosonic blocks and trivial outer bonds, whose matrix elements
are those of `H`. -/
structure Represents [Field K] (orbSym : List Nat) (H : FockOp K) (ws : List (OpT SZ K)) (X : List (BondInfo SZ)) : Prop where
  bonds : OpOnBonds SZ.isFermion ([(0, 1)] :: X ++ [[(0, 1)]]) (orbSym.map fun g => ([siteBasis g], [siteBasis g])) ws
  good : ∀ b ∈ X, GoodBond b
  even : ∀ W ∈ ws, EvenBlocks SZ.isFermion W.both
  elements : ∀ u d : Fin orbSym.length → Bool × Bool,
    opAmpl SZ.isFermion ws X false (0, 0) (legsOf orbSym u) (legsOf orbSym d) (0, 0) = matrixElement H (modes u) (modes d)

end Hamiltonian
end Verif
