import Verif.Thm.Heisenberg
import Verif.Spec.Mpo
import Mathlib.Data.Matrix.Mul

/-!
Specification of the Heisenberg operator on `n` sites of spin `t / 2`: states, spin matrices of one site, their action on the whole chain, and the sum over the bonds.

A state is a function that says for each site how many steps its magnetic number is above the lowest one.
-/

namespace Verif
namespace Heisenberg
variable {K : Type} {n t : Nat}

/-- The states of `n` sites of spin `t / 2`. -/
abbrev Spins (n t : Nat) := Fin n → Fin (t + 1)

/-- The basis vectors of the physical legs of the tensors for a state. -/
def legsOf (u : Spins n t) : List (List (SZ × Nat)) := List.ofFn fun i => [(state t (u i), 0)]

section
variable [Field K]

/-- The raising matrix: `S+ |m⟩ = √(s (s + 1) - m (m + 1)) |m + 1⟩`; with `b` steps above the lowest state the number under the root is `(t - b) (b + 1)`. -/
def raising (sqrt : Int → K) : Matrix (Fin (t + 1)) (Fin (t + 1)) K := fun a b =>
  if a.1 = b.1 + 1 then sqrt (((t : Int) - b.1) * (b.1 + 1)) else 0

/-- The lowering matrix is the transpose. -/
def lowering (sqrt : Int → K) : Matrix (Fin (t + 1)) (Fin (t + 1)) K := (raising sqrt).transpose

/-- The magnetic number. -/
def magnetic : Matrix (Fin (t + 1)) (Fin (t + 1)) K := Matrix.diagonal fun a => (2 * (a.1 : K) - t) / 2

/-- A matrix of one site, as an operator on all sites: the other sites stay as they are. -/
def onSite (i : Fin n) (A : Matrix (Fin (t + 1)) (Fin (t + 1)) K) : Matrix (Spins n t) (Spins n t) K := fun u d =>
  if ∀ j, j ≠ i → u j = d j then A (u i) (d i) else 0

/-- The scalar product of two spins: `1/2 (S+ S- + S- S+) + Sz Sz`. -/
def spinProduct (sqrt : Int → K) (i j : Fin n) : Matrix (Spins n t) (Spins n t) K :=
  (1 / 2 : K) • (onSite i (raising sqrt) * onSite j (lowering sqrt) + onSite i (lowering sqrt) * onSite j (raising sqrt)) +
    onSite i magnetic * onSite j magnetic

/-- The Heisenberg operator: the sum over the bonds of coupling times scalar product. -/
def heisenberg (sqrt : Int → K) (bonds : List (Fin n × Fin n × K)) : Matrix (Spins n t) (Spins n t) K :=
  (bonds.map fun b => b.2.2 • spinProduct sqrt b.1 b.2.1).sum

/-- The tensors `ws` with the bonds `X` between them are a matrix product operator on the sites, with bosonic blocks and trivial outer bonds, whose matrix
elements are those of `H`. -/
structure Represents (H : Matrix (Spins n t) (Spins n t) K) (ws : List (OpT SZ K)) (X : List (BondInfo SZ)) : Prop where
  bonds : OpOnBonds SZ.isFermion ([(0, 1)] :: X ++ [[(0, 1)]]) (List.replicate n ([basis t], [basis t])) ws
  good : ∀ b ∈ X, GoodBond b
  even : ∀ W ∈ ws, EvenBlocks SZ.isFermion W.both
  elements : ∀ u d : Spins n t, opAmpl SZ.isFermion ws X false (0, 0) (legsOf u) (legsOf d) (0, 0) = H u d

end
end Heisenberg
end Verif
