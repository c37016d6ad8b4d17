import Verif.Spec.Mpo
import Verif.Model.MpsProd

/-!
Specification of an operator on a doubled lattice: each site has a partner (ancilla) on which the operator does nothing.
-/

namespace Verif
section
variable {Q K : Type} [DecidableEq Q] [AddCommGroup Q] [CommRing K]

/-- Matrix element of a chain of operator site tensors when `par` tells, for each site, whether the number of fermions to its left is odd. -/
def opAmplPar : List (OpT Q K) → List (BondInfo Q) → List Bool → Q × Nat → List (List (Q × Nat)) → List (List (Q × Nat)) → Q × Nat → K
  | [W], [], [s], x, [u], [d], y => opEntry W s (x :: u ++ d ++ [y])
  | W :: ws, b :: bs, s :: par, x, u :: us, d :: ds, y =>
    ((legBasis b).map fun z => opEntry W s (x :: u ++ d ++ [z]) * opAmplPar ws bs par z us ds y).sum
  | _, _, _, _, _, _, _ => 0

/-- The parity of the fermions to the left of each physical site when its partner follows it; `ds` are the states of the physical sites and `as`
those of the partners. -/
def seenRight (isF : Q → Bool) : Bool → List (List (Q × Nat)) → List (Q × Nat) → List Bool
  | s, d :: ds, a :: as => s :: seenRight isF (xor (xor s (fermParity isF (d.map Prod.fst))) (isF a.1)) ds as
  | _, _, _ => []

/-- The same when the partner comes before the physical site. -/
def seenLeft (isF : Q → Bool) : Bool → List (List (Q × Nat)) → List (Q × Nat) → List Bool
  | s, d :: ds, a :: as => xor s (isF a.1) :: seenLeft isF (xor (xor s (isF a.1)) (fermParity isF (d.map Prod.fst))) ds as
  | _, _, _ => []

/-- `p0, a0, p1, a1, …`. -/
def alternate {α : Type} : List α → List α → List α
  | p :: ps, a :: as => p :: a :: alternate ps as
  | _, _ => []

/-- Inner bonds of the doubled chain when the partners follow: each bond behind a site twice; the last one once. -/
def bondsRight : List (BondInfo Q) → BondInfo Q → List (BondInfo Q)
  | [], r => [r]
  | b :: X, r => b :: b :: bondsRight X r

/-- Inner bonds of the doubled chain when the partners come first. -/
def bondsLeft : BondInfo Q → List (BondInfo Q) → List (BondInfo Q)
  | l, [] => [l]
  | l, b :: X => l :: b :: bondsLeft b X

/-- What is asked of an operator, its bonds and the basis of the partners. -/
structure Doublable (bonds : List (BondInfo Q)) (phys : List (List (BondInfo Q) × List (BondInfo Q))) (ws : List (OpT Q K)) (basis : List (BondInfo Q)) : Prop where
  on : OpOn bonds phys ws
  good : ∀ c ∈ bonds, GoodBond c
  legs : ∀ ph ∈ phys, ∀ c ∈ ph.1 ++ ph.2, GoodBond c
  blocks : ∀ W ∈ ws, W.noBlocks = false
  basisGood : ∀ b ∈ basis, GoodBond b ∧ b ≠ []
  sites : basis.length = ws.length

end
end Verif
