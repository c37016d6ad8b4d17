import Verif.Spec.MpeSweep
import Verif.Spec.Canon
import Verif.Model.MpeSweep

/-!
Specification of sweeps with canonicalisation: inner products of states, isometric sites outside a window, and histories of a sweep in which the
replaced tensors stay on the bonds at the ends of the window.
-/

namespace Verif
section
variable {Q K : Type} [DecidableEq Q]

/-- The inner product of two states given by their amplitudes, on the edges `l`, `r` and the physical legs `phys`. -/
def innerProduct [Zero K] [Add K] [Mul K] [Star K] (l r : BondInfo Q) (phys : List (List (BondInfo Q))) (A B : Q × Nat → List (List (Q × Nat)) → Q × Nat → K) : K :=
  ((legBasis l).map fun x => ((cart (phys.map legIndices)).map fun ps => ((legBasis r).map fun y => star (A x ps y) * B x ps y).sum).sum).sum

/-- The tensors of `n` sites live on the edges `e`, `f` and the inner bonds `Z`; they have no repeated labels and a definite charge each. -/
structure FitsOn [AddCommGroup Q] (e f : BondInfo Q) (phys : List (List (BondInfo Q))) (n : Nat) (Z : List (BondInfo Q)) (ket : Nat → SpT Q K) : Prop where
  on : OnBonds (e :: Z ++ [f]) phys ((List.range n).map ket)
  good : ∀ b ∈ Z, GoodBond b
  unique : ∀ i < n, UniqueLabels (ket i)
  charge : ∀ i < n, HasCharge ((phys.getD i []).length + 2) (ket i)

/-- The sites before `l` are isometries to the right, the sites from `r` on are isometries to the left. -/
structure IsometricOutside [Zero K] [One K] [Add K] [Mul K] [Star K] (e f : BondInfo Q) (phys : List (List (BondInfo Q))) (n : Nat) (Z : List (BondInfo Q))
    (l r : Nat) (ket : Nat → SpT Q K) : Prop where
  left : ∀ i < l, LeftIsometric ((e :: Z).getD i [] :: phys.getD i []) ((Z ++ [f]).getD i []) (ket i)
  right : ∀ i, r ≤ i → i < n → RightIsometric ((e :: Z).getD i []) (phys.getD i [] ++ [(Z ++ [f]).getD i []]) (ket i)

/-- The bonds `Z` and `Z'` differ inside the window only. -/
def SameOutside (l r : Nat) (Z Z' : List (BondInfo Q)) : Prop := ∀ i, i < l ∨ r ≤ i + 1 → Z'.getD i [] = Z.getD i []

/-- What a sweep makes of an object: window after window, environments are built any number of times, and the tensors of the window are replaced by
others on the same bonds at the ends of the window (inner bonds and numbers are free). -/
inductive SweepRun [AddCommGroup Q] [Zero K] [One K] [Add K] [Mul K] [Star K] {W V : Type} (c : Mpe.Cfg (SpT Q K) W V) (e f : BondInfo Q)
    (phys : List (List (BondInfo Q))) : Mpe.Sys (SpT Q K) V → Prop where
  | new {Z : List (BondInfo Q)} {ket : Nat → SpT Q K} (bra : Nat → SpT Q K) : FitsOn e f phys c.n Z ket → SweepRun c e f phys (Mpe.new ket bra)
  | round {s s1 t s2 : Mpe.Sys (SpT Q K) V} (l r builds : Nat) (kets : List (SpT Q K)) (bras : Option (List (SpT Q K))) : SweepRun c e f phys s → l < r → r ≤ c.n →
      (List.replicate builds ()).foldlM (fun s _ => Mpe.buildEnvs c l r s) s = some s1 → Mpe.buildEnvs c l r s1 = some t →
      (c.same = true → bras = none) →
      (∀ Z, FitsOn e f phys c.n Z t.ket → IsometricOutside e f phys c.n Z l r t.ket →
        ∃ Z', SameOutside l r Z Z' ∧ FitsOn e f phys c.n Z' (Mpe.setRange t.ket l r kets)) →
      Mpe.setWindow c l r kets bras s1 = some s2 → SweepRun c e f phys s2

end
end Verif
