import Verif.Model.Functor
import Verif.Spec.Flat
import Verif.Spec.MpeLocal

/-! Specification of the fast product with a local operator. -/

namespace Verif
section
variable {Q K : Type} [DecidableEq Q] [AddCommGroup Q] [CommRing K]

/-- A local operator and a state in flat storage.  Both operator tensors conserve the charge: with signs `P0`, `P1` of the physical legs, rows minus columns
is the difference of the bond labels.  The state has charge `dq`; `o0` and `o1` are the signs of its outer legs. -/
structure FlatProblem (isF : Q → Bool) (ph0 ph1 : List (BondInfo Q) × List (BondInfo Q)) (m : BondInfo Q) (P0 P1 : List Bool) (o0 o1 : Bool) (dq : Option Q)
    (L R : FlatOp Q K) (T : Flat Q K) : Prop where
  fit : LocalOp isF ph0 ph1 m [L.sparse, R.sparse] (T.toSparse id)
  stored : ∀ F ∈ [L.odd, L.even, R.odd, R.even, T], F.WellFormed
  unique : UniqueLabels (T.toSparse id)
  signs : P0.length = ph0.1.length ∧ P1.length = ph1.1.length
  left : ∀ A ∈ [L.odd, L.even], Conserves (true :: P0 ++ P0.map (!·) ++ [false]) 0 (A.toSparse id)
  right : ∀ A ∈ [R.odd, R.even], Conserves (true :: P1 ++ P1.map (!·) ++ [false]) 0 (A.toSparse id)
  state : Conserves (o0 :: (P0 ++ P1) ++ [o1]) (dq.getD 0) (T.toSparse id)

/-- The label `q` occurs on row leg or column leg number `i` of the operator tensor with `n` physical legs of each kind. -/
def SeenOn (W : OpT Q K) (n i : Nat) (q : Q) : Prop := ∃ b ∈ W.odd ++ W.even, b.1.getD (1 + i) 0 = q ∨ b.1.getD (1 + n + i) 0 = q

/-- Every physical label of the state occurs on a row or column leg of the operator. -/
def Covered (n0 n1 : Nat) (L R : OpT Q K) (T : SpT Q K) : Prop :=
  ∀ b ∈ T, (∀ i < n0, SeenOn L n0 i (b.1.getD (1 + i) 0)) ∧ ∀ i < n1, SeenOn R n1 i (b.1.getD (1 + n0 + i) 0)

end
end Verif
