import Verif.Spec.Mpo
import Mathlib.Algebra.Star.BigOperators

/-!
Specification of expectation values: the number that bra, operator and ket stand for together, written with the matrix elements of the operator and
the amplitudes of the states.
-/

namespace Verif
section
variable {Q K : Type} [DecidableEq Q] [AddCommGroup Q] [CommRing K] [StarRing K]

/-- `⟨bra| operator |ket⟩`: the sum over all row configurations and all column configurations of conjugated amplitude of the bra, matrix element of the
operator and amplitude of the ket.  `Y`, `X`, `Z` are the inner bonds of bra, operator and ket; `(b, m, k)` and `(b', m', k')` the basis vectors on
their left and right edges; `s` is the fermion parity to the left of the first site. -/
def sandwich (isF : Q → Bool) (phys : List (List (BondInfo Q) × List (BondInfo Q))) (Y X Z : List (BondInfo Q)) (bs : List (SpT Q K))
    (ws : List (OpT Q K)) (ks : List (SpT Q K)) (s : Bool) (b m k b' m' k' : Q × Nat) : K :=
  ((cart (phys.map fun ph => legIndices ph.1)).map fun us => ((cart (phys.map fun ph => legIndices ph.2)).map fun ds =>
    star (ampl bs Y b us b') * opAmpl isF ws X s m us ds m' * ampl ks Z k ds k').sum).sum

/-- A bra, an operator and a ket that fit together.  The left edges carry the label 0, the right edges one label each; the operator has the row legs of
the bra and the column legs of the ket, as many row legs as column legs on each site; states have blocks with an even number of fermions. -/
structure Network (isF : Q → Bool) (qb qk : Q) (Y X Z : List (BondInfo Q)) (phys : List (List (BondInfo Q) × List (BondInfo Q)))
    (bs : List (SpT Q K)) (ws : List (OpT Q K)) (ks : List (SpT Q K)) : Prop where
  bra : OnBonds ([(0, 1)] :: Y ++ [[(qb, 1)]]) (phys.map Prod.fst) bs
  op : OpOnBonds isF ([(0, 1)] :: X ++ [[(0, 1)]]) phys ws
  ket : OnBonds ([(0, 1)] :: Z ++ [[(qk, 1)]]) (phys.map Prod.snd) ks
  bonds : ∀ c ∈ Y ++ X ++ Z, GoodBond c
  legs : ∀ ph ∈ phys, ph.1 ≠ [] ∧ ph.1.length = ph.2.length ∧ ∀ c ∈ ph.1 ++ ph.2, GoodBond c
  braEven : ∀ T ∈ bs, EvenBlocks isF T
  ketEven : ∀ T ∈ ks, EvenBlocks isF T

end
end Verif
