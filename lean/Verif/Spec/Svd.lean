import Verif.Spec.Trunc
import Verif.Model.Compress
import Mathlib.Algebra.Star.Basic

/-!
Specification of the block-wise singular value decomposition and of the compression of a matrix product state.
-/

namespace Verif
section
variable {Q K V : Type} [DecidableEq Q]

/-- Contract of `np.linalg.svd(full_matrices=False)`: shapes of the factors, and their product is the matrix. -/
structure IsSvd [Zero K] [Add K] [Mul K] (c : V → K) (svd : Arr K → Arr K × Arr V × Arr K) : Prop where
  left : ∀ (a : Arr K) m n, a.shape = [m, n] → 0 < m → 0 < n → (svd a).1.shape = [m, min m n]
  values : ∀ (a : Arr K) m n, a.shape = [m, n] → 0 < m → 0 < n → (svd a).2.1.shape = [min m n]
  right : ∀ (a : Arr K) m n, a.shape = [m, n] → 0 < m → 0 < n → (svd a).2.2.shape = [min m n, n]
  product : ∀ (a : Arr K) m n, a.shape = [m, n] → 0 < m → 0 < n → ∀ i < m, ∀ j < n,
    ((List.range (min m n)).map fun t => (svd a).1.get [i, t] * c ((svd a).2.1.get [t]) * (svd a).2.2.get [t, j]).sum = a.get [i, j]

/-- Contract of `np.linalg.svd(full_matrices=False)`: orthonormal columns on the left, orthonormal rows on the right. -/
structure SvdUnitary [Zero K] [One K] [Add K] [Mul K] [Star K] (svd : Arr K → Arr K × Arr V × Arr K) : Prop where
  columns : ∀ (a : Arr K) m n, a.shape = [m, n] → 0 < m → 0 < n → ∀ s < min m n, ∀ t < min m n,
    ((List.range m).map fun i => star ((svd a).1.get [i, s]) * (svd a).1.get [i, t]).sum = if s = t then 1 else 0
  rows : ∀ (a : Arr K) m n, a.shape = [m, n] → 0 < m → 0 < n → ∀ s < min m n, ∀ t < min m n,
    ((List.range n).map fun j => star ((svd a).2.2.get [s, j]) * (svd a).2.2.get [t, j]).sum = if s = t then 1 else 0

/-- The three tensors are a decomposition of `T` along the cut between `legsL` and `legsR`; the bond in the middle is that of the values. -/
structure BlockSvd [Zero Q] [Zero K] [Add K] [Mul K] [Zero V] [Add V] (c : V → K) (legsL legsR : List (BondInfo Q)) (T u : SpT Q K) (s : SpT Q V)
    (vh : SpT Q K) : Prop where
  values : ValueBlocks s
  left : Conforms (legsL ++ [valueBond s]) u
  right : Conforms (valueBond s :: legsR) vh
  leftSorted : SortedBy ((valueBond s).map Prod.fst) (fun b => b.1.getLastD 0) u
  rightSorted : SortedBy ((valueBond s).map Prod.fst) (fun b => b.1.getD 0 0) vh
  product : ∀ x y, x.length = legsL.length → y.length = legsR.length →
    ((legBasis (valueBond s)).map fun z => entry u (x ++ [z]) * c (entry s [z]) * entry vh (z :: y)).sum = entry T (x ++ y)

/-- The squared distance of two states on the edges `l`, `r` and the physical legs `phys`. -/
def sqDist [Zero K] [Add K] [Mul K] [Sub K] [Star K] (l r : BondInfo Q) (phys : List (List (BondInfo Q)))
    (A B : Q × Nat → List (List (Q × Nat)) → Q × Nat → K) : K :=
  ((legBasis l).map fun x => ((cart (phys.map legIndices)).map fun ps => ((legBasis r).map fun y =>
    star (A x ps y - B x ps y) * (A x ps y - B x ps y)).sum).sum).sum

end
end Verif
