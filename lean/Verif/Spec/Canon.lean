import Verif.Spec.Mps
import Verif.Model.Canon

/-!
Specification of canonical forms: the contracts of the dense routines and what an isometric site tensor is.
-/

namespace Verif
section
variable {Q K : Type} [DecidableEq Q]

/-- Contract of `np.linalg.qr(mode='reduced')`: shapes of the factors, and their product is the matrix. -/
structure Factorises [Zero K] [Add K] [Mul K] (qr : Arr K → Arr K × Arr K) : Prop where
  left : ∀ (a : Arr K) m n, a.shape = [m, n] → 0 < m → 0 < n → (qr a).1.shape = [m, min m n]
  right : ∀ (a : Arr K) m n, a.shape = [m, n] → 0 < m → 0 < n → (qr a).2.shape = [min m n, n]
  product : ∀ (a : Arr K) m n, a.shape = [m, n] → 0 < m → 0 < n → ∀ i < m, ∀ j < n,
    ((List.range (min m n)).map fun t => (qr a).1.get [i, t] * (qr a).2.get [t, j]).sum = a.get [i, j]

/-- Contract of `np.linalg.qr(mode='reduced')`: the columns of the first factor are orthonormal. -/
def OrthonormalColumns [Zero K] [One K] [Add K] [Mul K] [Star K] (qr : Arr K → Arr K × Arr K) : Prop :=
  ∀ (a : Arr K) m n, a.shape = [m, n] → 0 < m → 0 < n → ∀ s < min m n, ∀ t < min m n,
    ((List.range m).map fun i => star ((qr a).1.get [i, s]) * (qr a).1.get [i, t]).sum = if s = t then 1 else 0

/-- The tensor is an isometry from its last bond `m` to its other legs. -/
def LeftIsometric [Zero K] [One K] [Add K] [Mul K] [Star K] (legs : List (BondInfo Q)) (m : BondInfo Q) (T : SpT Q K) : Prop :=
  ∀ z ∈ legBasis m, ∀ z' ∈ legBasis m,
    ((legIndices legs).map fun x => star (entry T (x ++ [z])) * entry T (x ++ [z'])).sum = if z = z' then 1 else 0

/-- The tensor is an isometry from its first bond `m` to its other legs. -/
def RightIsometric [Zero K] [One K] [Add K] [Mul K] [Star K] (m : BondInfo Q) (legs : List (BondInfo Q)) (T : SpT Q K) : Prop :=
  ∀ z ∈ legBasis m, ∀ z' ∈ legBasis m,
    ((legIndices legs).map fun x => star (entry T (z :: x)) * entry T (z' :: x)).sum = if z = z' then 1 else 0

/-- The tensor with `n` legs has a definite charge for some choice of the directions of its legs. -/
def HasCharge [AddCommGroup Q] (n : Nat) (T : SpT Q K) : Prop :=
  ∃ pattern dq, pattern.length = n ∧ Conserves pattern dq T

end
end Verif
