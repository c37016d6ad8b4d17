import Verif.Model.TrimSvd
import Mathlib.Order.Defs.LinearOrder
import Mathlib.Algebra.Group.Defs

/-!
Specification of the truncation of a spectrum that is distributed over sectors.
-/

namespace Verif
namespace Trim
section
variable {V : Type} [Zero V] [LinearOrder V]

/-- Contract of `np.argsort`: the positions, in the order of increasing values.  Nothing is said about equal values. -/
def IsArgsort (argsort : List V → List Nat) : Prop :=
  ∀ s, (argsort s).Perm (List.range s.length) ∧ ((argsort s).map fun i => s.getD i 0).Pairwise (· ≤ ·)

/-- Singular values as dense routines return them: not negative, and decreasing in each sector. -/
def Spectrum (d : List (List V)) : Prop := ∀ b ∈ d, b.Pairwise (· ≥ ·) ∧ ∀ x ∈ b, 0 ≤ x

/-- The values that are kept if sector number `i` keeps its first `n[i]` values. -/
def kept (n : List Int) (d : List (List V)) : List V := (d.zipWith (fun b k => b.take k.toNat) n).flatten

/-- The other values. -/
def dropped (n : List Int) (d : List (List V)) : List V := (d.zipWith (fun b k => b.drop k.toNat) n).flatten

/-- The numbers fit the sectors, and no dropped value of any sector is larger than a kept value of any sector. -/
structure Leading (n : List Int) (d : List (List V)) : Prop where
  length : n.length = d.length
  nonneg : ∀ k ∈ n, 0 ≤ k
  size : ∀ i < d.length, n.getD i 0 ≤ (d.getD i []).length
  order : ∀ x ∈ dropped n d, ∀ y ∈ kept n d, x ≤ y

/-- The limit `max_bond` is respected; `None` and numbers that are not positive mean that there is none. -/
def Within (maxBond : Option Int) (count : Nat) : Prop := ∀ m, maxBond = some m → 0 < m → (count : Int) ≤ m

/-- The limit `max_bond` is not reached. -/
def HasRoom (maxBond : Option Int) (count : Nat) : Prop := ∀ m, maxBond = some m → 0 < m → (count : Int) < m

/-- Modes 3 (`sum2`) and 4 (`rsum2`) add squares, modes 5 (`sum1`) and 6 (`rsum1`) the values themselves. -/
def power (mode : Nat) : Nat := if mode = 3 ∨ mode = 4 then 2 else 1

/-- The budget: absolute in modes 3 and 5, relative to the sum over the whole spectrum in modes 4 and 6. -/
def budget [Add V] [Mul V] [Pow V Nat] (mode : Nat) (cutoff : V) (d : List (List V)) : V :=
  if mode = 4 ∨ mode = 6 then cutoff * (d.flatten.map (· ^ power mode)).sum else cutoff

end
end Trim
end Verif
