import Mathlib.Logic.Basic
import Mathlib.Logic.ExistsUnique

/-! Specification: windows that tile an interval. -/

namespace Verif

/-- `win c = some (k, l)` says that `c` owns the positions `k, ..., k + l - 1`.  The windows tile
`[0, n)` when each window lies inside and every position of `[0, n)` has exactly one owner. -/
def Tiles {κ : Type} (win : κ → Option (Nat × Nat)) (n : Nat) : Prop :=
  (∀ c k l, win c = some (k, l) → k + l ≤ n) ∧
  ∀ p, p < n → ∃! c, ∃ k l, win c = some (k, l) ∧ k ≤ p ∧ p < k + l

end Verif
