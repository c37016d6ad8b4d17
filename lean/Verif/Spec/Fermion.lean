import Mathlib.Algebra.Ring.Int.Defs
import Mathlib.Algebra.BigOperators.Group.List.Basic

/-!
Specification of fermionic signs.  Legs are numbered `0, 1, ...`; `odd` says which legs are odd.  A new order of the
legs is a list of leg numbers.
-/

namespace Verif

/-- Number of pairs of odd legs that stand in the opposite of their original order. -/
def oddSwaps (odd : List Bool) : List Nat → Nat
  | [] => 0
  | x :: t => (t.filter fun y => odd.getD x false && odd.getD y false && decide (y < x)).length + oddSwaps odd t

/-- Sign of bringing the legs into the given order: minus one for each pair of odd legs that changes its order. -/
def reorderSign (odd : List Bool) (order : List Nat) : Int := (-1) ^ oddSwaps odd order

/-- Three legs reversed, all odd: three swaps.  With an even leg in the middle: one swap. -/
example : reorderSign [true, true, true] [2, 1, 0] = -1 ∧ reorderSign [true, false, true] [2, 1, 0] = -1 ∧
    reorderSign [true, true, true] [1, 2, 0] = 1 ∧ reorderSign [true, false, true] [1, 0, 2] = 1 := by decide

end Verif
