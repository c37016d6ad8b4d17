import Mathlib.Algebra.Ring.Int.Defs
import Mathlib.Algebra.Ring.Defs
import Mathlib.Algebra.BigOperators.Group.List.Basic
import Mathlib.Data.List.OfFn

/-!
Specification of fermionic operators by their matrix elements between occupation-number states.

Modes are numbered 0, 1, 2, ...; site `i` has the modes `2 * i` (spin up) and `2 * i + 1` (spin down).  A basis state is the
list of the occupations; it stands for the product of the creation operators of its occupied modes, in increasing order, on the
vacuum.
-/

namespace Verif
namespace Fock

/-- One operator: creation (`true`) or annihilation (`false`) on a mode. -/
abbrev Op := Bool × Nat

/-- Action on a basis state: sign and new state, or nothing.  The operator passes the occupied modes below its own. -/
def act (o : Op) (v : List Bool) : Option (Int × List Bool) :=
  if v.getD o.2 o.1 = o.1 then none else some ((-1) ^ ((v.take o.2).count true), v.set o.2 o.1)

/-- Action of a product of operators, the rightmost first. -/
def actAll : List Op → List Bool → Option (Int × List Bool)
  | [], v => some (1, v)
  | o :: w, v => match actAll w v with
    | none => none
    | some (s, v1) => match act o v1 with
      | none => none
      | some (s2, v2) => some (s * s2, v2)

/-- Matrix element of a product of operators: `⟨v | w | v'⟩`. -/
def element (w : List Op) (v v' : List Bool) : Int := match actAll w v' with
  | none => 0
  | some (s, v2) => if v2 = v then s else 0

/-- Occupations of the four states of a site: empty, up, down, both (up created after down, i.e. `c†↑ c†↓ |0⟩`). -/
def occupations : Nat → List Bool
  | 0 => [false, false]
  | 1 => [true, false]
  | 2 => [false, true]
  | _ => [true, true]

/-- Number operator of a mode. -/
def number (m : Nat) : List Op := [(true, m), (false, m)]

/-- The occupations of the modes of `n` sites: mode `2 * i` is the spin-up orbital of site `i`, mode `2 * i + 1` the spin-down orbital. -/
def modes {n : Nat} (u : Fin n → Bool × Bool) : List Bool :=
  List.ofFn (n := 2 * n) fun k => if k.1 % 2 = 0 then (u ⟨k.1 / 2, by omega⟩).1 else (u ⟨k.1 / 2, by omega⟩).2

/-- A linear combination of products of operators. -/
abbrev FockOp (K : Type) := List (K × List Op)

/-- Matrix element `⟨v | H | v'⟩` of a linear combination. -/
def matrixElement {K : Type} [Ring K] (H : FockOp K) (v v' : List Bool) : K :=
  (H.map fun c => c.1 * (element c.2 v v' : K)).sum

/-- Hopping of both spins between sites 0 and 1: `h Σσ (c†0σ c1σ + c†1σ c0σ)`. -/
def hoppingOp {K : Type} (h : K) : FockOp K :=
  [(h, [(true, 0), (false, 2)]), (h, [(true, 1), (false, 3)]), (h, [(true, 2), (false, 0)]), (h, [(true, 3), (false, 1)])]

/-- Interaction and chemical potential on site `i`: `f (U n↑ n↓ + μ (n↑ + n↓))`. -/
def onsiteOp {K : Type} [Mul K] (f u mu : K) (i : Nat) : FockOp K :=
  [(f * u, number (2 * i) ++ number (2 * i + 1)), (f * mu, number (2 * i)), (f * mu, number (2 * i + 1))]

/-- The two-site Hubbard Hamiltonian
`-t Σσ (c†0σ c1σ + c†1σ c0σ) + f0 (U n0↑ n0↓ + μ n0) + f1 (U n1↑ n1↓ + μ n1)`. -/
def hubbardOp {K : Type} [Ring K] (t u mu f0 f1 : K) : FockOp K :=
  hoppingOp (-t) ++ onsiteOp f0 u mu 0 ++ onsiteOp f1 u mu 1

/-- Creating down on top of up gives a minus sign; hopping down from a full site to an empty one passes the up electron. -/
example : element [(true, 1)] [true, true] [true, false] = -1 ∧ element [(true, 0)] [true, true] [false, true] = 1 ∧
    matrixElement (hoppingOp (1 : Int)) [true, false, false, true] [true, true, false, false] = 1 ∧
    matrixElement (hoppingOp (1 : Int)) [false, true, true, false] [true, true, false, false] = -1 := by decide

end Fock
end Verif
