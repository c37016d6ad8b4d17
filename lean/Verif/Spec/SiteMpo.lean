import Verif.Spec.FockMps
import Verif.Spec.ConvMpo
import Verif.Model.SiteMpo

/-!
Specification for the matrix product operators of single site operators.
-/

namespace Verif
namespace SiteMpo
open Hamiltonian Fock ConvMpo
variable {K : Type}

/-- The fermionic operators that a symbol stands for on the orbital `i` (the product is taken from left to right): `I` is the empty product, `C` and `D` create and annihilate
one electron with the spin of the last index, `A`, `AD` and `B` are `c†_s c†_t`, `c_t c_s` and `c†_s c_t`. -/
def symbolOps (i : Nat) (e : Sym K) : Option (List Op) :=
  if e.name = nameI then some []
  else match e.site with
    | [_, s] =>
      if s = 0 ∨ s = 1 then
        if e.name = 0 then some [(true, 2 * i + s.toNat)]
        else if e.name = 1 then some [(false, 2 * i + s.toNat)]
        else none
      else none
    | [_, _, s, t] =>
      if (s = 0 ∨ s = 1) ∧ (t = 0 ∨ t = 1) then
        if e.name = nameA then some [(true, 2 * i + s.toNat), (true, 2 * i + t.toNat)]
        else if e.name = nameAD then some [(false, 2 * i + t.toNat), (false, 2 * i + s.toNat)]
        else if e.name = nameB then some [(true, 2 * i + s.toNat), (false, 2 * i + t.toNat)]
        else none
      else none
    | _ => none

/-- The symbol `e` stands for the product `ops` of operators of the orbital `i`, and its label is what the product changes. -/
structure StandsFor (orbSym : List Nat) (i : Nat) (e : Sym K) (ops : List Op) : Prop where
  product : symbolOps i e = some ops
  label : e.label = (ops.map (chargeOf orbSym)).sum

/-- The adjoint of an operator with real coefficients: the products in reverse order, creation and annihilation exchanged. -/
def adjoint (H : FockOp K) : FockOp K := H.map fun t => (t.1, t.2.reverse.map fun o => (!o.1, o.2))

/-- Expectation value of an operator in a state with real amplitudes: `Σ_u,d ψ(u) ⟨u|H|d⟩ ψ(d)`. -/
def expectation [Field K] {n : Nat} (H : FockOp K) (f : (Fin n → Bool × Bool) → K) : K := ∑ u, ∑ d, f u * matrixElement H (modes u) (modes d) * f d

/-- The symbol `D` of orbital `i`: annihilation of an electron with spin up, or down if `s`. -/
def annihilator [Field K] (orbSym : List Nat) (i : Nat) (s : Bool) : Sym K :=
  { name := 1, site := [(i : Int), if s then 1 else 0], factor := 1, label := ⟨-1, if s then 1 else -1, orbSym.getD i 0⟩ }

end SiteMpo
end Verif
