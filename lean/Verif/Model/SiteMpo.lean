import Verif.Model.ConvMpo

/-!
Model of the matrix product operators of the identity and of one site operator: `IdentityMPO` and `SiteMPO` (`/repo/pyblock3/symbolic/symbolic_mpo.py:30-77`) followed by
`to_sparse` (`/repo/pyblock3/algebra/mps.py:657-664`, `/repo/pyblock3/symbolic/symbolic.py:586-650`), as done by `build_identity_mpo` and `build_site_mpo`
(`/repo/pyblock3/hamiltonian.py:111-123`, without the conversion to flat tensors).
-/

namespace Verif
namespace SiteMpo
open Hamiltonian ConvMpo
variable {K : Type} [Field K] (tiny : K → Bool) (t : Bool → Nat → Nat → K) (v : Bool → Bool → Nat → Nat → Nat → Nat → K) (orbSym : List Nat)

/-- symbolic_mpo.py:36-48: the tensor of site `m` of the identity.  The tensor is a row vector at the first site and a column vector at the last site: then the outer label is
the vacuum (symbolic.py:597-617). -/
def identityTensor (m : Nat) : Option (OpT SZ K) :=
  (cell tiny t v orbSym m ⟨0, 0, some iSymbol⟩).bind fun c =>
    Symbolic.toSparse 0 (if m = 0 then [0] else [(iSymbol : Sym K).label]) (if m ≠ 0 ∧ m + 1 = orbSym.length then [0] else [(iSymbol : Sym K).label]) c.toList

/-- hamiltonian.py:111-116 `build_identity_mpo`. -/
def buildIdentityMpo : Option (List (OpT SZ K)) := (List.range orbSym.length).mapM (identityTensor tiny t v orbSym)

/-- symbolic_mpo.py:62-77: the tensor of site `m` for the operator `op` on site `k`.  The quantum number `dq` of the operator is given to all tensors but the first
(mps.py:663); there it is added on the left leg (symbolic.py:619-637). -/
def siteTensor (op : Sym K) (k : Int) (m : Nat) : Option (OpT SZ K) :=
  let el : Sym K := if (m : Int) = k then op else iSymbol
  let lop : Sym K := if (m : Int) ≤ k then op else iSymbol
  let rop : Sym K := if (m : Int) ≥ k then op else iSymbol
  (cell tiny t v orbSym m ⟨0, 0, some el⟩).bind fun c =>
    Symbolic.toSparse (if m = 0 then 0 else op.label) (if m = 0 then [0] else [lop.label]) (if m ≠ 0 ∧ m + 1 = orbSym.length then [0] else [rop.label]) c.toList

/-- symbolic_mpo.py:59-61: the default `k = -1` stands for the first site index of the operator. -/
def siteOf (op : Sym K) (k : Int) : Option Int := if k = -1 then op.site.head? else some k

/-- hamiltonian.py:118-123 `build_site_mpo(op, k)`. -/
def buildSiteMpo (op : Sym K) (k : Int) : Option (List (OpT SZ K)) :=
  (siteOf op k).bind fun k => (List.range orbSym.length).mapM (siteTensor tiny t v orbSym op k)

end SiteMpo
end Verif
