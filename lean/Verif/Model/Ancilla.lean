import Verif.Model.MpeSweep
import Verif.Model.Compress

/-!
Model of the matrix product operator on a doubled lattice, `build_ancilla_mpo` of `/repo/pyblock3/hamiltonian.py:125-139`, for operators whose
sites are `FermionTensor`s.

Simplified: the options of the operator are left out.
-/

namespace Verif

namespace OpT
variable {Q K : Type} [DecidableEq Q]

/-- core.py:2207-2218 `_diag` of both parts, for tensors with one leg. -/
def diag [Zero K] (A : OpT Q K) : OpT Q K := ⟨SpT.diagOf id A.odd, SpT.diagOf id A.even⟩

end OpT

namespace Ancilla
variable {Q K : Type} [DecidableEq Q] [AddCommGroup Q] [CommRing K]

/-- hamiltonian.py:130-133 and 135-137: `np.transpose(np.tensordot(a, b, axes=0), axes=(0, 2, 3, 1))` with `a` and `b` the identity on the
bond and on the basis of the site. -/
def identTensor (isF : Q → Bool) (le : Q → Q → Bool) (info basis : BondInfo Q) : Option (OpT Q K) := do
  let a ← OpT.ones isF le [info] none none
  let b ← OpT.ones isF le [basis] none none
  let r ← OpT.tensordot isF a.diag b.diag [] []
  some (r.transpose [0, 2, 3, 1])

/-- hamiltonian.py:126-138, the loop over the sites.  `none`: an index out of range, or a bond without labels. -/
def ancillaGo (isF : Q → Bool) (le : Q → Q → Bool) (left : Bool) : List (BondInfo Q) → List (OpT Q K) → Option (List (OpT Q K))
  | [], _ => some []
  | _ :: _, [] => none
  | b :: basis, W :: ws => do
    let infos ← W.infos
    if !left then
      let info ← infos.getLast?
      let I ← identTensor isF le info b
      let rest ← ancillaGo isF le left basis ws
      some (W :: I :: rest)
    else
      let info ← infos.head?
      let I ← identTensor isF le info b
      let rest ← ancillaGo isF le left basis ws
      some (I :: W :: rest)

/-- hamiltonian.py:125-139 `build_ancilla_mpo`. -/
def buildAncillaMpo (isF : Q → Bool) (le : Q → Q → Bool) (basis : List (BondInfo Q)) (mpo : Mpo Q K) (left : Bool) : Option (Mpo Q K) := do
  let ts ← ancillaGo isF le left basis mpo.tensors
  some ⟨ts, mpo.const⟩

end Ancilla
end Verif
