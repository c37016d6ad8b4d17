import Verif.Model.MpeSweep
import Verif.Model.Mps

/-!
Model of `MPSInfo` and of the constructors of states from it, `/repo/pyblock3/algebra/mps.py:43-231`.  The call-back of `set_bond_dimension_fci`, the version for
occupation numbers (C++), and the thermal limit are not modelled.
-/

namespace Verif

/-- mps.py:64-70: the attributes of an `MPSInfo` whose bonds have been set. -/
structure MpsInfo (Q : Type) where
  vacuum : Q
  target : Q
  basis : List (BondInfo Q)
  leftDims : List (BondInfo Q)
  rightDims : List (BondInfo Q)

namespace MpsInfo
variable {Q : Type} [DecidableEq Q] [AddCommGroup Q]

/-- mps.py:75-79: the bonds from the left, `left_dims[d + 1] = left_dims[d] * basis[d]`. -/
def leftFull : BondInfo Q → List (BondInfo Q) → List (BondInfo Q)
  | l, [] => [l]
  | l, b :: bs => l :: leftFull (BondInfo.tensorProduct l b none) bs

/-- mps.py:81-85: the bonds from the right, `right_dims[d] = (-basis[d]) * right_dims[d + 1]`. -/
def rightFull (target : Q) : List (BondInfo Q) → List (BondInfo Q)
  | [] => [[(target, 1)]]
  | b :: bs => BondInfo.tensorProduct (BondInfo.negKeys b) ((rightFull target bs).headD []) none :: rightFull target bs

/-- mps.py:72-92 `set_bond_dimension_fci` without call-back. -/
def fci (vacuum target : Q) (basis : List (BondInfo Q)) : MpsInfo Q :=
  let left := List.zipWith BondInfo.filter (leftFull [(vacuum, 1)] basis) (rightFull target basis)
  ⟨vacuum, target, basis, left, List.zipWith BondInfo.filter (rightFull target basis) left⟩

/-- mps.py:114-116: the loop over the bonds from the left; the argument `p` is the bond before, already truncated. -/
def truncLeft (bondDim : Nat) : BondInfo Q → List (BondInfo Q) → List (BondInfo Q) → List (BondInfo Q)
  | p, b :: bs, l :: ls =>
    let l' := BondInfo.truncate l bondDim (some (BondInfo.tensorProduct p b none))
    l' :: truncLeft bondDim l' bs ls
  | _, _, _ => []

/-- mps.py:117-119: the loop over the bonds from the right. -/
def truncRight (bondDim : Nat) : List (BondInfo Q) → List (BondInfo Q) → List (BondInfo Q)
  | b :: bs, r :: rs =>
    let rs' := truncRight bondDim bs rs
    BondInfo.truncate r bondDim (some (BondInfo.tensorProduct (BondInfo.negKeys b) (rs'.headD []) none)) :: rs'
  | _, rs => rs

/-- mps.py:107-119 `set_bond_dimension` for bonds that have been set. -/
def truncated (i : MpsInfo Q) (bondDim : Nat) : MpsInfo Q :=
  { i with
    leftDims := i.leftDims.headD [] :: truncLeft bondDim (i.leftDims.headD []) i.basis i.leftDims.tail
    rightDims := truncRight bondDim i.basis i.rightDims }

end MpsInfo

namespace SpT
variable {Q K : Type} [DecidableEq Q] [AddCommGroup Q]

/-- core.py:518-524 `random`: every allowed block with entries `rnd`. -/
def random (le : Q → Q → Bool) (infos : List (BondInfo Q)) (rnd : List Q → List Nat → K) : Option (SpT Q K) :=
  (skeleton le infos none none).map fun l => l.map fun (sh, qs) => (qs, ⟨sh, rnd qs⟩)

end SpT

namespace Mps
variable {Q K : Type} [DecidableEq Q] [AddCommGroup Q]

/-- mps.py:193-231: a tensor is made for the legs `(left_dims[i], basis[i], left_dims[i + 1])` of every site. -/
def sites (make : Nat → List (BondInfo Q) → Option (SpT Q K)) : Nat → List (BondInfo Q) → List (BondInfo Q) → Option (List (SpT Q K))
  | i, b :: bs, l :: r :: ls => (make i [l, b, r]).bind fun T => (sites make (i + 1) bs (r :: ls)).map fun ts => T :: ts
  | _, [], _ => some []
  | _, _, _ => none

/-- mps.py:193-204 `ones`. -/
def ones [Zero K] [One K] (le : Q → Q → Bool) (info : MpsInfo Q) : Option (Mps Q K) :=
  (sites (fun _ legs => SpT.ones le legs none none) 0 info.basis info.leftDims).map fun ts => ⟨ts, 0⟩

/-- mps.py:219-231 `random`: `rnd` are the numbers drawn. -/
def random [Ring K] (le : Q → Q → Bool) (info : MpsInfo Q) (low high : K) (rnd : Nat → List Q → List Nat → K) : Option (Mps Q K) :=
  (sites (fun i legs => (SpT.random le legs (rnd i)).map fun T => T.map fun b => (b.1, b.2.mapK fun x => x * (high - low) + low)) 0 info.basis info.leftDims).map
    fun ts => ⟨ts, 0⟩

end Mps
end Verif
