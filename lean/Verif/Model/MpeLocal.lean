import Verif.Model.MpeSweep

/-!
Model of the local problem of a sweep: the state of a sub-system as one tensor (`/repo/pyblock3/algorithms/dmrg.py`), and the product of the operator of
the sub-system with it (`_matmul` for one state tensor, `/repo/pyblock3/algebra/mps.py`, with `_pdot` of a list of operator tensors,
`/repo/pyblock3/algebra/core.py`).
-/

namespace Verif

namespace SpT
variable {Q K : Type} [DecidableEq Q]

/-- core.py:891-902 `_hdot` of two state tensors. -/
def hdot [Zero Q] [Add K] [Mul K] [Zero K] (A B : SpT Q K) : Option (SpT Q K) := tensordotN A B 1

end SpT

namespace OpT
variable {Q K : Type} [DecidableEq Q]

/-- core.py:1847-1861, one round of the loop: operator tensor `A` on the state `r`, of which the legs from `p` on belong to the site; `last`: the
operator tensor is the last one.  `none`: an exception; without blocks (or with two legs) the list of axes is empty and `min` in line 1730 raises. -/
def pdotStep [Zero Q] [Add K] [Mul K] [Zero K] [Neg K] (isF : Q → Bool) (A : OpT Q K) (r : SpT Q K) (p : Nat) (last : Bool) : Option (SpT Q K) :=
  if A.ndim < 4 then none else
  let d := A.ndim / 2 - 1
  if last then
    (tensordotState isF A r ((List.range' (d + 1) d).map Int.ofNat) ((List.range' p d).map Int.ofNat)).map fun t =>
      t.transpose (some (List.range' (d + 2) p ++ List.range' 0 (d + 2) ++ [p + d + 2]))
  else
    (tensordotState isF A r ((List.range' (d + 1) (d + 1)).map Int.ofNat) ((List.range' p (d + 1)).map Int.ofNat)).map fun t =>
      t.transpose (some (List.range' (d + 1) p ++ List.range' 0 (d + 1) ++ List.range' (p + d + 1) (r.ndim - (p + d + 1))))

/-- core.py:1823-1827 and 1847: the loop, from the last operator tensor to the first; `p` is the position of the first leg of the first site. -/
def pdotSites [Zero Q] [Add K] [Mul K] [Zero K] [Neg K] (isF : Q → Bool) : List (OpT Q K) → Nat → SpT Q K → Option (SpT Q K)
  | [], _, r => some r
  | A :: as, p, r => (pdotSites isF as (p + (A.ndim / 2 - 1)) r).bind fun r => pdotStep isF A r p as.isEmpty

/-- core.py:1822-1862 `_pdot` of a list of operator tensors with a state tensor. -/
def pdotList [Zero Q] [Add K] [Mul K] [Zero K] [Neg K] (isF : Q → Bool) (as : List (OpT Q K)) (b : SpT Q K) : Option (SpT Q K) :=
  (pdotSites isF as 1 b).map fun r => r.transpose (some ([1, 0] ++ List.range' 2 (r.ndim - 2)))

end OpT

namespace Mps
variable {Q K : Type} [DecidableEq Q]

/-- dmrg.py:102: `ket[:] = [reduce(pbalg.hdot, ket[:])]`. -/
def merge [Zero Q] [Add K] [Mul K] [Zero K] (m : Mps Q K) : Option (Mps Q K) :=
  match m.tensors with
  | [] => none
  | t :: ts => (ts.foldlM SpT.hdot t).map fun t => ⟨[t], m.const⟩

/-- mps.py:500-507: the product of an operator with a state of one tensor without the constants: the two legs at each end become one.  `none`: an
exception; a product without blocks has no legs and `ir[1]` in line 503 raises. -/
def applyOneTensors [AddCommGroup Q] [Add K] [Mul K] [Zero K] [One K] [Neg K] (isF : Q → Bool) (le : Q → Q → Bool) (as : List (OpT Q K))
    (b : SpT Q K) : Option (SpT Q K) :=
  (OpT.pdotList isF as b).bind fun r => r.infos.bind fun ir =>
  if ir.length < 2 then none else
  (SpT.ones le [ir.getD 1 [], ir.getD 0 [], ir.getD 1 []] (some [false, false, true]) none).bind fun rl =>
  (SpT.ones le [ir.getD (ir.length - 2) [], ir.getD (ir.length - 1) [], ir.getD (ir.length - 1) []] (some [true, true, false]) none).bind fun rr =>
  (SpT.tensordotN rl r 2).bind fun r => SpT.tensordotN r rr 2

/-- mps.py:500-507 and 542-551 `_matmul` of an operator and a state of one tensor.  A state with a constant raises. -/
def applyOne [AddCommGroup Q] [Add K] [Mul K] [Zero K] [One K] [Neg K] [DecidableEq K] (isF : Q → Bool) (le : Q → Q → Bool) (a : Mpo Q K)
    (b : Mps Q K) : Option (Mps Q K) :=
  match b.tensors with
  | [t] => (applyOneTensors isF le a.tensors t).bind fun r =>
    if a.const ≠ 0 ∧ b.const = 0 then (Mps.mk [r] 0).add (b.smul a.const)
    else if b.const ≠ 0 then none
    else some ⟨[r], 0⟩
  | _ => none

end Mps

namespace Mpe
variable {Q K : Type} [DecidableEq Q]

/-- mpe.py:324-327 `expectation` when bra and ket have one tensor. -/
def expectationOne [AddCommGroup Q] [Add K] [Mul K] [Zero K] [One K] [Neg K] [Star K] [DecidableEq K] (isF : Q → Bool) (le : Q → Q → Bool)
    (bra : Mps Q K) (mpo : Mpo Q K) (ket : Mps Q K) : Option K :=
  (Mps.applyOne isF le mpo ket).bind fun r => Mps.dot bra.conj r

end Mpe
end Verif
