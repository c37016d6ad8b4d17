import Verif.Model.Sparse
import Mathlib.Algebra.Star.Basic

/-!
Model of `MPS`, `/repo/pyblock3/algebra/mps.py`, and of `SparseTensor._kron_add`, `/repo/pyblock3/algebra/core.py`.

The site tensors are `SparseTensor` objects (`SpT`).  Not modelled: `opts` (compression after each operation), `out=`, `dq`.
-/

namespace Verif
namespace SpT
variable {Q K : Type} [DecidableEq Q]

/-- core.py:530-535, one block: a label seen before must have the same dimension (`none`: the `assert` fails). -/
def infosStep (infos : List (BondInfo Q)) (b : List Q × Arr K) : Option (List (BondInfo Q)) :=
  (infos.zip (b.1.zip b.2.shape)).mapM fun x =>
    match Dict.get? x.1 x.2.1 with
    | some v => if x.2.2 = v then some x.1 else none
    | none => some (Dict.set x.1 x.2.1 x.2.2)

/-- core.py:526-536 `infos`. -/
def infos (T : SpT Q K) : Option (List (BondInfo Q)) :=
  T.foldlM infosStep (List.replicate T.ndim [])

/-- The array of shape `full` that has `blk` at the indices from `k0` on along the first axis and from `k1` on along the last axis (whole range
of the other axes) and zero elsewhere. -/
def corner [Zero K] (full : List Nat) (k0 k1 : Nat) (blk : Arr K) : Arr K :=
  ⟨full, fun ix =>
    let e := ix.length - 1
    if k0 ≤ ix.getD 0 0 ∧ ix.getD 0 0 < k0 + blk.shape.getD 0 0 ∧ k1 ≤ ix.getD e 0 ∧ ix.getD e 0 < k1 + blk.shape.getD (blk.shape.length - 1) 0 then
      blk.get ((ix.set 0 (ix.getD 0 0 - k0)).set e (ix.getD e 0 - k1))
    else 0⟩

/-- First index of the slice `[-s:]` of an axis of length `n`. -/
def fromEnd (n s : Nat) : Nat := if s = 0 then 0 else n - s

/-- core.py:1007-1015: a block of zeros for labels not seen before. -/
def kronAlloc [Zero Q] [Zero K] (lb rb : BondInfo Q) (m : SpT Q K) (b : List Q × Arr K) : SpT Q K :=
  if Dict.has m b.1 then m else
    Dict.set m b.1 (Arr.zeros ((b.2.shape.set 0 (Counter.count lb (b.1.getD 0 0))).set (b.2.shape.length - 1)
      (Counter.count rb (b.1.getD (b.1.length - 1) 0))))

/-- core.py:1017-1020 (`high = false`) and 1022-1025 (`high = true`): `sub_mp[qs][:sh[0], ..., :sh[-1]] += block` and
`sub_mp[qs][-sh[0]:, ..., -sh[-1]:] += block`.  numpy raises for a slice that cannot hold the block (and for blocks without entries); here the
part that does not fit is dropped.  An axis of length 0 holds a block of length 1 without an error: numpy broadcasts it. -/
def kronPlace [Zero K] [Add K] (high : Bool) (m : SpT Q K) (b : List Q × Arr K) : SpT Q K :=
  match Dict.get? m b.1 with
  | none => m
  | some o =>
    let s0 := b.2.shape.getD 0 0
    let s1 := b.2.shape.getD (b.2.shape.length - 1) 0
    let k0 := if high then fromEnd (o.shape.getD 0 0) s0 else 0
    let k1 := if high then fromEnd (o.shape.getD (o.shape.length - 1) 0) s1 else 0
    Dict.set m b.1 (o.add (corner o.shape k0 k1 b.2))

/-- core.py:986-1026 `_kron_add` with explicit `infos = (lb, rb)`. -/
def kronAdd [Zero Q] [Zero K] [Add K] (A B : SpT Q K) (lb rb : BondInfo Q) : SpT Q K :=
  B.foldl (kronPlace true) (A.foldl (kronPlace false) ((A ++ B).foldl (kronAlloc lb rb) []))

end SpT

/-- mps.py:163-168: tensors and the constant. -/
structure Mps (Q K : Type) where
  tensors : List (SpT Q K)
  const : K

namespace Mps
variable {Q K : Type} [DecidableEq Q]

/-- The bond left of each site but the first: `infos[i + 1][0] | infos[i][-1]` (mps.py:408-411). -/
def innerBonds : List (List (BondInfo Q)) → List (BondInfo Q)
  | x :: y :: rest => BondInfo.union (y.getD 0 []) (x.getLastD []) :: innerBonds (y :: rest)
  | _ => []

/-- mps.py:414-417: the loop over the sites. -/
def kronAddSites [Zero Q] [Zero K] [Add K] : List (SpT Q K) → List (SpT Q K) → List (BondInfo Q) → List (SpT Q K)
  | A :: as, B :: bs, l :: r :: rest => SpT.kronAdd A B l r :: kronAddSites as bs (r :: rest)
  | _, _, _ => []

/-- mps.py:389-417 `MPS._add`.  `none`: the assertion on the number of sites (line 393) or the one in `infos` fails. -/
def addTensors [Zero Q] [Zero K] [Add K] (a b : Mps Q K) : Option (Mps Q K) :=
  if a.tensors.length ≠ b.tensors.length then none else
  match a.tensors, b.tensors with
  | [ta], [tb] => some ⟨[ta.add tb], a.const + b.const⟩
  | _, _ =>
    if a.tensors.any List.isEmpty then some ⟨b.tensors, a.const + b.const⟩
    else if b.tensors.any List.isEmpty then some ⟨a.tensors, a.const + b.const⟩
    else
      (a.tensors.mapM SpT.infos).bind fun ainfos => (b.tensors.mapM SpT.infos).map fun binfos =>
        let first := (ainfos.headD []).headD []
        let last := (ainfos.getLastD []).getLastD []
        let bonds := [first] ++ ((innerBonds ainfos).zip (innerBonds binfos)).map (fun x => BondInfo.addCounts x.1 x.2) ++ [last]
        ⟨kronAddSites a.tensors b.tensors bonds, a.const + b.const⟩

/-- mps.py:264-275 `np.multiply` with a number on either side: the constant and the first tensor are multiplied.  (An object without sites:
`IndexError`; here it stays.) -/
def smul [Mul K] (c : K) (a : Mps Q K) : Mps Q K :=
  ⟨match a.tensors with
    | [] => []
    | t :: ts => t.smul c :: ts, c * a.const⟩

/-- mps.py:264-275 `np.divide` of an object by a number: the constant and the entries of the first tensor are divided. -/
def divNumber [Div K] (a : Mps Q K) (c : K) : Mps Q K :=
  ⟨match a.tensors with
    | [] => []
    | t :: ts => t.map (fun b => (b.1, b.2.mapK (· / c))) :: ts, a.const / c⟩

/-- mps.py:276-283, `np.negative`: the constant and the first tensor are negated. -/
def neg [Neg K] (a : Mps Q K) : Mps Q K :=
  ⟨match a.tensors with
    | [] => []
    | t :: ts => t.neg :: ts, -a.const⟩

/-- mps.py:276-280, `np.conjugate`: all tensors and the constant are conjugated. -/
def conj [Star K] (a : Mps Q K) : Mps Q K :=
  ⟨a.tensors.map fun t => t.map fun b => (b.1, b.2.mapK star), star a.const⟩

/-- mps.py:258-260 `np.add` of two objects (without compression, lines 261-263). -/
def add [Zero Q] [Zero K] [Add K] (a b : Mps Q K) : Option (Mps Q K) :=
  (addTensors a b).map fun r => ⟨r.tensors, a.const + b.const⟩

/-- mps.py:250-251 and 258-260 `np.subtract` of two objects: `b = -b` first. -/
def sub [Zero Q] [Zero K] [Add K] [Neg K] (a b : Mps Q K) : Option (Mps Q K) := add a b.neg

/-- mps.py:252-257: object plus a number, number plus an object. -/
def addNumber [Add K] (a : Mps Q K) (c : K) : Mps Q K := ⟨a.tensors, a.const + c⟩

/-- mps.py:250-254: number minus an object. -/
def numberSub [Add K] [Neg K] (c : K) (a : Mps Q K) : Mps Q K := ⟨a.neg.tensors, c + a.neg.const⟩

/-- mps.py:250-257: object minus a number. -/
def subNumber [Add K] [Neg K] (a : Mps Q K) (c : K) : Mps Q K := ⟨a.tensors, a.const + -c⟩

end Mps
end Verif
