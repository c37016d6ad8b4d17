import Verif.Model.Flat
import Verif.Model.Mps

/-!
Model of the direct sum of flat tensors, `/repo/pyblock3/algebra/flat.py:576-598` and the Python kernel in
`/repo/pyblock3/algebra/impl/flat.py:471-530`.

`cdata[cidxs[ic]:cidxs[ic + 1]]` with the shape of the block is a view; the views are a list of arrays here.  A slice that cannot hold the block
raises; here the part that does not fit is dropped, as in `SpT.kronPlace`.
-/

namespace Verif

/-- What a Python dictionary is asked for: a number or a label object.  The two are never equal (symmetry.py:60-67: hashes of tuples, and
`__eq__` with a number raises). -/
inductive PyKey (C Q : Type) where
  | code (c : C)
  | label (q : Q)
deriving DecidableEq

namespace Flat
variable {C Q K : Type} [DecidableEq C] [DecidableEq Q] [Zero C]

omit [DecidableEq Q] [Zero C] in
/-- impl/flat.py:479-489 `sub_mp`: for every row of labels the number of its first block; the blocks of `b` count from `na` on. -/
def kronIndex (A B : Flat C K) : Dict (List C) Nat :=
  (A.qs.zipIdx ++ B.qs.zipIdx.map fun p => (p.1, p.2 + A.qs.length)).foldl
    (fun m p => if Dict.has m p.1 then m else Dict.set m p.1 p.2) []

/-- impl/flat.py:496-511: labels and shape of the new block made for block number `iab`; `none`: `KeyError`. -/
def kronRow (A B : Flat C K) (lb rb : Dict (PyKey C Q) Nat) (iab : Nat) : Option (List C × List Nat) :=
  let q := if iab < A.qs.length then A.qs.getD iab [] else B.qs.getD (iab - A.qs.length) []
  let s := if iab < A.qs.length then A.shs.getD iab [] else B.shs.getD (iab - A.qs.length) []
  (Dict.get? lb (.code (q.getD 0 0))).bind fun n0 => (Dict.get? rb (.code (q.getD (q.length - 1) 0))).map fun n1 =>
    (q, (s.set 0 n0).set (s.length - 1) n1)

omit [DecidableEq Q] [Zero C] in
/-- impl/flat.py:514-520 (`high = false`) and 522-528 (`high = true`): a block is added to a corner of its new block.  `ic_map[sub_mp[q]]` is the place
of the labels among those of the new blocks. -/
def kronPut [Zero K] [Add K] (high : Bool) (keys : List (List C)) (A : Flat C K) (ms : List (Arr K)) (p : List C × Nat) : List (Arr K) :=
  ms.modify (keys.idxOf p.1) fun o =>
    let b := Arr.ofList (A.shs.getD p.2 []) (A.block p.2)
    let k0 := if high then SpT.fromEnd (o.shape.getD 0 0) (b.shape.getD 0 0) else 0
    let k1 := if high then SpT.fromEnd (o.shape.getD (o.shape.length - 1) 0) (b.shape.getD (b.shape.length - 1) 0) else 0
    o.add (SpT.corner o.shape k0 k1 b)

/-- impl/flat.py:471-530 `flat_sparse_kron_add`; `none`: `KeyError`. -/
def kronAdd [Zero K] [Add K] (A B : Flat C K) (lb rb : Dict (PyKey C Q) Nat) : Option (Flat C K) :=
  if A.qs.length = 0 ∧ B.qs.length = 0 then some A else
  let sub := kronIndex A B
  (sub.mapM fun e => kronRow A B lb rb e.2).map fun rows =>
    let ms := rows.map fun r => Arr.zeros r.2
    let ms := A.qs.zipIdx.foldl (kronPut false (Dict.keys sub) A) ms
    let ms := B.qs.zipIdx.foldl (kronPut true (Dict.keys sub) B) ms
    mk' (rows.map Prod.fst) (rows.map Prod.snd) (ms.map Arr.toList).flatten

/-- flat.py:576-593 `_kron_add`: the bonds given (or computed by `infos`) have label objects as keys. -/
def kronAddInfos [Zero K] [Add K] (A B : Flat C K) (lb rb : BondInfo Q) : Option (Flat C K) :=
  kronAdd A B (lb.map fun p => (PyKey.label p.1, p.2)) (rb.map fun p => (PyKey.label p.1, p.2))

end Flat
end Verif
