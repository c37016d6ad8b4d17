import Verif.Model.Sparse

/-!
Model of `SparseTensor.fuse` and `SparseTensor.unfuse`, `/repo/pyblock3/algebra/core.py:684-808`.
-/

namespace Verif

/-- Row-major position of a multi-index (numpy C order). -/
def ravel : List Nat → List Nat → Nat
  | _ :: ss, i :: is => i * ss.prod + ravel ss is
  | _, _ => 0

/-- Multi-index of a row-major position. -/
def unravel : List Nat → Nat → List Nat
  | [], _ => []
  | _ :: ss, k => k / ss.prod :: unravel ss (k % ss.prod)

namespace Arr
variable {K : Type}

/-- `a.reshape(sh)` (C order; the sizes are assumed equal, numpy raises otherwise). -/
def reshape (sh : List Nat) (a : Arr K) : Arr K := ⟨sh, fun ix => a.get (unravel a.shape (ravel sh ix))⟩

/-- `a[:, ..., k:k+n, ..., :]` with the slice on axis `m`. -/
def sliceAxis (m k n : Nat) (a : Arr K) : Arr K :=
  ⟨a.shape.set m n, fun ix => a.get (ix.set m (ix.getD m 0 + k))⟩

/-- Entries of `np.concatenate(l, axis=m)`. -/
def concatGet [Zero K] (m : Nat) : List (Arr K) → List Nat → K
  | [], _ => 0
  | a :: as, ix =>
    if ix.getD m 0 < a.shape.getD m 0 then a.get ix
    else concatGet m as (ix.set m (ix.getD m 0 - a.shape.getD m 0))

/-- `np.concatenate(l, axis=m)`. -/
def concat [Zero K] (m : Nat) (l : List (Arr K)) : Arr K :=
  ⟨((l.head?.map Arr.shape).getD []).set m (l.map fun a => a.shape.getD m 0).sum, concatGet m l⟩

end Arr

namespace SpT
variable {Q K : Type} [DecidableEq Q]

/-- core.py:742-773, for one block: its fused labels, the full fused shape, the start `k`, the length
`nk` and the reshaped array. -/
structure FusePiece (Q K : Type) where
  key : List Q
  full : List Nat
  k : Nat
  nk : Nat
  arr : Arr K

/-- core.py:762-768 `new_perm`. -/
def newPerm (n : Nat) (idxs fidxs : List Nat) (midx : Nat) : List Nat :=
  (List.range n).flatMap fun i =>
    if i ∈ fidxs then [] else if i ≠ midx then [i] else idxs

/-- core.py:758-761: `new_qs` and `new_ns`: legs in `fidxs` are removed, leg `midx` becomes `v`. -/
def newLegs {α : Type} [Zero α] (xs : List α) (fidxs : List Nat) (midx : Nat) (v : α) : List α :=
  ((List.range xs.length).filter fun i => !fidxs.contains i).map fun i =>
    if i ≠ midx then xs.getD i 0 else v

/-- core.py:742-773: body of the loop over the blocks.  `some none`: the block is skipped because its
fused label is not in the table; `none`: `KeyError` on line 755. -/
def fusePiece [AddCommGroup Q] (fi : BondFusingInfo Q) (pattern : List Bool) (idxs fidxs : List Nat)
    (midx : Nat) (b : List Q × Arr K) : Option (Option (FusePiece Q K)) :=
  let sqs := pick idxs b.1
  let q := BondFusingInfo.combine sqs pattern
  match Dict.get? fi.quanta q with
  | none => some none
  | some x =>
    match (Dict.get? fi.finfo q).bind fun t => Dict.get? t sqs with
    | none => none
    | some e =>
      let nk := (pick idxs b.2.shape).prod
      some (some ⟨newLegs b.1 fidxs midx q, newLegs b.2.shape fidxs midx x, e.1, nk,
        (b.2.transpose (newPerm b.2.shape.length idxs fidxs midx)).reshape
          ((newLegs b.2.shape fidxs midx x).set midx nk)⟩)

/-- core.py:769-773: pieces are collected by their fused labels. -/
def collectPieces (ps : List (FusePiece Q K)) : Dict (List Q) (List Nat × List (Nat × Nat × Arr K)) :=
  ps.foldl (fun m p => match Dict.get? m p.key with
    | none => Dict.set m p.key (p.full, [(p.k, p.nk, p.arr)])
    | some (full, l) => Dict.set m p.key (full, l ++ [(p.k, p.nk, p.arr)])) []

/-- core.py:778-793: sorted pieces with zero arrays in the gaps. -/
def fillGaps [Zero K] (m : Nat) (full : List Nat) : List (Nat × Nat × Arr K) → Nat → List (Arr K)
  | [], ik => if ik ≠ full.getD m 0 then [Arr.zeros (full.set m (full.getD m 0 - ik))] else []
  | g :: gs, ik =>
    if g.1 = ik then g.2.2 :: fillGaps m full gs (ik + g.2.1)
    else Arr.zeros (full.set m (g.1 - ik)) :: g.2.2 :: fillGaps m full gs (ik + (g.2.1 + g.1 - ik))

/-- `sorted` on the tuples `(k, nk, array)`: by `k`, then by `nk` (comparing arrays would raise). -/
def pieceLe (a b : Nat × Nat × Arr K) : Bool := a.1 < b.1 || (a.1 == b.1 && a.2.1 ≤ b.2.1)

/-- core.py:717-808 `fuse` with an explicit table; `idxs` are nonnegative axes.  (The conversion of array classes on
lines 794-800 and the `pattern` attribute of fermionic tensors on lines 803-806 are not modelled.) -/
def fuse [AddCommGroup Q] [Zero K] (T : SpT Q K) (idxs : List Nat) (fi : BondFusingInfo Q)
    (pattern : Option (List Bool)) : Option (SpT Q K) :=
  match idxs.min? with
  | none => some T
  | some midx =>
    let fidxs := idxs.filter (· != midx)
    match T.mapM (fusePiece fi (pattern.getD fi.pattern) idxs fidxs midx) with
    | none => none
    | some ps => some ((collectPieces (ps.filterMap id)).map fun (key, full, l) =>
        (key, Arr.concat midx (fillGaps midx full (sortBy pieceLe l) 0)))

/-- core.py:662-671 `kron_sum_info`; used by `fuse` when no table is given (line 739). -/
def kronSumInfo [AddCommGroup Q] (leL : List Q → List Q → Bool) (T : SpT Q K) (idxs : List Nat)
    (pattern : List Bool) : Option (BondFusingInfo Q) :=
  BondFusingInfo.kronSum leL (T.map fun b => (pick idxs b.1, pick idxs b.2.shape)) none pattern

/-- core.py:704-710: the new blocks made from one block. -/
def unfuseBlock (fi : BondFusingInfo Q) (i : Nat) (q : Q) (b : List Q × Arr K) : SpT Q K :=
  ((Dict.get? fi.finfo q).getD []).map fun e =>
    let nk := e.2.2.prod
    (b.1.take i ++ e.1 ++ b.1.drop (i + 1),
      (b.2.sliceAxis i e.2.1 nk).reshape (b.2.shape.take i ++ e.2.2 ++ b.2.shape.drop (i + 1)))

/-- core.py:684-711 `unfuse`; `none`: the `assert` of line 701 fails.  (`KeyError` of line 704 for a label with
a dimension but no table is not modelled: no table object has such a label.) -/
def unfuse [Zero Q] (T : SpT Q K) (i : Nat) (fi : BondFusingInfo Q) : Option (SpT Q K) :=
  if T.all fun b => match Dict.get? fi.quanta (b.1.getD i 0) with
      | none => true
      | some d => b.2.shape.getD i 0 == d
  then some (T.flatMap fun b => if Dict.has fi.quanta (b.1.getD i 0) then unfuseBlock fi i (b.1.getD i 0) b else [])
  else none

end SpT
end Verif
