import Verif.Model.Mps

/-!
Model of `SliceableTensor`, `/repo/pyblock3/algebra/core.py:259-404`, of `SparseTensor.to_sliceable`, core.py:1379-1395, and of
`MPS.to_sliceable` and `MPS.amplitude`, `/repo/pyblock3/algebra/mps.py:621-651` and 775-788.

`le` is the order of the labels used by `sorted`.  Indices are Python `int`s (a numpy integer is not an `int` and would leave the `infos` of the
result alone).  The blocks in the array are the blocks of the tensor (no copies are made).  Not modelled: `SliceableTensor.to_dense`, pickling,
`out=`, and the constant of the state, which `amplitude` ignores.
-/

namespace Verif

/-- core.py:259-275 `SliceableTensor`: an array of blocks (`none`: the entry is `None`) and a `BondInfo` for each leg of the blocks.  After slicing the
array has fewer axes than there are legs. -/
structure SlT (Q K : Type) where
  infos : List (BondInfo Q)
  shape : List Nat
  cell : List Nat → Option (List Q × Arr K)

/-- `sorted(info)` for a `BondInfo` (core.py:304, 309, 1385): the labels in increasing order. -/
def sortedLabels {Q : Type} (le : Q → Q → Bool) (info : BondInfo Q) : List Q := sortBy le (info.map Prod.fst)

namespace SpT
variable {Q K : Type} [DecidableEq Q]

/-- core.py:1384-1387: `idx_info[q]`, the place of the label in the sorted list; the `Counter` gives zero for a label it does not have. -/
def labelPlace (le : Q → Q → Bool) (info : BondInfo Q) (q : Q) : Nat :=
  if q ∈ sortedLabels le info then (sortedLabels le info).idxOf q else 0

/-- core.py:1392-1393: `idx` of a block. -/
def blockPlace (le : Q → Q → Bool) (infos : List (BondInfo Q)) (qs : List Q) : List Nat :=
  (qs.zip infos).map fun x => labelPlace le x.2 x.1

/-- core.py:1379-1395 `to_sliceable`.  `none`: the `assert` in `infos` fails, or an index is outside the array, or (simplified) the number of legs of
a block is not the number of `infos`. -/
def toSliceable (le : Q → Q → Bool) (infos : Option (List (BondInfo Q))) (T : SpT Q K) : Option (SlT Q K) :=
  (infos.orElse fun _ => T.infos).bind fun I =>
    let sh := I.map List.length
    if T.all fun b => decide (b.1.length = I.length) && inBox sh (blockPlace le I b.1) then
      some ⟨I, sh, T.foldl (fun f b ix => if ix = blockPlace le I b.1 then some b else f ix) fun _ => none⟩
    else none

end SpT

namespace SlT
variable {Q K : Type} [DecidableEq Q]

/-- core.py:401-404 `to_sparse`: the entries of the array in row-major order; `quick_deflate` (core.py:564-565) drops the `None`s. -/
def toSparse (S : SlT Q K) : SpT Q K := (box S.shape).filterMap S.cell

/-- Python index `k` into a sequence of length `n`: negative indices count from the end; `none`: `IndexError`. -/
def pyIndex (n : Nat) (k : Int) : Option Nat :=
  if 0 ≤ k ∧ k < n then some k.toNat else if k < 0 ∧ 0 ≤ (n : Int) + k then some ((n : Int) + k).toNat else none

/-- The full multi-index: the integers of the key, and the given index on the axes with a slice. -/
def fill : List (Option Nat) → List Nat → List Nat
  | [], _ => []
  | some k :: ks, ix => k :: fill ks ix
  | none :: ks, i :: ix => i :: fill ks ix
  | none :: ks, [] => 0 :: fill ks []

/-- core.py:298, numpy indexing on one axis of length `n`. -/
def axisKey (n : Nat) : Option Int → Option (Option Nat)
  | none => some none
  | some k => (pyIndex n k).map some

/-- core.py:306-311 for one axis: with an integer the `BondInfo` keeps only that label. -/
def restrict (le : Q → Q → Bool) (info : BondInfo Q) : Option Int → Option (BondInfo Q)
  | none => some info
  | some k => (pyIndex info.length k).bind fun i => (sortedLabels le info)[i]?.map fun q => [(q, Counter.count info q)]

/-- core.py:297-315 `__getitem__` with one key for each axis, `none` for `slice(None)`; at least one slice (otherwise the result would not be an array).
`none`: `IndexError`; (simplified) fewer keys than axes are not modelled. -/
def getitem (le : Q → Q → Bool) (S : SlT Q K) (key : List (Option Int)) : Option (SlT Q K) :=
  if key.length = S.shape.length ∧ key.length = S.infos.length then
    ((key.zip S.shape).mapM fun x : Option Int × Nat => axisKey x.2 x.1).bind fun ks =>
    ((key.zip S.infos).mapM fun x : Option Int × BondInfo Q => restrict le x.2 x.1).map fun I =>
      ⟨I, ((key.zip S.shape).filter fun x : Option Int × Nat => x.1.isNone).map Prod.snd, fun ix => S.cell (fill ks ix)⟩
  else none

/-- core.py:325-357 `_tensordot` with `axes=1`, and core.py:362-378 `_dot`: the last leg of `a` with the first leg of `b`. -/
def dot [Zero Q] [Zero K] [Add K] [Mul K] (le : Q → Q → Bool) (a b : SlT Q K) : Option (SlT Q K) :=
  let outa := SpT.outAxes a.infos.length [SpT.normAxis a.infos.length (-1)]
  let outb := SpT.outAxes b.infos.length [SpT.normAxis b.infos.length 0]
  (SpT.tensordotN a.toSparse b.toSparse 1).bind fun r =>
    r.toSliceable le (some ((outa.map fun i => a.infos.getD i []) ++ outb.map fun i => b.infos.getD i []))

end SlT

namespace Mps
variable {Q K : Type} [DecidableEq Q]

/-- mps.py:641-649: the loop over the sites.  `basis` is what is left of `info.basis`. -/
def sliceSites (le : Q → Q → Bool) : List (SpT Q K) → List (List (BondInfo Q)) → List (BondInfo Q) → Option (List (BondInfo Q)) → Option (List (SlT Q K))
  | [], _, _, _ => some []
  | T :: ts, I :: infos, l :: r :: bonds, basis =>
    let n := T.ndim - 2
    let minfos := match basis with
      | none => (I.take (T.ndim - 1)).drop 1
      | some bs => bs.take n
    (T.toSliceable le (some (l :: minfos ++ [r]))).bind fun S =>
      (sliceSites le ts infos (r :: bonds) (basis.map fun bs => bs.drop n)).map fun rest => S :: rest
  | _ :: _, _, _, _ => none

/-- mps.py:621-651 `to_sliceable`; `basis` is `info.basis` when `info` is given.  `none`: a site without blocks has no `infos[0]` (`IndexError`), or an
exception in `infos` or in `to_sliceable` of a tensor. -/
def toSliceable (le : Q → Q → Bool) (basis : Option (List (BondInfo Q))) (ts : List (SpT Q K)) : Option (List (SlT Q K)) :=
  if ts.any List.isEmpty then none else
    (ts.mapM SpT.infos).bind fun infos =>
      sliceSites le ts infos ([(infos.headD []).headD []] ++ innerBonds infos ++ [(infos.getLastD []).getLastD []]) basis

/-- mps.py:779-784: the slice at the determinant, site by site; the rest of `det` is returned. -/
def sliceAt (le : Q → Q → Bool) : List (SlT Q K) → List Int → Option (List (SlT Q K) × List Int)
  | [], det => some ([], det)
  | S :: ss, det =>
    let n := S.shape.length - 2
    (S.getitem le (none :: (det.take n).map some ++ [none])).bind fun R =>
      (sliceAt le ss (det.drop n)).map fun x => (R :: x.1, x.2)

/-- mps.py:787-788: zero without blocks, else the first entry of the first block (`none`: a block of size zero has no `item(0)`). -/
def firstItem [Zero K] : SpT Q K → Option K
  | [] => some 0
  | b :: _ => if b.2.shape.all fun d => decide (0 < d) then some (b.2.get (List.replicate b.2.shape.length 0)) else none

/-- mps.py:775-788 `amplitude`.  `none`: `IndexError`, the `assert` of line 785, or `reduce` of an empty sequence. -/
def amplitude [Zero Q] [Zero K] [Add K] [Mul K] (le : Q → Q → Bool) (ss : List (SlT Q K)) (det : List Int) : Option K :=
  (sliceAt le ss det).bind fun x =>
    if x.2 ≠ [] then none else
      match x.1 with
      | [] => none
      | R :: rs => (rs.foldlM (SlT.dot le) R).bind fun F => firstItem F.toSparse

end Mps
end Verif
