import Verif.Model.Canon
import Verif.Model.OpT

/-!
Model of the truncation of a singular value decomposition: `SparseTensor.truncate_svd`, `/repo/pyblock3/algebra/core.py:1223-1302`, and
`FermionTensor.truncate_svd`, `/repo/pyblock3/algebra/core.py:2077-2185`.

Singular values are elements of an ordered ring.  The square root of the cutoff is a parameter.  The test `norm(block) > norm_cutoff` of
`deflate` is a parameter (`big`).
-/

namespace Verif

namespace Arr
variable {K : Type}

/-- `a[..., gl]`. -/
def pickLast (gl : List Nat) (a : Arr K) : Arr K :=
  ⟨a.shape.dropLast ++ [gl.length], fun ix => a.get (ix.dropLast ++ [gl.getD (ix.getLastD 0) 0])⟩

/-- `a[gl, ...]`. -/
def pickFirst (gl : List Nat) (a : Arr K) : Arr K :=
  ⟨gl.length :: a.shape.tail, fun ix => a.get (gl.getD (ix.headD 0) 0 :: ix.tail)⟩

end Arr

/-- `l[:k]` for an integer `k`; a negative one counts from the end. -/
def pyTake {α : Type} (k : Int) (l : List α) : List α :=
  l.take (if 0 ≤ k then k.toNat else ((l.length : Int) + k).toNat)

/-- Options of `truncate_svd`, core.py:1224 (`norm_cutoff` is the parameter `big`). -/
structure TruncOpts (V : Type) where
  maxBondDim : Int
  cutoff : V
  maxDw : V
  eigenValues : Bool

/-- One singular value: number of its block, position in the block, value. -/
structure SV (V : Type) where
  block : Nat
  pos : Nat
  val : V

section
variable {V : Type} [Zero V] [Add V] [Mul V] [LE V] [DecidableLE V] [DecidableEq V]

/-- core.py:1257: contribution of a singular value to the discarded weight. -/
def TruncOpts.weight (o : TruncOpts V) (v : V) : V := if o.eigenValues then v else v * v

/-- core.py:1255-1261: how many values in this order can be dropped. -/
def dwCount (w : V → V) (maxDw : V) : V → List (SV V) → Nat
  | _, [] => 0
  | dw, x :: xs => if dw + w x.val ≤ maxDw then 1 + dwCount w maxDw (dw + w x.val) xs else 0

/-- core.py:1251: `ss.sort(key=lambda x: -x[2])`. -/
def sortValues (ss : List (SV V)) : List (SV V) := sortBy (fun a b => decide (b.val ≤ a.val)) ss

/-- core.py:1270: `ss_trunc.sort(key=lambda x: (x[0], x[1]))`. -/
def sortPlaces (ss : List (SV V)) : List (SV V) :=
  sortBy (fun a b => decide (a.block < b.block ∨ a.block = b.block ∧ a.pos ≤ b.pos)) ss

/-- core.py:1251-1270: the selected values.  (`ss_trunc[:-p]` with `p = 0` is the empty list.) -/
def truncSelect (o : TruncOpts V) (sqrt : V → V) (ss : List (SV V)) : List (SV V) :=
  let ss := sortValues ss
  let ss := if o.maxDw ≠ 0 then pyTake (-(dwCount o.weight o.maxDw 0 ss.reverse : Int)) ss else ss
  let ss := if o.cutoff ≠ 0 then ss.filter (fun x => decide ((if o.eigenValues then o.cutoff else sqrt o.cutoff) ≤ x.val)) else ss
  let ss := if o.maxBondDim ≠ -1 then pyTake o.maxBondDim ss else ss
  sortPlaces ss

/-- core.py:2104-2119, the selection of `FermionTensor.truncate_svd`: the discarded weight is summed from the largest value on, and the cutoff is
compared with the value itself. -/
def truncSelectF (o : TruncOpts V) (ss : List (SV V)) : List (SV V) :=
  let ss := sortValues ss
  let ss := if o.maxDw ≠ 0 then pyTake (-(dwCount (fun v => v * v) o.maxDw 0 ss : Int)) ss else ss
  let ss := if o.cutoff ≠ 0 then ss.filter (fun x => decide (o.cutoff ≤ x.val)) else ss
  let ss := if o.maxBondDim ≠ -1 then pyTake o.maxBondDim ss else ss
  sortPlaces ss

end

/-- core.py:1275-1276: `groupby(ss_trunc, key=lambda x: x[0])` with the positions of each group. -/
def groupRuns {V : Type} : List (SV V) → List (Nat × List Nat)
  | [] => []
  | x :: xs => match groupRuns xs with
    | [] => [(x.block, [x.pos])]
    | (i, g) :: r => if x.block = i then (i, x.pos :: g) :: r else (x.block, [x.pos]) :: (i, g) :: r

namespace SpT
variable {Q K V : Type} [DecidableEq Q] [Zero Q]

/-- core.py:1249-1250. -/
def singularValues (s : SpT Q V) : List (SV V) :=
  s.zipIdx.flatMap fun b => (List.range (b.1.2.shape.headD 0)).map fun j => ⟨b.2, j, b.1.2.get [j]⟩

/-- Block number `i` of `s`: its label and its array. -/
def svBlock [Zero V] (s : SpT Q V) (i : Nat) : Q × Arr V :=
  let b := s.getD i ([], ⟨[], fun _ => 0⟩)
  (b.1.headD 0, b.2)

/-- core.py:1279-1283: the blocks of `l` with the label of `s`, found by a pointer that moves on. -/
def keepLeft [Zero V] (s : SpT Q V) : List (Nat × List Nat) → SpT Q K → SpT Q K
  | [], _ => []
  | (ik, gl) :: gs, l =>
    let q := (svBlock s ik).1
    let l1 := l.dropWhile fun b => decide (b.1.getLastD 0 ≠ q)
    (l1.takeWhile fun b => decide (b.1.getLastD 0 = q)).map (fun b => (b.1, b.2.pickLast gl)) ++
      keepLeft s gs (l1.dropWhile fun b => decide (b.1.getLastD 0 = q))

/-- core.py:1285-1289: the same for `r`. -/
def keepRight [Zero V] (s : SpT Q V) : List (Nat × List Nat) → SpT Q K → SpT Q K
  | [], _ => []
  | (ik, gl) :: gs, r =>
    let q := (svBlock s ik).1
    let r1 := r.dropWhile fun b => decide (b.1.getD 0 0 ≠ q)
    (r1.takeWhile fun b => decide (b.1.getD 0 0 = q)).map (fun b => (b.1, b.2.pickFirst gl)) ++
      keepRight s gs (r1.dropWhile fun b => decide (b.1.getD 0 0 = q))

/-- core.py:1284. -/
def keepValues [Zero V] (s : SpT Q V) (gs : List (Nat × List Nat)) : SpT Q V :=
  gs.map fun g => ([(svBlock s g.1).1], (svBlock s g.1).2.pickFirst g.2)

/-- core.py:1290-1299: the error: what is missing in the selected blocks, and the blocks not selected. -/
def truncError [Zero V] [Add V] (w : V → V) (s : SpT Q V) (gs : List (Nat × List Nat)) : V :=
  (gs.map fun g => (((List.range ((svBlock s g.1).2.shape.headD 0)).filter fun j => decide (j ∉ g.2)).map fun j =>
      w ((svBlock s g.1).2.get [j])).sum).sum +
    (((List.range s.length).filter fun i => decide (i ∉ gs.map Prod.fst)).map fun i =>
      ((List.range ((svBlock s i).2.shape.headD 0)).map fun j => w ((svBlock s i).2.get [j])).sum).sum

/-- core.py:567-571 `deflate`. -/
def deflate (big : Arr K → Bool) (T : SpT Q K) : SpT Q K := T.filter fun b => big b.2

/-- What `truncate_svd` returns. -/
structure Truncation (Q K V : Type) where
  l : SpT Q K
  s : SpT Q V
  r : SpT Q K
  error : V

/-- core.py:1223-1302 `truncate_svd`. -/
def truncateSvd [Zero V] [Add V] [Mul V] [LE V] [DecidableLE V] [DecidableEq V] (o : TruncOpts V) (sqrt : V → V) (big : Arr K → Bool)
    (l : SpT Q K) (s : SpT Q V) (r : SpT Q K) : Truncation Q K V :=
  let gs := groupRuns (truncSelect o sqrt (singularValues s))
  ⟨deflate big (keepLeft s gs l), keepValues s gs, deflate big (keepRight s gs r), truncError o.weight s gs⟩

/-- core.py:2120-2167: the blocks found from the first block with the label on.  (`Counter` gives 0 for a label that does not occur.) -/
def keepLeftF [Zero V] (s : SpT Q V) (gs : List (Nat × List Nat)) (l : SpT Q K) : SpT Q K :=
  gs.flatMap fun g =>
    let q := (svBlock s g.1).1
    let i := if q ∈ l.map (fun b => b.1.getLastD 0) then (l.map fun b => b.1.getLastD 0).idxOf q else 0
    ((l.drop i).takeWhile fun b => decide (b.1.getLastD 0 = q)).map fun b => (b.1, b.2.pickLast g.2)

/-- core.py:2133-2167: the same for `r`. -/
def keepRightF [Zero V] (s : SpT Q V) (gs : List (Nat × List Nat)) (r : SpT Q K) : SpT Q K :=
  gs.flatMap fun g =>
    let q := (svBlock s g.1).1
    let i := if q ∈ r.map (fun b => b.1.getD 0 0) then (r.map fun b => b.1.getD 0 0).idxOf q else 0
    ((r.drop i).takeWhile fun b => decide (b.1.getD 0 0 = q)).map fun b => (b.1, b.2.pickFirst g.2)

end SpT

/-- core.py:2077-2185 `FermionTensor.truncate_svd` for the result of `right_svd`: `l` and `s` are sparse tensors, `r` is an operator tensor. -/
def OpT.truncateRight {Q K V : Type} [DecidableEq Q] [Zero Q] [Zero V] [Add V] [Mul V] [LE V] [DecidableLE V] [DecidableEq V]
    (o : TruncOpts V) (big : Arr K → Bool) (l : SpT Q K) (s : SpT Q V) (r : OpT Q K) : SpT Q K × SpT Q V × OpT Q K × V :=
  let gs := groupRuns (truncSelectF o (SpT.singularValues s))
  (SpT.deflate big (SpT.keepLeftF s gs l), SpT.keepValues s gs,
    ⟨SpT.deflate big (SpT.keepRightF s gs r.odd), SpT.deflate big (SpT.keepRightF s gs r.even)⟩, SpT.truncError (fun v => v * v) s gs)

/-- The same for the result of `left_svd`: `l` is an operator tensor, `s` and `r` are sparse tensors. -/
def OpT.truncateLeft {Q K V : Type} [DecidableEq Q] [Zero Q] [Zero V] [Add V] [Mul V] [LE V] [DecidableLE V] [DecidableEq V]
    (o : TruncOpts V) (big : Arr K → Bool) (l : OpT Q K) (s : SpT Q V) (r : SpT Q K) : OpT Q K × SpT Q V × SpT Q K × V :=
  let gs := groupRuns (truncSelectF o (SpT.singularValues s))
  (⟨SpT.deflate big (SpT.keepLeftF s gs l.odd), SpT.deflate big (SpT.keepLeftF s gs l.even)⟩, SpT.keepValues s gs,
    SpT.deflate big (SpT.keepRightF s gs r), SpT.truncError (fun v => v * v) s gs)

end Verif
