import Verif.Model.BondInfo
import Mathlib.Algebra.Group.Prod
import Mathlib.Algebra.Ring.Defs

/-!
Model of `SubTensor` and `SparseTensor`, `/repo/pyblock3/algebra/core.py`.

A numpy array is a shape with an entry function on multi-indices.  Entries come from a commutative ring
(`float` rounding is not modelled).  numpy raises `ValueError` on mismatched dimensions; the functions
below are total and the theorems assume matching dimensions where numpy would raise.
-/

namespace Verif

/-- A numpy array: shape and entries (indexed by a list with one number per axis). -/
structure Arr (K : Type) where
  shape : List Nat
  get : List Nat → K

/-- core.py:49-77, 432-441: a `SparseTensor` is a list of `SubTensor` blocks; a block is its
`q_labels` with its array. -/
abbrev SpT (Q K : Type) := List (List Q × Arr K)

/-- `tuple(xs[i] for i in axes)`.  (`IndexError` for an axis out of range is not modelled: the
default value is returned.) -/
def pick {α : Type} [Zero α] (axes : List Nat) (xs : List α) : List α :=
  axes.map fun i => xs.getD i 0

/-- The inverse of `pick` for a permutation `axes`: the list that has `v[j]` at position `axes[j]`.
numpy's `transpose(axes)` reads its input at this index. -/
def unpick {α : Type} [Zero α] (axes : List Nat) (v : List α) : List α :=
  (List.range axes.length).map fun p => v.getD (axes.idxOf p) 0

/-- All multi-indices of an array of the given shape, in row-major order. -/
def box (sh : List Nat) : List (List Nat) := cart (sh.map List.range)

/-- Is the multi-index inside the shape? -/
def inBox : List Nat → List Nat → Bool
  | [], [] => true
  | s :: ss, i :: is => decide (i < s) && inBox ss is
  | _, _ => false

namespace Arr
variable {K : Type}

/-- `np.zeros(shape)`. -/
def zeros [Zero K] (sh : List Nat) : Arr K := ⟨sh, fun _ => 0⟩

/-- elementwise `a + b` for equal shapes. -/
def add [Add K] (a b : Arr K) : Arr K := ⟨a.shape, fun ix => a.get ix + b.get ix⟩

/-- elementwise `a - b` for equal shapes. -/
def sub [Sub K] (a b : Arr K) : Arr K := ⟨a.shape, fun ix => a.get ix - b.get ix⟩

/-- `-a`. -/
def neg [Neg K] (a : Arr K) : Arr K := ⟨a.shape, fun ix => -a.get ix⟩

/-- `f(a)` entry by entry, for a scalar function. -/
def mapK {K' : Type} (f : K → K') (a : Arr K) : Arr K' := ⟨a.shape, fun ix => f (a.get ix)⟩

/-- `np.transpose(a, axes)`. -/
def transpose (axes : List Nat) (a : Arr K) : Arr K :=
  ⟨pick axes a.shape, fun ix => a.get (unpick axes ix)⟩

/-- `np.tensordot(a, b, axes=(idxa, idxb))` where `outa`, `outb` are the remaining axes in increasing
order. -/
def tensordot [Add K] [Mul K] [Zero K] (a b : Arr K) (idxa idxb outa outb : List Nat) : Arr K :=
  ⟨pick outa a.shape ++ pick outb b.shape, fun ix =>
    ((box (pick idxa a.shape)).map fun k =>
      a.get (unpick (idxa ++ outa) (k ++ ix.take outa.length)) *
      b.get (unpick (idxb ++ outb) (k ++ ix.drop outa.length))).sum⟩

end Arr

namespace SpT
variable {Q K : Type}

/-- core.py:443-446 `ndim`: rank of the first block, 0 without blocks. -/
def ndim (T : SpT Q K) : Nat := match T with
  | [] => 0
  | b :: _ => b.2.shape.length

/-- core.py:856-857 `x if x >= 0 else ndim + x`. -/
def normAxis (n : Nat) (x : Int) : Nat := if 0 ≤ x then x.toNat else ((n : Int) + x).toNat

/-- core.py:858 `sorted(list(set(range(0, ndim)) - set(idx)))`. -/
def outAxes (n : Nat) (idx : List Nat) : List Nat := (List.range n).filter fun i => !idx.contains i

variable [DecidableEq Q]

/-- core.py:862-868: blocks of `b` collected by their contracted labels. -/
def collectB [Zero Q] (B : SpT Q K) (idxb outb : List Nat) :
    Dict (List Q) (List ((List Q × Arr K) × List Q)) :=
  B.foldl (fun m blk =>
    let ctrq := pick idxb blk.1
    let outq := pick outb blk.1
    Dict.set m ctrq ((Dict.get? m ctrq).getD [] ++ [(blk, outq)])) []

/-- core.py:879-883: `blocks_map[outq] = mat` or `blocks_map[outq] += mat`. -/
def accumulate [Add K] (m : Dict (List Q) (Arr K)) (outq : List Q) (mat : Arr K) :
    Dict (List Q) (Arr K) :=
  match Dict.get? m outq with
  | none => Dict.set m outq mat
  | some o => Dict.set m outq (o.add mat)

/-- core.py:862-885: the main loop of `_tensordot`, after the axes are normalised. -/
def tensordotCore [Zero Q] [Add K] [Mul K] [Zero K] (A B : SpT Q K) (idxa idxb outa outb : List Nat) :
    SpT Q K :=
  let mapB := collectB B idxb outb
  A.foldl (fun m a =>
    match Dict.get? mapB (pick idxa a.1) with
    | none => m
    | some l =>
      let outqa := pick outa a.1
      l.foldl (fun m b => accumulate m (outqa ++ b.2) (a.2.tensordot b.1.2 idxa idxb outa outb)) m) []

/-- core.py:835-885 `_tensordot` with explicit axes lists; `none` is the failing
`assert len(idxa) == len(idxb)` of line 860. -/
def tensordot [Zero Q] [Add K] [Mul K] [Zero K] (A B : SpT Q K) (axesA axesB : List Int) :
    Option (SpT Q K) :=
  let idxa := axesA.map (normAxis A.ndim)
  let idxb := axesB.map (normAxis B.ndim)
  if idxa.length = idxb.length then
    some (tensordotCore A B idxa idxb (outAxes A.ndim idxa) (outAxes B.ndim idxb))
  else none

/-- core.py:852-853 `_tensordot` with an integer `axes=N`: last `N` axes of `a` with first `N` of `b`. -/
def tensordotN [Zero Q] [Add K] [Mul K] [Zero K] (A B : SpT Q K) (n : Nat) : Option (SpT Q K) :=
  tensordot A B ((List.range n).map fun i : Nat => (i : Int) - (n : Int)) ((List.range n).map fun i : Nat => (i : Int))

/-- core.py:948-957 `_add` for two tensors: dictionary comprehension over `a.blocks` (a repeated
label keeps its first position but the last value), then the loop over `b.blocks`. -/
def add [Add K] (A B : SpT Q K) : SpT Q K :=
  B.foldl (fun m b => accumulate m b.1 b.2) (A.foldl (fun m a => Dict.set m a.1 a.2) [])

/-- core.py:971-980 `_subtract` for two tensors. -/
def subtract [Sub K] [Neg K] (A B : SpT Q K) : SpT Q K :=
  B.foldl (fun m b => match Dict.get? m b.1 with
    | none => Dict.set m b.1 b.2.neg
    | some o => Dict.set m b.1 (o.sub b.2)) (A.foldl (fun m a => Dict.set m a.1 a.2) [])

/-- core.py:618-625: multiplication by a number on either side (entries commute). -/
def smul [Mul K] (c : K) (A : SpT Q K) : SpT Q K := A.map fun b => (b.1, b.2.mapK (c * ·))

/-- core.py:628-630 (`negative` ufunc, block by block). -/
def neg [Neg K] (A : SpT Q K) : SpT Q K := A.map fun b => (b.1, b.2.neg)

/-- core.py:1350-1370 `SparseTensor._transpose` maps core.py:229-250 `SubTensor._transpose` over the
blocks.  `axes = None` reverses the axes. -/
def transpose [Zero Q] (axes : Option (List Nat)) (A : SpT Q K) : SpT Q K :=
  A.map fun b =>
    let ax := axes.getD (List.range b.2.shape.length).reverse
    (pick ax b.1, b.2.transpose ax)

/-- core.py:482-500 `_skeleton`: blocks `(shape, labels)` allowed by the symmetry.  `none`: `np.nditer`
raises when a bond is empty.  `dq = None` compares with `-ps[-1]`, i.e. target charge zero; a tensor with
one leg is not restricted. -/
def skeleton [AddCommGroup Q] (le : Q → Q → Bool) (infos : List (BondInfo Q))
    (pattern : Option (List Bool)) (dq : Option Q) : Option (List (List Nat × List Q)) :=
  if infos.any List.isEmpty then none else
  let qsh := infos.map fun i => sortBy (fun x y => le x.1 y.1) i
  let pattern := pattern.getD (List.replicate (infos.length - 1) true ++ [false])
  some ((cart qsh).filterMap fun x =>
    let ps := BondFusingInfo.signedLabels (x.map Prod.fst) pattern
    let last := ps.getLastD 0
    let target := match dq with
      | none => -last
      | some d => d - last
    if ps.length = 1 ∨ ps.dropLast.foldl (· + ·) 0 = target then
      some (x.map Prod.snd, x.map Prod.fst)
    else none)

/-- core.py:503-508 `zeros`. -/
def zeros [AddCommGroup Q] [Zero K] (le : Q → Q → Bool) (infos : List (BondInfo Q))
    (pattern : Option (List Bool)) (dq : Option Q) : Option (SpT Q K) :=
  (skeleton le infos pattern dq).map fun l => l.map fun (sh, qs) => (qs, Arr.zeros sh)

end SpT
end Verif
