import Verif.Model.ConvMpo
import Mathlib.Data.List.Sort
import Mathlib.Data.List.Dedup

/-!
Model of the simplification of symbolic matrix product operators: `SymbolicSparseTensor.simplify`, `get_remap` (`/repo/pyblock3/symbolic/symbolic.py`) and
`MPS.simplify` (`/repo/pyblock3/algebra/mps.py`).

`α` are the entries of a symbolic matrix that are not the number 0, `O` the operators of a bond.  The dictionary `ops` of a tensor is passed on unchanged by all functions
here (symbolic.py:318); it is folded into the entries.
-/

namespace Verif
namespace Symbolic

/-- symbolic.py:78-160 `SymbolicRowVector`, `SymbolicColumnVector`, `SymbolicMatrix`: the numbers of rows and columns, positions and entries.  The number 0 is `none`. -/
inductive Mat (α : Type) where
  | row (data : List (Option α))
  | col (data : List (Option α))
  | full (nRows nCols : Nat) (entries : List ((Nat × Nat) × Option α))

/-- symbolic.py:235-246 `SymbolicSparseTensor` without permutation of the legs (`idx_perm is None`). -/
structure Tensor (O α : Type) where
  mat : Mat α
  lop : List O
  rop : List O

variable {O α : Type}

/-- numpy `data[idx]` for an array of positions; `none` is an IndexError. -/
def pick {β : Type} (idx : List Nat) (data : List β) : Option (List β) := idx.mapM fun i => data[i]?

/-- symbolic.py:302 `mp = {xr: ir for ir, xr in enumerate(idx_mp)}`. -/
def placeOf (idx : List Nat) : Dict Nat Nat := idx.zipIdx.foldl (fun d p => Dict.set d p.1 p.2) []

/-- symbolic.py:290-318 `simplify(idx_mp, left)`. -/
def Tensor.simplify (t : Tensor O α) (idx : List Nat) (left : Bool) : Option (Tensor O α) :=
  (pick idx (if left then t.lop else t.rop)).bind fun newOps =>
    let lop := if left then newOps else t.lop
    let rop := if left then t.rop else newOps
    match t.mat with
    | .row data => (pick idx data).map fun d => ⟨.row d, lop, rop⟩
    | .col data => (pick idx data).map fun d => ⟨.col d, lop, rop⟩
    | .full nr nc es =>
      let mp := placeOf idx
      let es' := es.filterMap fun e =>
        if left then (Dict.get? mp e.1.1).map fun i => ((i, e.1.2), e.2) else (Dict.get? mp e.1.2).map fun i => ((e.1.1, i), e.2)
      some ⟨if left then .full idx.length nc es' else .full nr idx.length es', lop, rop⟩

/-- symbolic.py:320-333 `get_remap(left)`: the positions of a bond with entries that are not 0, in order. -/
def Tensor.getRemap (t : Tensor O α) (left : Bool) : List Nat :=
  match t.mat with
  | .row data | .col data => data.zipIdx.filterMap fun p => if p.1.isSome then some p.2 else none
  | .full _ _ es => (es.filterMap fun e => if e.2.isSome then some (if left then e.1.1 else e.1.2) else none).dedup.insertionSort (· ≤ ·)

/-- mps.py:759-762, one turn of the loop from left to right. -/
def stepRight (ts : List (Tensor O α)) (i : Nat) : Option (List (Tensor O α)) :=
  ts[i]?.bind fun a => ts[i + 1]?.bind fun b =>
    let r := a.getRemap false
    (a.simplify r false).bind fun a' => (b.simplify r true).map fun b' => (ts.set i a').set (i + 1) b'

/-- mps.py:764-767, one turn of the loop from right to left; here `i` is the position of the left tensor of the pair, `i - 1` in the code. -/
def stepLeft (ts : List (Tensor O α)) (i : Nat) : Option (List (Tensor O α)) :=
  ts[i + 1]?.bind fun b => ts[i]?.bind fun a =>
    let r := b.getRemap true
    (b.simplify r true).bind fun b' => (a.simplify r false).map fun a' => (ts.set i a').set (i + 1) b'

/-- mps.py:753-769 `MPS.simplify`.  The constant and the options are passed on. -/
def simplifyMpo (ts : List (Tensor O α)) : Option (List (Tensor O α)) :=
  ((List.range (ts.length - 1)).foldlM stepRight ts).bind fun ts' => (List.range (ts.length - 1)).reverse.foldlM stepLeft ts'

/-- The entries that are not 0, with row and column. -/
def Tensor.cells (t : Tensor O α) : List (Nat × Nat × α) :=
  match t.mat with
  | .row data => data.zipIdx.filterMap fun p => p.1.map fun x => (0, p.2, x)
  | .col data => data.zipIdx.filterMap fun p => p.1.map fun x => (p.2, 0, x)
  | .full _ _ es => es.filterMap fun e => e.2.map fun x => (e.1.1, e.1.2, x)

/-- symbolic.py:586-650 `to_sparse` and mps.py:657-664 for a tensor whose entries are factor and matrix (`ops[abs(expr)]`).  The left bond of a row vector and the right bond of
a column vector have one state with label zero (symbolic.py:618, 630). -/
def Tensor.sparse {Q K : Type} [DecidableEq Q] [AddCommGroup Q] [Zero K] [Mul K] [Add K] (label : O → Q) (t : Tensor O (K × OpT Q K)) : Option (OpT Q K) :=
  toSparse 0 (match t.mat with | .row _ => [0] | _ => t.lop.map label) (match t.mat with | .col _ => [0] | _ => t.rop.map label)
    (t.cells.map fun c => ⟨c.1, c.2.1, c.2.2.1, c.2.2.2⟩)

/-- symbolic.py:76-128: a vector with `n` zeros, after the assignments `ps`. -/
def vector (n : Nat) (ps : List (Nat × Option α)) : List (Option α) := ps.foldl (fun d p => d.set p.1 p.2) (List.replicate n none)

end Symbolic

namespace ConvMpo
variable {K : Type} [Field K] [DecidableEq K]
open Hamiltonian

/-- symbolic_mpo.py:153-491: the symbolic tensor of site `m`, after `deflate` (symbolic.py:263-272), with the matrices of `get_site_ops` in place of the symbols.  A row vector for
the first site, a column vector for the last one (lines 155-162). -/
def symbolicTensor (tiny : K → Bool) (t : Bool → Nat → Nat → K) (v : Bool → Bool → Nat → Nat → Nat → Nat → K) (g : List Nat) (sym : Bool) (n m : Nat) :
    Option (Symbolic.Tensor (Sym K) (K × OpT SZ K)) :=
  ((puts v g sym n m).mapM fun p => (cell tiny t v g m p).map fun c => ((p.row, p.col), c.map fun c => (c.factor, c.op))).map fun es =>
    let lshape := 2 + 4 * n + 12 * m * m
    let rshape := 2 + 4 * n + 12 * (m + 1) * (m + 1)
    ⟨if m = 0 then .row (Symbolic.vector rshape (es.map fun e => (e.1.2, e.2)))
      else if m + 1 = n then .col (Symbolic.vector lshape (es.map fun e => (e.1.1, e.2)))
      else .full lshape rshape (es.filter fun e => e.2.isSome), lop g n m, rop g n m⟩

/-- `hamil.build_qc_mpo().simplify().to_sparse()`. -/
def buildSimplified (tiny : K → Bool) (x : Fcidump.Integrals K) (orbSym : List Nat) (sym : Bool) : Option (List (OpT SZ K)) :=
  ((List.range orbSym.length).mapM (symbolicTensor tiny x.t x.v orbSym sym orbSym.length)).bind fun ts =>
    (Symbolic.simplifyMpo ts).bind fun ts' => ts'.mapM (Symbolic.Tensor.sparse (·.label))

end ConvMpo
end Verif
