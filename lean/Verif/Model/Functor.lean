import Verif.Model.Flat
import Verif.Model.MpeLocal

/-!
Model of the fast product of a local operator of two tensors with a local state, `FlatSparseFunctor` (`/repo/pyblock3/algebra/flat_functor.py`), with its kernels
in `/repo/src/flat_functor.cpp`.

The state is a vector (the data of a tensor with all allowed blocks).  The product is carried out by a plan of matrix products on offsets of the data.
Labels are not packed: a code is a label, and `code & 8` is `isF`.  Hash tables of label rows are replaced by comparison of the rows (the code compares the rows
after each lookup, too); the order of the blocks of the intermediate tensor, which the code takes from a hash table, is the order of first occurrence.  Fixed
width of integers and the parallel version (`mpi=True`) are not modelled.  `none` is an exception or a failing `assert`.
-/

namespace Verif

/-- An operator tensor in flat storage: fermion.py:1625-1640 `FlatFermionTensor`. -/
structure FlatOp (Q K : Type) where
  odd : Flat Q K
  even : Flat Q K

/-- The two parts of the operator tensor as block lists. -/
def FlatOp.sparse {Q K : Type} [Zero K] (W : FlatOp Q K) : OpT Q K := ⟨W.odd.toSparse id, W.even.toSparse id⟩

/-- The rows `(labels, shape)` of a flat tensor. -/
def Flat.rows {Q K : Type} (F : Flat Q K) : List (List Q × List Nat) := F.qs.zip F.shs

namespace Functor
variable {Q K : Type} [DecidableEq Q]

/-- flat_functor.py:61: `lo.n_blocks == 0 and le.n_blocks == 0`. -/
def noBlocks (W : FlatOp Q K) : Bool := W.odd.qs.isEmpty && W.even.qs.isEmpty

/-- flat_functor.cpp:197-202: number of legs. -/
def ndim (W : FlatOp Q K) : Nat := if W.odd.qs.length ≠ 0 then (W.odd.qs.headD []).length else (W.even.qs.headD []).length

/-- flat_functor.cpp:205-240: dimensions of the labels of leg `i`; a later block overwrites an earlier one. -/
def legDict [Zero Q] (W : FlatOp Q K) (i : Nat) : BondInfo Q :=
  (W.odd.rows ++ W.even.rows).foldl (fun d b => Dict.set d (b.1.getD i 0) (b.2.getD i 0)) []

/-- flat_functor.cpp:241: number of row legs. -/
def nphys (W : FlatOp Q K) : Nat := (ndim W - 2) / 2

/-- flat_functor.cpp:242-257 `cinfos`: first leg, column legs of both tensors, last leg. -/
def cinfos [Zero Q] (l r : FlatOp Q K) : List (BondInfo Q) :=
  legDict l 0 :: (List.range' (1 + nphys l) (nphys l)).map (legDict l) ++ (List.range' (1 + nphys r) (nphys r)).map (legDict r) ++ [legDict r (ndim r - 1)]

/-- flat_functor.cpp:242-257 `vinfos`: first leg, row legs of both tensors, last leg. -/
def vinfos [Zero Q] (l r : FlatOp Q K) : List (BondInfo Q) :=
  legDict l 0 :: (List.range' 1 (nphys l)).map (legDict l) ++ (List.range' 1 (nphys r)).map (legDict r) ++ [legDict r (ndim r - 1)]

/-- main.cpp:153-159 `__or__`: `insert` keeps what is there. -/
def orInfo (x y : BondInfo Q) : BondInfo Q := y.foldl (fun d p => if Dict.has d p.1 then d else Dict.set d p.1 p.2) x

/-- flat_sparse.cpp:799-843 `skeleton` and flat_functor.py:97-101: the tensor with all allowed blocks, filled with zeros. -/
def zeros [AddCommGroup Q] [Zero K] (le : Q → Q → Bool) (infos : List (BondInfo Q)) (pattern : List Bool) (dq : Option Q) : Option (Flat Q K) :=
  (SpT.skeleton le infos (some pattern) dq).map fun l =>
    Flat.mk' (l.map Prod.snd) (l.map Prod.fst) (List.replicate ((l.map fun b => b.1.prod).sum) 0)

/-- flat_functor.py:84 `q_labels[:, :-1]`: without the last leg. -/
def initLegs (F : Flat Q K) : Flat Q K := { F with qs := F.qs.map List.dropLast, shs := F.shs.map List.dropLast }

/-- flat_functor.py:169 `q_labels[:, 1:]`: without the first leg. -/
def tailLegs (F : Flat Q K) : Flat Q K := { F with qs := F.qs.map List.tail, shs := F.shs.map List.tail }

/-- flat_functor.py:155-156 `q_labels[:, 1:-1]`. -/
def innerLegs (F : Flat Q K) : Flat Q K := initLegs (tailLegs F)

/-- The axes that are not in the list, in order (flat_functor.cpp:482-492). -/
def rest (n : Nat) (idx : List Nat) : List Nat := (List.range n).filter fun i => !idx.contains i

/-- flat_functor.cpp:330-375 and 560-585: the pairs of rows with equal contracted labels, by index. -/
def pairs [Zero Q] (a b : List (List Q)) (ia ib : List Nat) : List (Nat × Nat) :=
  a.zipIdx.flatMap fun x => (b.zipIdx.filter fun y => pick ib y.1 == pick ia x.1).map fun y => (x.2, y.2)

/-- flat_functor.cpp:570-582: labels of the product of a pair. -/
def outRow {α : Type} [Zero α] (ia ib : List Nat) (x y : List α) : List α := pick (rest x.length ia) x ++ pick (rest y.length ib) y

/-- flat_functor.cpp:259-415 `tensordot_skeleton`: labels and shapes of the products, each once. -/
def tdSkeleton [Zero Q] (a b : List (List Q × List Nat)) (ia ib : List Nat) : List (List Q × List Nat) :=
  (pairs (a.map Prod.fst) (b.map Prod.fst) ia ib).foldl (fun m p =>
    let x := a.getD p.1 ([], [])
    let y := b.getD p.2 ([], [])
    let q := outRow ia ib x.1 y.1
    if (m.map Prod.fst).contains q then m else m ++ [(q, outRow ia ib x.2 y.2)]) []

/-- A row of the plan (flat_functor.cpp:593-598): where the contracted legs are in `a` and `b` (`true`: in front), the sizes of the product, the offsets of the
three blocks, and whether the sign is `-1`. -/
structure Gemm where
  ta : Bool
  tb : Bool
  m : Nat
  n : Nat
  k : Nat
  a : Nat
  b : Nat
  c : Nat
  neg : Bool

/-- flat_functor.cpp:452-478: where the contracted legs (consecutive, increasing) are: in front, or behind legs of dimension one only (`true`), or at the
end, or before legs of dimension one only (`false`). -/
def place (shs : List (List Nat)) (nd : Nat) (idx : List Nat) : Option Bool :=
  if idx.isEmpty then some true
  else if idx.headD 0 == 0 || shs.all (fun s => (s.take (idx.headD 0)).all (· == 1)) then some true
  else if idx.getLastD 0 + 1 == nd || shs.all (fun s => (s.drop (idx.getLastD 0 + 1)).all (· == 1)) then some false
  else none

/-- flat_functor.cpp:584-588: parity of the labels of `b` before the first contracted leg. -/
def signOf (isF : Q → Bool) (ferm : Bool) (ib : List Nat) (q : List Q) : Bool :=
  ferm && ((q.take (ib.headD 0)).filter isF).length % 2 == 1

/-- flat_functor.cpp:606-611: round `i` takes entry number `i` for each block of the result.  (The code has fewer rounds, as many as the longest list.) -/
def interleave {α : Type} (nc : Nat) (l : List (Nat × α)) : List (Nat × α) :=
  (List.range l.length).flatMap fun i => (List.range nc).filterMap fun ic => (l.filter fun e => e.1 == ic)[i]?

/-- flat_functor.cpp:419-618 `matmul_plan`, with the guards of flat_functor.py:159-176. -/
def plan [Zero Q] (isF : Q → Bool) (A B C : Flat Q K) (ia ib : List Nat) (ferm : Bool) : Option (List Gemm) :=
  if A.qs.length = 0 then some [] else
  if B.qs.length = 0 then none else
  (place A.shs (A.qs.headD []).length ia).bind fun ta => (place B.shs (B.qs.headD []).length ib).bind fun tb =>
  ((pairs A.qs B.qs ia ib).mapM fun p =>
    let qa := A.qs.getD p.1 []
    let qb := B.qs.getD p.2 []
    let sa := A.shs.getD p.1 []
    let sb := B.shs.getD p.2 []
    let q := outRow ia ib qa qb
    if C.qs.contains q then
      some (C.qs.idxOf q, Gemm.mk ta tb (pick (rest sa.length ia) sa).prod (pick (rest sb.length ib) sb).prod (pick ia sa).prod
        (A.idxs.getD p.1 0) (B.idxs.getD p.2 0) (C.idxs.getD (C.qs.idxOf q) 0) (signOf isF ferm ib qb))
    else none).map fun l => (interleave C.qs.length l).map Prod.snd

/-- flat_functor.cpp:144-187, one product: `c += alpha * op(a) op(b)` for row-major matrices at offsets; `op` transposes `a` when the contracted legs are in front and
`b` when they are at the end. -/
def gemmValues [Add K] [Mul K] [Zero K] [Neg K] (e : Gemm) (a b : List K) : List K :=
  (List.range (e.m * e.n)).map fun t =>
    let s := ((List.range e.k).map fun k => a.getD (e.a + if e.ta then k * e.m + t / e.n else t / e.n * e.k + k) 0 *
      b.getD (e.b + if e.tb then k * e.n + t % e.n else t % e.n * e.k + k) 0).sum
    if e.neg then -s else s

/-- flat_functor.cpp:144-187, the same: `beta` is one. -/
def gemm [Add K] [Mul K] [Zero K] [Neg K] (e : Gemm) (a b c : List K) : List K := sliceAdd c e.c (gemmValues e a b)

/-- flat_functor.cpp:144-187 `matmul`. -/
def run [Add K] [Mul K] [Zero K] [Neg K] (p : List Gemm) (a b c : List K) : List K := p.foldl (fun c e => gemm e a b c) c

end Functor

/-- flat_functor.py:112-133: the attributes of a `FlatSparseFunctor`. -/
structure FlatFunctor (Q K : Type) where
  l : FlatOp Q K
  r : FlatOp Q K
  const : K
  cmat : Flat Q K
  vmat : Flat Q K
  work : Flat Q K
  axtr : List Nat
  ro : List Functor.Gemm
  re : List Functor.Gemm
  lo : List Functor.Gemm
  le : List Functor.Gemm

namespace FlatFunctor
open Functor
variable {Q K : Type} [DecidableEq Q]

/-- flat_functor.py:56-104: the tensors for the argument and for the result of the product. -/
def initMats [AddCommGroup Q] [Zero K] (le : Q → Q → Bool) (l r : FlatOp Q K) (pattern : List Bool) (dq : Option Q) (symmetric : Bool) :
    Option (Flat Q K × Flat Q K) :=
  if symmetric then (zeros le (List.zipWith orInfo (cinfos l r) (vinfos l r)) pattern dq).map fun v => (v, v)
  else (zeros le (cinfos l r) pattern dq).bind fun c => (zeros le (vinfos l r) pattern dq).map fun v => (c, v)

/-- flat_functor.py:81-96: the intermediate tensor. -/
def initWork [Zero Q] [Zero K] (l r : FlatOp Q K) (c : Flat Q K) : Flat Q K :=
  let sk := tdSkeleton ((initLegs r.odd).rows ++ (initLegs r.even).rows) (innerLegs c).rows
    (List.range' (1 + nphys r) (nphys r)) (List.range' (nphys l) (nphys r))
  Flat.mk' (sk.map Prod.fst) (sk.map Prod.snd) (List.replicate ((sk.map fun b => b.2.prod).sum) 0)

/-- flat_functor.py:108-133 `__init__` for an operator of two tensors. -/
def new [AddCommGroup Q] [Zero K] (isF : Q → Bool) (le : Q → Q → Bool) (l r : FlatOp Q K) (const : K) (pattern : List Bool) (dq : Option Q)
    (symmetric : Bool) : Option (FlatFunctor Q K) :=
  if noBlocks l || noBlocks r then none else
  (initMats le l r pattern dq symmetric).bind fun cv =>
  let w := initWork l r cv.1
  let dl := nphys l
  let dr := nphys r
  let axtr := List.range' (dr + 1) dl ++ [0] ++ List.range' 1 dr
  let w2 := w.transpose axtr
  (plan isF (initLegs r.odd) (innerLegs cv.1) w (List.range' (1 + dr) dr) (List.range' dl dr) true).bind fun ro =>
  (plan isF (initLegs r.even) (innerLegs cv.1) w (List.range' (1 + dr) dr) (List.range' dl dr) false).bind fun re =>
  (plan isF (tailLegs l.odd) w2 (innerLegs cv.2) (List.range' dl (dl + 1)) (List.range' 0 (dl + 1)) true).bind fun lo =>
  (plan isF (tailLegs l.even) w2 (innerLegs cv.2) (List.range' dl (dl + 1)) (List.range' 0 (dl + 1)) false).map fun le =>
  ⟨l, r, const, cv.1, cv.2, w, axtr, ro, re, lo, le⟩

/-- flat_functor.py:178-195: the product before the constant. -/
def applyTensors [Zero Q] [Add K] [Mul K] [Zero K] [Neg K] (f : FlatFunctor Q K) (x : List K) : List K :=
  let w := run f.re f.r.even.data x (run f.ro f.r.odd.data x (List.replicate f.work.data.length 0))
  let w2 := ({ f.work with data := w }.transpose f.axtr).data
  run f.le f.l.even.data w2 (run f.lo f.l.odd.data w2 (List.replicate f.vmat.data.length 0))

/-- flat_functor.py:178-205 `__matmul__`.  Line 198 adds arrays of different sizes only when the second has one element. -/
def apply [Zero Q] [Add K] [Mul K] [Zero K] [Neg K] [DecidableEq K] (f : FlatFunctor Q K) (x : List K) : Option (List K) :=
  if x.length ≠ f.cmat.idxs.getLastD 0 then none else
  let v := f.applyTensors x
  if f.const ≠ 0 then
    if x.length = v.length then some (List.zipWith (fun y z => y + f.const * z) v x)
    else if x.length = 1 then some (v.map fun y => y + f.const * x.headD 0)
    else none
  else some v

/-- flat.py:292-302 `cast_assign`: the blocks of `T` with the labels of a block of `F`.  A slice assignment of a wrong size raises, except for one element. -/
def castAssign (F T : Flat Q K) : Option (Flat Q K) :=
  (F.qs.zipIdx.foldlM (fun (d : List K) (p : List Q × Nat) => match Dict.get? (Flat.blocksMap T.qs) p.1 with
    | none => some d
    | some ia =>
      let n := F.idxs.getD (p.2 + 1) 0 - F.idxs.getD p.2 0
      if (T.block ia).length = n then some (sliceAssign d (F.idxs.getD p.2 0) (T.block ia))
      else if (T.block ia).length = 1 then some (sliceAssign d (F.idxs.getD p.2 0) ((List.replicate n (T.block ia)).flatten))
      else none) F.data).map fun d => { F with data := d }

/-- flat_functor.py:207-208 `prepare_vector`. -/
def prepare [Zero K] (f : FlatFunctor Q K) (T : Flat Q K) : Option (List K) :=
  (castAssign { f.cmat with data := List.replicate f.cmat.data.length (0 : K) } T).map fun F => F.data

/-- flat_functor.py:210-212 `finalize_vector`. -/
def finalize (f : FlatFunctor Q K) (x : List K) : Flat Q K := { f.vmat with data := x }

/-- flat_functor.py:223-241 `GreensFunctionFunctor.__matmul__`: `(H + omega)^2 + eta^2` by two products with `H`. -/
def greenApply [Zero Q] [Add K] [Mul K] [Zero K] [Neg K] [DecidableEq K] (f : FlatFunctor Q K) (omega eta : K) (x : List K) : Option (List K) :=
  (f.apply x).bind fun b =>
  let b := if omega ≠ 0 then List.zipWith (fun y z => y + omega * z) b x else b
  (f.apply b).map fun c =>
  let c := if omega ≠ 0 then List.zipWith (fun y z => y + omega * z) c b else c
  if eta ≠ 0 then List.zipWith (fun y z => y + eta * eta * z) c x else c

end FlatFunctor
end Verif
