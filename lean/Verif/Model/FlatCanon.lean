import Verif.Model.Flat
import Verif.Model.Canon

/-!
Model of the QR and singular value factorisations of flat tensors, `/repo/pyblock3/algebra/flat.py:600-636` and the Python kernels in
`/repo/pyblock3/algebra/impl/flat.py:174-337`.

The dense routines are arbitrary functions on arrays, as in `Model/Canon.lean`.  Arrays filled by a loop (`qmats[ia] = …`, `qshs[v, -1] = …`)
are lists updated at one place.  `np.concatenate` raises for matrices that do not fit; here the width is that of the first one.
-/

namespace Verif
namespace Flat
variable {C K : Type} [DecidableEq C] [Zero C]

/-- impl/flat.py:175-180 and 275-280: numbers of the blocks collected by the last label. -/
def collectLast (qs : List (List C)) : Dict C (List Nat) :=
  groupBy (fun i => (qs.getD i []).getLastD 0) (List.range qs.length)

/-- impl/flat.py:225-230 and 308-313: numbers of the blocks collected by the first label. -/
def collectFirst (qs : List (List C)) : Dict C (List Nat) :=
  groupBy (fun i => (qs.getD i []).getD 0 0) (List.range qs.length)

section
variable [Zero K]
omit [DecidableEq C] [Zero C]

/-- impl/flat.py:197-200 and 290-293: `adata[…].reshape((sh, -1))` for the given blocks, one above the other. -/
def matRows (A : Flat C K) (v : List Nat) : Arr K :=
  Arr.concat 0 (v.map fun ia =>
    let sh := (A.shs.getD ia []).dropLast.prod
    Arr.ofList [sh, (A.block ia).length / sh] (A.block ia))

/-- impl/flat.py:323-326: `adata[…].reshape((-1, sh)).T` for the given blocks, one above the other. -/
def matRowsT (A : Flat C K) (v : List Nat) : Arr K :=
  Arr.concat 0 (v.map fun ia =>
    let sh := (A.shs.getD ia []).tail.prod
    (Arr.ofList [(A.block ia).length / sh, sh] (A.block ia)).transpose [1, 0])

/-- impl/flat.py:247-250: `adata[…].reshape((-1, sh))` for the given blocks, side by side. -/
def matCols (A : Flat C K) (v : List Nat) : Arr K :=
  Arr.concat 1 (v.map fun ia =>
    let sh := (A.shs.getD ia []).tail.prod
    Arr.ofList [(A.block ia).length / sh, sh] (A.block ia))

end

omit [DecidableEq C] [Zero C] in
/-- impl/flat.py:210 and 299: `np.split(l, list(accumulate(l_shapes[:-1])), axis=0)`. -/
def splitRows (A : Flat C K) (v : List Nat) (u : Arr K) : List (Arr K) :=
  u.split 0 0 (accumulateFrom 0 (v.map fun ia => (A.shs.getD ia []).dropLast.prod).dropLast)

omit [DecidableEq C] [Zero C] in
/-- impl/flat.py:260 (`m = 1`) and 332 (`m = 0`): the same with the sizes of the other legs. -/
def splitTail (A : Flat C K) (m : Nat) (v : List Nat) (u : Arr K) : List (Arr K) :=
  u.split m 0 (accumulateFrom 0 (v.map fun ia => (A.shs.getD ia []).tail.prod).dropLast)

/-- impl/flat.py:212 and 301: `lshs[v, -1] = k`. -/
def setLast (v : List Nat) (k : Nat) (shs : List (List Nat)) : List (List Nat) :=
  v.foldl (fun s ia => s.modify ia fun x => x.dropLast ++ [k]) shs

/-- impl/flat.py:262 and 334: `rshs[v, 0] = k`. -/
def setFirst (v : List Nat) (k : Nat) (shs : List (List Nat)) : List (List Nat) :=
  v.foldl (fun s ia => s.modify ia fun x => k :: x.tail) shs

/-- impl/flat.py:214-216, 264-266, 302-303 and 335-336: `for q, ia in zip(qs, v): qmats[ia] = q.ravel()`. -/
def putMats (ps : List (Arr K)) (v : List Nat) (ms : List (List K)) : List (List K) :=
  (ps.zip v).foldl (fun m p => m.set p.2 p.1.toList) ms

variable [Zero K]

/-- impl/flat.py:274-304 `flat_sparse_left_canonicalize` and flat.py:600-612 `left_canonicalize`. -/
def leftCanonicalize (qr : Arr K → Arr K × Arr K) (A : Flat C K) : Flat C K × Flat C K :=
  let groups := collectLast A.qs
  let st := groups.foldl (fun st g =>
      let f := qr (A.matRows g.2)
      (setLast g.2 (f.2.shape.getD 0 0) st.1, putMats (A.splitRows g.2 f.1) g.2 st.2))
    (A.shs, List.replicate A.qs.length [])
  (mk' A.qs st.1 st.2.flatten,
    mk' (groups.map fun g => [g.1, g.1]) (groups.map fun g => (qr (A.matRows g.2)).2.shape)
      (groups.map fun g => (qr (A.matRows g.2)).2.toList).flatten)

/-- impl/flat.py:307-337 `flat_sparse_right_canonicalize` and flat.py:614-624 `right_canonicalize`. -/
def rightCanonicalize (qr : Arr K → Arr K × Arr K) (A : Flat C K) : Flat C K × Flat C K :=
  let groups := collectFirst A.qs
  let st := groups.foldl (fun st g =>
      let f := qr (A.matRowsT g.2)
      (setFirst g.2 (f.2.shape.getD 0 0) st.1, putMats ((A.splitTail 0 g.2 f.1).map fun p => p.transpose [1, 0]) g.2 st.2))
    (A.shs, List.replicate A.qs.length [])
  (mk' (groups.map fun g => [g.1, g.1]) (groups.map fun g => (qr (A.matRowsT g.2)).2.shape.reverse)
      (groups.map fun g => ((qr (A.matRowsT g.2)).2.transpose [1, 0]).toList).flatten,
    mk' A.qs st.1 st.2.flatten)

/-- impl/flat.py:174-222 `flat_sparse_left_svd` with `indexed=True`: the three tensors and the order `lidx` of the blocks.  (With
`indexed=False` the kernel returns the last dense right factor instead.)  The singular values have their own type. -/
def leftSvd {V : Type} (svd : Arr K → Arr K × Arr V × Arr K) (A : Flat C K) : Flat C K × Flat C V × Flat C K × List Nat :=
  let groups := collectLast A.qs
  let st := groups.foldl (fun st g =>
      let f := svd (A.matRows g.2)
      (setLast g.2 (f.1.shape.getLastD 0) st.1, putMats (A.splitRows g.2 f.1) g.2 st.2))
    (A.shs, List.replicate A.qs.length [])
  let lidx := groups.flatMap Prod.snd
  (mk' (lidx.map fun i => A.qs.getD i []) (lidx.map fun i => st.1.getD i []) (lidx.map fun i => st.2.getD i []).flatten,
    mk' (groups.map fun g => [g.1]) (groups.map fun g => [(svd (A.matRows g.2)).2.1.shape.getD 0 0])
      (groups.map fun g => (svd (A.matRows g.2)).2.1.toList).flatten,
    mk' (groups.map fun g => [g.1, g.1]) (groups.map fun g => (svd (A.matRows g.2)).2.2.shape)
      (groups.map fun g => (svd (A.matRows g.2)).2.2.toList).flatten,
    lidx)

/-- impl/flat.py:224-271 `flat_sparse_right_svd` and flat.py:632-636 `right_svd`; the last component is the order `ridx` of the blocks. -/
def rightSvd {V : Type} (svd : Arr K → Arr K × Arr V × Arr K) (A : Flat C K) : Flat C K × Flat C V × Flat C K × List Nat :=
  let groups := collectFirst A.qs
  let st := groups.foldl (fun st g =>
      let f := svd (A.matCols g.2)
      (setFirst g.2 (f.2.2.shape.getD 0 0) st.1, putMats (A.splitTail 1 g.2 f.2.2) g.2 st.2))
    (A.shs, List.replicate A.qs.length [])
  let ridx := groups.flatMap Prod.snd
  (mk' (groups.map fun g => [g.1, g.1]) (groups.map fun g => (svd (A.matCols g.2)).1.shape)
      (groups.map fun g => (svd (A.matCols g.2)).1.toList).flatten,
    mk' (groups.map fun g => [g.1]) (groups.map fun g => [(svd (A.matCols g.2)).2.1.shape.getD 0 0])
      (groups.map fun g => (svd (A.matCols g.2)).2.1.toList).flatten,
    mk' (ridx.map fun i => A.qs.getD i []) (ridx.map fun i => st.1.getD i []) (ridx.map fun i => st.2.getD i []).flatten,
    ridx)

end Flat
end Verif
