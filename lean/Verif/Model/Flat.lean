import Verif.Model.Fuse

/-!
Model of the flat storage of block-sparse tensors, `/repo/pyblock3/algebra/flat.py:125-765`, and of the
Python kernels in `/repo/pyblock3/algebra/impl/flat.py`.

Labels are packed to codes of a type `C` (`uint32` in the code).  The two-dimensional integer arrays
`q_labels` and `shapes` are lists of rows.  `data` is a list; `idxs` are the block offsets.  A loop
`for i in range(n_blocks)` over parallel arrays is written with `zip`.  Fixed width of the integers is not
modelled.
-/

namespace Verif

namespace Arr
variable {K : Type}

/-- `a.ravel()`: entries in row-major order. -/
def toList (a : Arr K) : List K := (List.range a.shape.prod).map fun k => a.get (unravel a.shape k)

/-- `data.reshape(sh)` for a one-dimensional `data`. -/
def ofList [Zero K] (sh : List Nat) (data : List K) : Arr K := ⟨sh, fun ix => data.getD (ravel sh ix) 0⟩

end Arr

/-- `l[i:j]`. -/
def pySlice {α : Type} (l : List α) (i j : Nat) : List α := (l.drop i).take (j - i)

/-- `l[i:i+len(xs)] = xs`. -/
def sliceAssign {α : Type} (l : List α) (i : Nat) (xs : List α) : List α :=
  l.take i ++ xs ++ l.drop (i + xs.length)

/-- `l[i:i+len(xs)] += xs`. -/
def sliceAdd {K : Type} [Add K] (l : List K) (i : Nat) (xs : List K) : List K :=
  l.take i ++ List.zipWith (· + ·) (l.drop i) xs ++ l.drop (i + xs.length)

/-- `np.delete(l, dd, axis=0)`. -/
def npDelete {α : Type} (l : List α) (dd : List Nat) : List α :=
  (l.zipIdx.filter fun p => !dd.contains p.2).map Prod.fst

/-- flat.py:130-143: the stored arrays. -/
structure Flat (C K : Type) where
  qs : List (List C)
  shs : List (List Nat)
  data : List K
  idxs : List Nat

namespace Flat
variable {C Q K : Type}

/-- flat.py:137-138, 189-190: `idxs[0] = n`, `idxs[1:] = n + cumsum(shapes.prod(axis=1))`. -/
def offsets (n : Nat) : List (List Nat) → List Nat
  | [] => [n]
  | s :: ss => n :: offsets (n + s.prod) ss

/-- flat.py:130-143 `__init__` with `idxs=None`. -/
def mk' (qs : List (List C)) (shs : List (List Nat)) (data : List K) : Flat C K :=
  ⟨qs, shs, data, offsets 0 shs⟩

/-- `data[idxs[i]:idxs[i + 1]]`. -/
def block (F : Flat C K) (i : Nat) : List K := pySlice F.data (F.idxs.getD i 0) (F.idxs.getD (i + 1) 0)

/-- flat.py:162-168 `to_sparse`; `dec` is `qcls.from_flat`. -/
def toSparse [Zero K] (dec : C → Q) (F : Flat C K) : SpT Q K :=
  (F.qs.zip F.shs).zipIdx.map fun p => (p.1.1.map dec, Arr.ofList p.1.2 (F.block p.2))

/-- flat.py:178-192 `from_sparse`; `enc` is `qcls.to_flat`. -/
def fromSparse [Zero K] (enc : Q → C) (T : SpT Q K) : Flat C K :=
  let shs := T.map fun b => b.2.shape
  let idxs := offsets 0 shs
  let data := (T.zip idxs).foldl (fun d p => sliceAssign d p.2 p.1.2.toList)
    (List.replicate (idxs.getLastD 0) 0)
  ⟨T.map fun b => b.1.map enc, shs, data, idxs⟩

variable [DecidableEq C]

/-- impl/flat.py:81-99 `flat_sparse_add`: the loop over the blocks of `b`; state `(data, dd, bmats)`. -/
def addStep [Add K] (A B : Flat C K) (m : Dict (List C) Nat) (st : List K × List Nat × List (List K))
    (p : List C × Nat) : List K × List Nat × List (List K) :=
  match Dict.get? m p.1 with
  | some ia => (sliceAdd st.1 (A.idxs.getD ia 0) (B.block p.2), st.2.1 ++ [p.2], st.2.2)
  | none => (st.1, st.2.1, st.2.2 ++ [B.block p.2])

/-- impl/flat.py:82: `{q.tobytes(): iq for iq, q in enumerate(aqs)}`. -/
def blocksMap (qs : List (List C)) : Dict (List C) Nat :=
  qs.zipIdx.foldl (fun m p => Dict.set m p.1 p.2) []

/-- impl/flat.py:81-99 `flat_sparse_add`. -/
def addImpl [Add K] (A B : Flat C K) : Flat C K :=
  let st := B.qs.zipIdx.foldl (addStep A B (blocksMap A.qs)) (A.data, [], [])
  mk' (A.qs ++ npDelete B.qs st.2.1) (A.shs ++ npDelete B.shs st.2.1) (st.1 ++ st.2.2.flatten)

/-- flat.py:536-551 `_add` for two tensors. -/
def add [Add K] (A B : Flat C K) : Flat C K :=
  if B.qs.length = 0 then A else if A.qs.length = 0 then B else addImpl A B

/-- `-b.data`. -/
def neg [Neg K] (B : Flat C K) : Flat C K := { B with data := B.data.map (- ·) }

/-- flat.py:556-571 `_subtract` for two tensors. -/
def subtract [Add K] [Neg K] (A B : Flat C K) : Flat C K :=
  if B.qs.length = 0 then A else if A.qs.length = 0 then neg B else addImpl A (neg B)

/-- flat.py:346-358: product with a number. -/
def smul [Mul K] (c : K) (A : Flat C K) : Flat C K := { A with data := A.data.map (c * ·) }

/-- impl/flat.py:356-360 and flat.py:722-747 `_transpose` with explicit axes. -/
def transpose [Zero C] [Zero K] (axes : List Nat) (A : Flat C K) : Flat C K :=
  if A.qs.length = 0 then A else
  ⟨A.qs.map (pick axes), A.shs.map (pick axes),
    (A.shs.zipIdx.map fun p => ((Arr.ofList p.1 (A.block p.2)).transpose axes).toList).flatten, A.idxs⟩

/-- State of the loop in impl/flat.py:50-73. -/
structure TdState (C K : Type) where
  map : Dict (List C) Nat
  idxs : List Nat
  qs : List (List C)
  shs : List (List Nat)
  mats : List (List K)

/-- impl/flat.py:60-72: one product of blocks. -/
def tdStep [Add K] (st : TdState C K) (outq : List C) (mat : Arr K) : TdState C K :=
  match Dict.get? st.map outq with
  | none => ⟨Dict.set st.map outq st.qs.length, st.idxs ++ [st.idxs.getLastD 0 + mat.shape.prod],
      st.qs ++ [outq], st.shs ++ [mat.shape], st.mats ++ [mat.toList]⟩
  | some i => { st with mats := st.mats.modify i fun m => List.zipWith (· + ·) m mat.toList }

/-- impl/flat.py:43-48: indices of the blocks of `b` by contracted labels. -/
def mapIdxB [Zero C] (bqs : List (List C)) (idxb : List Nat) : Dict (List C) (List Nat) :=
  bqs.zipIdx.foldl (fun m p =>
    Dict.set m (pick idxb p.1) ((Dict.get? m (pick idxb p.1)).getD [] ++ [p.2])) []

/-- impl/flat.py:55-72: the products of one block of `a`. -/
def tdOuter [Zero C] [Add K] [Mul K] [Zero K] (A B : Flat C K) (mB : Dict (List C) (List Nat))
    (idxa idxb outa outb : List Nat) (st : TdState C K) (a : (List C × List Nat) × Nat) : TdState C K :=
  let mata := Arr.ofList a.1.2 (A.block a.2)
  match Dict.get? mB (pick idxa a.1.1) with
  | none => st
  | some l => l.foldl (fun st ib =>
      let outq := pick outa a.1.1 ++ pick outb (B.qs.getD ib [])
      let matb := Arr.ofList (B.shs.getD ib []) (B.block ib)
      tdStep st outq (mata.tensordot matb idxa idxb outa outb)) st

/-- impl/flat.py:32-78 `flat_sparse_tensordot` (axes already normalised to nonnegative). -/
def tensordot [Zero C] [Add K] [Mul K] [Zero K] (A B : Flat C K) (idxa idxb outa outb : List Nat) : Flat C K :=
  if A.qs.length = 0 then A else if B.qs.length = 0 then B else
  let st := (A.qs.zip A.shs).zipIdx.foldl (tdOuter A B (mapIdxB B.qs idxb) idxa idxb outa outb)
    ⟨[], [0], [], [], []⟩
  ⟨st.qs, st.shs, st.mats.flatten, st.idxs⟩

end Flat
end Verif
