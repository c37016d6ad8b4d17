import Verif.Model.Fermion
import Verif.Model.TrimSvd

/-!
Model of the factorisations of fermionic tensors, `tensor_svd` and `tensor_qr` of `SparseFermionTensor`,
`/repo/pyblock3/algebra/fermion.py:358-441, 623-861`.

`np.linalg.svd` and `np.linalg.qr` are parameters.  Singular values have their own type `V`; `c` is the conversion that numpy does when it multiplies
them with the entries of a tensor.  Axes are not negative.  Blocks with a dimension 0 make numpy raise in `reshape(..., -1)`; they are not excluded
here.  The cached attribute `shape` is not modelled.
-/

namespace Verif
namespace FermSplit
variable {Q K V : Type} [DecidableEq Q]

/-- fermion_symmetry.py:97-115 `_compute(pattern, labels, offset=("-", dq))`: the label of the new leg. -/
def leftLabel [AddCommGroup Q] (pattern : List Bool) (qs : List Q) (dq : Q) : Q :=
  (BondFusingInfo.signedLabels (qs ++ [dq]) (pattern ++ [false])).foldl (· + ·) 0

/-- fermion.py:678-685: `row_map`, `col_map`: where the rows (columns) of some labels are: begin, end, dimensions. -/
abbrev Places (Q : Type) := Dict (List Q) (Nat × Nat × List Nat)

/-- fermion.py:678-685: reserve a range, unless the labels have one. -/
def reserve (st : Places Q × Nat) (x : List Q × List Nat) : Places Q × Nat :=
  if Dict.has st.1 x.1 then st else (Dict.set st.1 x.1 (st.2, st.2 + x.2.prod, x.2), st.2 + x.2.prod)

/-- `data[ist:ied, jst:jed] = b` for a matrix `data`. -/
def assign2 (d : Arr K) (ist ied jst jed : Nat) (b : Arr K) : Arr K :=
  ⟨d.shape, fun ix => if ist ≤ ix.getD 0 0 ∧ ix.getD 0 0 < ied ∧ jst ≤ ix.getD 1 0 ∧ ix.getD 1 0 < jed then
    b.get [ix.getD 0 0 - ist, ix.getD 1 0 - jst] else d.get ix⟩

/-- A sector: label of the new leg, tables of the rows and of the columns, matrix. -/
structure Sector (Q K : Type) where
  label : Q
  rows : Places Q
  cols : Places Q
  data : Arr K

/-- fermion.py:672-692 and 818-838: the matrix of the blocks `bs` with the same label on the new leg; `n` legs are on the left.  (`reshape(ied-ist, jst-jed)`
has a negative dimension, which numpy replaces by the one that fits.) -/
def sector [Zero K] (n : Nat) (q : Q) (bs : SpT Q K) : Sector Q K :=
  let rows := (bs.map fun b => (b.1.take n ++ [q], b.2.shape.take n)).foldl reserve ([], 0)
  let cols := (bs.map fun b => (q :: b.1.drop n, b.2.shape.drop n)).foldl reserve ([], 0)
  ⟨q, rows.1, cols.1, bs.foldl (fun d b =>
    let r := (Dict.get? rows.1 (b.1.take n ++ [q])).getD (0, 0, [])
    let c := (Dict.get? cols.1 (q :: b.1.drop n)).getD (0, 0, [])
    assign2 d r.1 r.2.1 c.1 c.2.1 (b.2.reshape [r.2.1 - r.1, c.2.1 - c.1])) (Arr.zeros [rows.2, cols.2])⟩

/-- fermion.py:656-694 and 806-840: all sectors whose matrix is not empty. -/
def sectors [AddCommGroup Q] [Zero K] (n : Nat) (pattern : List Bool) (dq : Q) (T : SpT Q K) : List (Sector Q K) :=
  ((groupBy (fun b => leftLabel (pattern.take n) (b.1.take n) dq) T).map fun g => sector n g.1 g.2).filter fun s => s.data.shape.prod ≠ 0

/-- fermion.py:733-735 and 847-850: the rows of `u` as blocks. -/
def leftBlocks (s : Sector Q K) (u : Arr K) : SpT Q K :=
  s.rows.map fun r => (r.1, (u.sliceAxis 0 r.2.1 (r.2.2.1 - r.2.1)).reshape (r.2.2.2 ++ [u.shape.getLastD 0]))

/-- fermion.py:737-739 and 851-853: the columns of `v` as blocks. -/
def rightBlocks (s : Sector Q K) (v : Arr K) : SpT Q K :=
  s.cols.map fun r => (r.1, (v.sliceAxis 1 r.2.1 (r.2.2.1 - r.2.1)).reshape (v.shape.headD 0 :: r.2.2.2))

/-- fermion.py:382-401 `_maybe_transpose_tensor`. -/
def reorder [Zero Q] [Ring K] (par : Q → Nat) (T : FermT Q K) (left right : List Nat) : FermT Q K :=
  if left ++ right = List.range T.blocks.ndim then T else T.transpose par (some (left ++ right))

/-- fermion.py:1107-1112 `dq`; there is none for a tensor without blocks. -/
def charge [AddCommGroup Q] (T : FermT Q K) : Option Q :=
  T.blocks.head?.map fun b => (BondFusingInfo.signedLabels b.1 T.pattern).foldl (· + ·) 0

/-- fermion.py:650-652 and 779-781: the axes not in `left_idx`. -/
def rest (n : Nat) (left : List Nat) : Option (List Nat) → List Nat
  | some r => r
  | none => (List.range n).filter fun i => i ∉ left

/-- fermion.py:696-705: the values above the threshold (`big`), with the columns and rows that belong to them; nothing if there are none. -/
def screened (big : V → Bool) (svd : Arr K → Arr K × Arr V × Arr K) (s : Sector Q K) : Option (Sector Q K × List V × Arr K × Arr K) :=
  let f := svd s.data
  let ind := (List.range (f.2.1.shape.headD 0)).filter fun j => big (f.2.1.get [j])
  if ind = [] then none else some (s, ind.map fun j => f.2.1.get [j], f.1.pickLast ind, f.2.2.pickFirst ind)

/-- `u * s.reshape((1, -1))`. -/
def scaleCols [Mul K] (u : Arr K) (s : List K) (d : K) : Arr K := ⟨u.shape, fun ix => u.get ix * s.getD (ix.getD 1 0) d⟩

/-- `v * s.reshape((-1, 1))`. -/
def scaleRows [Mul K] (v : Arr K) (s : List K) (d : K) : Arr K := ⟨v.shape, fun ix => v.get ix * s.getD (ix.getD 0 0) d⟩

/-- fermion.py:358-380 `_absorb_svd` with fermion.py:709-717; `root` is the square root.  `absorb = none`: nothing is absorbed. -/
def absorbed [Mul K] [Zero K] (c : V → K) (root : V → V) (absorb : Option Int) (s : List V) (uv : Arr K × Arr K) : Arr K × Arr K :=
  match absorb with
  | none => uv
  | some a =>
    if s.length = 0 then uv
    else if a = -1 then (scaleCols uv.1 (s.map c) 0, uv.2)
    else if a = 1 then (uv.1, scaleRows uv.2 (s.map c) 0)
    else (scaleCols uv.1 (s.map fun x => c (root x)) 0, scaleRows uv.2 (s.map fun x => c (root x)) 0)

/-- `np.diag` of a list of values. -/
def diagonal [Zero K] (s : List K) : Arr K := ⟨[s.length, s.length], fun ix => if ix.getD 0 0 = ix.getD 1 0 then s.getD (ix.getD 0 0) 0 else 0⟩

/-- What `tensor_svd` returns. -/
structure Svd (Q K : Type) where
  u : FermT Q K
  s : Option (FermT Q K)
  v : FermT Q K

/-- fermion.py:623-750 `sparse_svd` with 403-441 `_svd_preprocess`.  `none` is an exception: a tensor without blocks (no charge), all axes on one side, a partition that does not
add up, options rejected by the truncation, no value left (`u.shape[-1]`). -/
def sparseSvd [AddCommGroup Q] [Ring K] [Zero V] [Add V] [Mul V] [LE V] [LT V] [DecidableLE V] [DecidableLT V] [Max V] [Div V]
    (par : Q → Nat) (c : V → K) (svd : Arr K → Arr K × Arr V × Arr K) (big : V → Bool) (argsort : List V → List Nat) (root : V → V)
    (cutoff : V) (mode : Nat) (cap : Trim.Cap) (renorm : Bool) (pow rroot : V → V) (absorb : Option Int) (partition : Option (Q × Q))
    (T : FermT Q K) (left : List Nat) (right : Option (List Nat)) : Option (Svd Q K) :=
  let right := rest T.blocks.ndim left right
  (charge T).bind fun dq =>
    if max left.length right.length = T.blocks.ndim then none else
    let part := partition.getD (if absorb = some (-1) then (dq, 0) else (0, dq))
    if partition.isSome ∧ part.1 + part.2 ≠ dq then none else
    let newT := reorder par T left right
    let n := left.length
    let dec := (sectors n newT.pattern part.1 newT.blocks).filterMap (screened big svd)
    (Trim.trimAndRenorm argsort cutoff mode cap renorm pow rroot (dec.map fun x => x.2.1) (dec.map fun x => x.2.2)).bind fun t =>
      let fin := ((dec.map Prod.fst).zip (t.1.zip t.2)).map fun x => (x.1, x.2.1, absorbed c root absorb x.2.1 x.2.2)
      let fin := fin.filter fun x => x.2.2.1.shape.prod ≠ 0
      if fin = [] then none else some
        ⟨⟨newT.pattern.take n ++ [false], fin.flatMap fun x => leftBlocks x.1 x.2.2.1⟩,
          if absorb = none then some ⟨[true, false], fin.map fun x => ([x.1.label, x.1.label], diagonal (x.2.1.map c))⟩ else none,
          ⟨true :: newT.pattern.drop n, fin.flatMap fun x => rightBlocks x.1 x.2.2.2⟩⟩

/-- fermion.py:841-845: factors of one matrix. -/
def factors (qr : Arr K → Arr K × Arr K) (isQr : Bool) (a : Arr K) : Arr K × Arr K :=
  if isQr then qr a else
    let f := qr (a.transpose [1, 0])
    (f.2.transpose [1, 0], f.1.transpose [1, 0])

/-- fermion.py:752-758 and 783-801: no legs on one side: a factor with one leg that carries the charge.  (It starts from the tensor as it was, not from the
transposed one.) -/
def nullFactors [Ring K] (isQr : Bool) (dq : Q) (T : FermT Q K) : FermT Q K × FermT Q K :=
  let one : FermT Q K := ⟨[true], [([dq], ⟨[1], fun _ => 1⟩)]⟩
  if isQr then (one, ⟨false :: T.pattern, T.blocks.map fun b => (dq :: b.1, b.2.reshape (1 :: b.2.shape))⟩)
  else (⟨T.pattern ++ [false], T.blocks.map fun b => (b.1 ++ [dq], b.2.reshape (b.2.shape ++ [1]))⟩, one)

/-- fermion.py:760-861 `sparse_qr`; `isQr` is `mod == "qr"`.  `none` is an exception: a tensor without blocks. -/
def sparseQr [AddCommGroup Q] [Ring K] (par : Q → Nat) (qr : Arr K → Arr K × Arr K) (isQr : Bool) (T : FermT Q K) (left : List Nat)
    (right : Option (List Nat)) : Option (FermT Q K × FermT Q K) :=
  let right := rest T.blocks.ndim left right
  (charge T).bind fun dq =>
    if left.length = T.blocks.ndim ∨ right.length = T.blocks.ndim then some (nullFactors isQr dq T) else
    let newT := reorder par T left right
    let n := left.length
    let dec := sectors n newT.pattern (if isQr then dq else 0) newT.blocks
    if dec = [] then none else some
      (⟨newT.pattern.take n ++ [false], dec.flatMap fun s => leftBlocks s (factors qr isQr s.data).1⟩,
        ⟨true :: newT.pattern.drop n, dec.flatMap fun s => rightBlocks s (factors qr isQr s.data).2⟩)

end FermSplit
end Verif
