import Verif.Model.OpT

/-!
Model of the conversion of symbolic tensors to block-sparse tensors, `/repo/pyblock3/symbolic/symbolic.py`.
-/

namespace Verif
namespace Symbolic

/-- symbolic.py:213-217, the first loop of `from_op_names`: positions collected by label, and the number of positions of each
label. -/
def collect {L : Type} [DecidableEq L] (qs : List L) : Dict L (List Nat) × Counter L :=
  qs.zipIdx.foldl (fun st p =>
    (Dict.set st.1 p.1 ((Dict.get? st.1 p.1).getD [] ++ [p.2]), Counter.incr st.2 p.1 1)) ([], [])

/-- symbolic.py:218-220, the inner loop `for iiv, iv in enumerate(v): qs[iv] = (q, iiv)`. -/
def assign {L : Type} (q : L) (v : List Nat) (out : List (Option (L × Nat))) : List (Option (L × Nat)) :=
  v.zipIdx.foldl (fun out p => out.set p.1 (some (q, p.2))) out

/-- symbolic.py:206-221 `SymbolicBondFusingInfo.from_op_names`, from the list of the labels of the operators: the table
`q_labels` and the counter `n_states`.  An entry of the table that the loop has not reached is `none` here; in Python it still
holds the bare label. -/
def fromOpNames {L : Type} [DecidableEq L] (qs : List L) : List (Option (L × Nat)) × Counter L :=
  let c := collect qs
  (c.1.foldl (fun out p => assign p.1 p.2 out) (qs.map fun _ => none), c.2)

section
variable {Q K : Type} [DecidableEq Q]

/-- symbolic.py:606-607: the array that is added by `blocks[il, ..., ir] += factor * block`, zero outside the slice. -/
def placed [Zero K] [Mul K] (nl nr il ir : Nat) (c : K) (a : Arr K) : Arr K :=
  ⟨nl :: a.shape ++ [nr], fun ix => if ix.head? = some il ∧ ix.getLast? = some ir then c * a.get ix.tail.dropLast else 0⟩

/-- symbolic.py:593-607, the loop of `add_block` over the blocks of one part.  (The element type of the array is not
modelled.) -/
def addBlock [AddCommGroup Q] [Zero K] [Mul K] [Add K] (dq : Q) (c : K) (l r : Q × Nat) (nl nr : Nat) (m : SpT Q K)
    (b : List Q × Arr K) : SpT Q K :=
  let qx := (dq - l.1) :: b.1 ++ [r.1]
  Dict.set m qx (((Dict.get? m qx).getD (Arr.zeros (nl :: b.2.shape ++ [nr]))).add (placed nl nr l.2 r.2 c b.2))

/-- One nonzero element of a symbolic matrix: its position, its factor and the operator it names (`ops[abs(expr)]`). -/
structure Cell (Q K : Type) where
  row : Nat
  col : Nat
  factor : K
  op : OpT Q K

/-- symbolic.py:634-644, one turn of the loop over a symbolic matrix.  `none`: the position is not in a table. -/
def putCell [AddCommGroup Q] [Zero K] [Mul K] [Add K] (dq : Q) (linfo rinfo : List (Option (Q × Nat)) × Counter Q)
    (m : OpT Q K) (e : Cell Q K) : Option (OpT Q K) :=
  match linfo.1[e.row]?.join, rinfo.1[e.col]?.join with
  | some l, some r =>
    let nl := Counter.count linfo.2 l.1
    let nr := Counter.count rinfo.2 r.1
    some ⟨e.op.odd.foldl (addBlock dq e.factor l r nl nr) m.odd, e.op.even.foldl (addBlock dq e.factor l r nl nr) m.even⟩
  | _, _ => none

/-- symbolic.py:586-650 `SymbolicSparseTensor.to_sparse` for a symbolic matrix, from the labels of the row and column operators
and the nonzero elements; without permutation of the legs (`idx_perm is None`).  A symbolic row (column) vector is the case of
a single row (column) with label zero, symbolic.py:609-632. -/
def toSparse [AddCommGroup Q] [Zero K] [Mul K] [Add K] (dq : Q) (lq rq : List Q) (cells : List (Cell Q K)) : Option (OpT Q K) :=
  cells.foldlM (putCell dq (fromOpNames lq) (fromOpNames rq)) ⟨[], []⟩

end
end Symbolic
end Verif
