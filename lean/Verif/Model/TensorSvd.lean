import Verif.Model.FermSvd

/-!
Model of `SparseTensor.tensor_svd`, `/repo/pyblock3/algebra/core.py:1149-1221`, with `linfo = rinfo = None` and `full_matrices=False`.

`np.linalg.svd` is a parameter.  Singular values have their own type `V`.  `leL` compares tuples of labels.  `real` is what happens to a number that is
stored in a matrix made by `np.zeros` (line 1174): nothing if it is a real number; a complex number loses its imaginary part (numpy warns).
-/

namespace Verif
namespace SpT
variable {Q K V : Type} [DecidableEq Q] [AddCommGroup Q] [Zero K]

/-- core.py:1176, 1184-1198, for one label `q`: the matrix with the blocks that have this label, placed by the two tables.  (The code fills the matrices of all
labels in one loop over the blocks.) -/
def svdMatrix (real : K → K) (n : Nat) (R C : Nat) (rows cols : FuseTable Q) (bs : SpT Q K) : Arr K :=
  bs.foldl (fun d b =>
    let lf := (Dict.get? rows (b.1.take n)).getD (0, [])
    let rf := (Dict.get? cols (b.1.drop n)).getD (0, [])
    FermSplit.assign2 d lf.1 (lf.1 + lf.2.prod) rf.1 (rf.1 + rf.2.prod) ((b.2.reshape [lf.2.prod, rf.2.prod]).mapK real)) (Arr.zeros [R, C])

/-- core.py:1203-1206 and 1212-1214: a label equal to the previous one is skipped. -/
def skipRepeats {α : Type} [DecidableEq α] : Option α → List α → List α
  | _, [] => []
  | p, x :: xs => if p = some x then skipRepeats p xs else x :: skipRepeats (some x) xs

/-- core.py:1201-1211: the rows of `u` as blocks. -/
def svdLeft (leL : List Q → List Q → Bool) (q : Q) (rows : FuseTable Q) (labels : List (List Q)) (u : Arr K) : SpT Q K :=
  (skipRepeats none (sortBy leL labels)).map fun qs =>
    let f := (Dict.get? rows qs).getD (0, [])
    (qs ++ [q], (u.sliceAxis 0 f.1 f.2.prod).reshape (f.2 ++ [u.shape.getLastD 0]))

/-- core.py:1202, 1212-1220: the columns of `vh` as blocks. -/
def svdRight (leL : List Q → List Q → Bool) (q : Q) (cols : FuseTable Q) (labels : List (List Q)) (vh : Arr K) : SpT Q K :=
  (skipRepeats none (sortBy leL labels)).map fun qs =>
    let f := (Dict.get? cols qs).getD (0, [])
    (q :: qs, (vh.sliceAxis 1 f.1 f.2.prod).reshape (vh.shape.headD 0 :: f.2))

/-- core.py:1149-1221 `tensor_svd`.  `none` is a failing `assert`: the cut is at an end (line 1156), the same labels with two shapes (`kron_sum`), or the labels
on the left do not add up to those on the right (line 1186). -/
def tensorSvd (leL : List Q → List Q → Bool) (svd : Arr K → Arr K × Arr V × Arr K) (real : K → K) (n : Nat) (pattern : List Bool) (T : SpT Q K) :
    Option (SpT Q K × SpT Q V × SpT Q K) :=
  if n < 1 ∨ T.ndim < n + 1 then none else
  let patL := pattern.take n
  let patR := (pattern.drop n).map (!·)
  (BondFusingInfo.kronSum leL (T.map fun b => (b.1.take n, b.2.shape.take n)) none patL).bind fun linfo =>
  (BondFusingInfo.kronSum leL (T.map fun b => (b.1.drop n, b.2.shape.drop n)) none patR).bind fun rinfo =>
  if T.any (fun b => decide (BondFusingInfo.combine (b.1.take n) patL ≠ BondFusingInfo.combine (b.1.drop n) patR)) then none else
  let parts := (BondInfo.inter linfo.quanta rinfo.quanta).map fun x =>
    let q := x.1
    let bs := T.filter fun b => decide (BondFusingInfo.combine (b.1.take n) patL = q)
    let rows := (Dict.get? linfo.finfo q).getD []
    let cols := (Dict.get? rinfo.finfo q).getD []
    let f := svd (svdMatrix real n (Counter.count linfo.quanta q) (Counter.count rinfo.quanta q) rows cols bs)
    (svdLeft leL q rows (bs.map fun b => b.1.take n) f.1, ([q], f.2.1), svdRight leL q cols (bs.map fun b => b.1.drop n) f.2.2)
  some (parts.flatMap (·.1), parts.map (·.2.1), parts.flatMap (·.2.2))

end SpT
end Verif
