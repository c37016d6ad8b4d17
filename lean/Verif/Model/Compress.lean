import Verif.Model.Trunc

/-!
Model of `MPS.compress`, `/repo/pyblock3/algebra/mps.py:328-368`, for sites that are block-sparse tensors (`SparseTensor`).

The dense routines `numpy.linalg.qr` and `numpy.linalg.svd` are parameters.  Singular values have their own type `V`; `c` is the conversion that
numpy does when it multiplies them with the entries of a tensor.
-/

namespace Verif

namespace SpT
variable {Q K V : Type} [DecidableEq Q] [Zero Q] [Zero K]

/-- core.py:1325-1345 and 206-222: `diag` of a tensor with one leg. -/
def diagOf (c : V → K) (s : SpT Q V) : SpT Q K :=
  s.map fun b => (b.1 ++ b.1, ⟨[b.2.shape.headD 0, b.2.shape.headD 0], fun ix => if ix.getD 0 0 = ix.getD 1 0 then c (b.2.get [ix.getD 0 0]) else 0⟩)

end SpT

namespace Mps
variable {Q K V : Type} [DecidableEq Q] [Zero Q] [Zero K] [Add K] [Mul K]
variable [Zero V] [Add V] [Mul V] [LE V] [DecidableLE V] [DecidableEq V]

/-- mps.py:361-367: from the first bond to the last one; `T` is the current site and `ts` are those behind it.  The second component has the errors
of the bonds. -/
def svdForward (c : V → K) (svd : Arr K → Arr K × Arr V × Arr K) (o : TruncOpts V) (sqrt : V → V) (big : Arr K → Bool) :
    List (SpT Q K) → SpT Q K → Option (List (SpT Q K) × List V)
  | T' :: ts, T =>
    let f := SpT.leftSvd svd T
    let t := SpT.truncateSvd o sqrt big f.1 f.2.1 f.2.2
    (SpT.tensordotN (SpT.diagOf c t.s) t.r 1).bind fun sr => (SpT.tensordotN sr T' 1).bind fun N =>
      (svdForward c svd o sqrt big ts N).map fun r => (t.l :: r.1, t.error :: r.2)
  | [], T => some ([T], [])

/-- mps.py:349-355: from the last bond to the first one. -/
def svdBackward (c : V → K) (svd : Arr K → Arr K × Arr V × Arr K) (o : TruncOpts V) (sqrt : V → V) (big : Arr K → Bool) :
    List (SpT Q K) → Option (List (SpT Q K) × List V)
  | T :: T' :: ts => (svdBackward c svd o sqrt big (T' :: ts)).bind fun r => match r with
    | (N :: rest, errs) =>
      let f := SpT.rightSvd svd N
      let t := SpT.truncateSvd o sqrt big f.1 f.2.1 f.2.2
      (SpT.tensordotN t.l (SpT.diagOf c t.s) 1).bind fun ls => (SpT.tensordotN T ls 1).map fun M => (M :: t.r :: rest, t.error :: errs)
    | ([], _) => none
  | ts => some (ts, [])

/-- mps.py:328-368 `compress`.  The returned error is the largest error of a bond (mps.py:341, 355, 367). -/
def compress [Max V] (c : V → K) (qr : Arr K → Arr K × Arr K) (svd : Arr K → Arr K × Arr V × Arr K) (o : TruncOpts V) (sqrt : V → V)
    (big : Arr K → Bool) (left : Bool) (a : Mps Q K) : Option (Mps Q K × V) :=
  let swept := if left then (leftSweep qr (a.tensors.length - 1) a.tensors).bind (svdBackward c svd o sqrt big)
    else (rightSweep qr a.tensors).bind fun ts => match ts with
      | T :: ts => svdForward c svd o sqrt big ts T
      | [] => some ([], [])
  swept.map fun r => (⟨r.1, a.const⟩, r.2.foldl max 0)

end Mps
end Verif
