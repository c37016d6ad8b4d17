import Verif.Model.Compress
import Mathlib.Algebra.Field.Defs

/-!
Model of `MPS.get_bipartite_entanglement`, `/repo/pyblock3/algebra/mps.py:370-387`, for sites that are block-sparse tensors.

The code reads `s.data`, which only flat tensors have.  The flat decompositions agree with the block ones (C69), and the data of the flat tensor of
singular values are the values of its blocks one after the other (flat.py:209, impl/flat.py:219), so the model has block-sparse sites.  The dense
routines and the logarithm are parameters.  The entropy is `none` where numpy gives `nan`: if all the values are zero.
-/

namespace Verif

namespace SpT
variable {Q V : Type}

/-- mps.py:383: `s.data`, the values of all blocks. -/
def valueData (s : SpT Q V) : List V := s.flatMap fun b => (List.range (b.2.shape.headD 0)).map fun j => b.2.get [j]

end SpT

/-- mps.py:383-386: entropy of the squared values after their normalisation; `none`: zero divided by zero. -/
def entropyOf {V : Type} [Field V] [DecidableEq V] (log : V → V) (data : List V) : Option V :=
  let ldsq := data.map fun x => x ^ 2
  if ldsq.sum = 0 then none
  else
    let p := (ldsq.map fun x => x / ldsq.sum).filter fun x => decide (x ≠ 0)
    some (p.map fun x => -x * log x).sum

namespace Mps
variable {Q K V : Type} [DecidableEq Q] [Zero Q] [Zero K] [Add K] [Mul K]

/-- mps.py:377-383: the singular values on each bond from the first one to the last one; `T` is the current site and `ts` are those behind it. -/
def bondValues (c : V → K) (svd : Arr K → Arr K × Arr V × Arr K) : List (SpT Q K) → SpT Q K → Option (List (SpT Q V))
  | T' :: ts, T =>
    let f := SpT.leftSvd svd T
    (SpT.tensordotN (SpT.diagOf c f.2.1) f.2.2 1).bind fun sr => (SpT.tensordotN sr T' 1).bind fun N =>
      (bondValues c svd ts N).map fun r => f.2.1 :: r
  | [], _ => some []

/-- mps.py:370-387 `get_bipartite_entanglement`; `none`: there are no sites (an array of negative length). -/
def bipartiteEntanglement [Field V] [DecidableEq V] (c : V → K) (qr : Arr K → Arr K × Arr K) (svd : Arr K → Arr K × Arr V × Arr K) (log : V → V)
    (a : Mps Q K) : Option (List (Option V)) :=
  (rightSweep qr a.tensors).bind fun ts => match ts with
    | T :: ts => (bondValues c svd ts T).map fun vals => vals.map fun s => entropyOf log (SpT.valueData s)
    | [] => none

end Mps
end Verif
