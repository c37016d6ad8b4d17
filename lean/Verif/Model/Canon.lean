import Verif.Model.Fuse
import Verif.Model.Mps

/-!
Model of the block QR and singular value factorisations of `SparseTensor`, `/repo/pyblock3/algebra/core.py:1033-1149`, and of
`MPS.canonicalize`, `/repo/pyblock3/algebra/mps.py:306-326`.

The dense routines `np.linalg.qr` and `np.linalg.svd` are arbitrary functions on arrays.  Only `mode='reduced'` and `full_matrices=False` are
modelled (these are what `canonicalize` and `compress` use).
-/

namespace Verif

/-- `list(itertools.accumulate(l))`, starting from `s`. -/
def accumulateFrom (s : Nat) : List Nat → List Nat
  | [] => []
  | x :: xs => (s + x) :: accumulateFrom (s + x) xs

namespace Arr
variable {K : Type}

/-- `np.split(a, cuts, axis=m)`; `k` is where the next piece starts. -/
def split (m : Nat) (a : Arr K) (k : Nat) : List Nat → List (Arr K)
  | [] => [a.sliceAxis m k (a.shape.getD m 0 - k)]
  | c :: cs => a.sliceAxis m k (c - k) :: split m a c cs

end Arr

/-- core.py:1042-1047: items collected by a label, in the order of the first occurrence. -/
def groupBy {Q β : Type} [DecidableEq Q] (key : β → Q) (l : List β) : Dict Q (List β) :=
  l.foldl (fun m b => Dict.set m (key b) ((Dict.get? m (key b)).getD [] ++ [b])) []

section
variable {K : Type} [Zero K]

/-- core.py:1050-1052 and 1106-1108: the blocks of one right label as matrices, one above the other. -/
def stackLeft (as : List (Arr K)) : Arr K :=
  Arr.concat 0 (as.map fun a => a.reshape [a.shape.dropLast.prod, a.shape.prod / a.shape.dropLast.prod])

/-- core.py:1080-1082: the blocks of one left label as transposed matrices, one above the other. -/
def stackRightT (as : List (Arr K)) : Arr K :=
  Arr.concat 0 (as.map fun a => (a.reshape [a.shape.prod / a.shape.tail.prod, a.shape.tail.prod]).transpose [1, 0])

/-- core.py:1135-1137: the blocks of one left label as matrices, side by side. -/
def stackRight (as : List (Arr K)) : Arr K :=
  Arr.concat 1 (as.map fun a => a.reshape [a.shape.prod / a.shape.tail.prod, a.shape.tail.prod])

omit [Zero K] in
/-- core.py:1056-1060 and 1110-1113: the orthogonal factor cut back into blocks; `k` is the new bond dimension. -/
def leftPieces (u : Arr K) (k : Nat) (as : List (Arr K)) : List (Arr K) :=
  List.zipWith (fun p a => p.reshape (a.shape.dropLast ++ [k]))
    (u.split 0 0 (accumulateFrom 0 (as.map fun a => a.shape.dropLast.prod).dropLast)) as

omit [Zero K] in
/-- core.py:1086-1090. -/
def rightPiecesT (u : Arr K) (k : Nat) (as : List (Arr K)) : List (Arr K) :=
  List.zipWith (fun p a => (p.transpose [1, 0]).reshape (k :: a.shape.tail))
    (u.split 0 0 (accumulateFrom 0 (as.map fun a => a.shape.tail.prod).dropLast)) as

omit [Zero K] in
/-- core.py:1139-1142. -/
def rightPieces (vh : Arr K) (as : List (Arr K)) : List (Arr K) :=
  List.zipWith (fun p a => p.reshape (vh.shape.getD 0 0 :: a.shape.tail))
    (vh.split 1 0 (accumulateFrom 0 (as.map fun a => a.shape.tail.prod).dropLast)) as

end

namespace SpT
variable {Q K : Type} [DecidableEq Q] [Zero Q] [Zero K]

/-- core.py:1042-1061 `left_canonicalize`. -/
def leftCanonicalize (qr : Arr K → Arr K × Arr K) (T : SpT Q K) : SpT Q K × SpT Q K :=
  let groups := groupBy (fun b => b.1.getLastD 0) T
  (groups.flatMap fun g =>
      let f := qr (stackLeft (g.2.map Prod.snd))
      (g.2.map Prod.fst).zip (leftPieces f.1 (f.2.shape.getD 0 0) (g.2.map Prod.snd)),
    groups.map fun g => ([g.1, g.1], (qr (stackLeft (g.2.map Prod.snd))).2))

/-- core.py:1063-1090 `right_canonicalize`; the first component is the factor on the left. -/
def rightCanonicalize (qr : Arr K → Arr K × Arr K) (T : SpT Q K) : SpT Q K × SpT Q K :=
  let groups := groupBy (fun b => b.1.getD 0 0) T
  (groups.map fun g => ([g.1, g.1], (qr (stackRightT (g.2.map Prod.snd))).2.transpose [1, 0]),
    groups.flatMap fun g =>
      let f := qr (stackRightT (g.2.map Prod.snd))
      (g.2.map Prod.fst).zip (rightPiecesT f.1 (f.2.shape.getD 0 0) (g.2.map Prod.snd)))

/-- core.py:1091-1118 `left_svd`.  The singular values have their own type. -/
def leftSvd {V : Type} (svd : Arr K → Arr K × Arr V × Arr K) (T : SpT Q K) : SpT Q K × SpT Q V × SpT Q K :=
  let groups := groupBy (fun b => b.1.getLastD 0) T
  (groups.flatMap fun g =>
      let f := svd (stackLeft (g.2.map Prod.snd))
      (g.2.map Prod.fst).zip (leftPieces f.1 (f.2.1.shape.getD 0 0) (g.2.map Prod.snd)),
    groups.map fun g => ([g.1], (svd (stackLeft (g.2.map Prod.snd))).2.1),
    groups.map fun g => ([g.1, g.1], (svd (stackLeft (g.2.map Prod.snd))).2.2))

/-- core.py:1120-1149 `right_svd`. -/
def rightSvd {V : Type} (svd : Arr K → Arr K × Arr V × Arr K) (T : SpT Q K) : SpT Q K × SpT Q V × SpT Q K :=
  let groups := groupBy (fun b => b.1.getD 0 0) T
  (groups.map fun g => ([g.1, g.1], (svd (stackRight (g.2.map Prod.snd))).1),
    groups.map fun g => ([g.1], (svd (stackRight (g.2.map Prod.snd))).2.1),
    groups.flatMap fun g =>
      (g.2.map Prod.fst).zip (rightPieces (svd (stackRight (g.2.map Prod.snd))).2.2 (g.2.map Prod.snd)))

end SpT

namespace Mps
variable {Q K : Type} [DecidableEq Q] [Zero Q] [Zero K] [Add K] [Mul K]

/-- mps.py:318-321: left canonicalisation of the first `c` sites. -/
def leftSweep (qr : Arr K → Arr K × Arr K) : Nat → List (SpT Q K) → Option (List (SpT Q K))
  | 0, ts => some ts
  | c + 1, T :: T' :: ts =>
    let f := SpT.leftCanonicalize qr T
    (SpT.tensordotN f.2 T' 1).bind fun N => (leftSweep qr c (N :: ts)).map fun r => f.1 :: r
  | _ + 1, _ => none

/-- mps.py:322-325: right canonicalisation of all the given sites but the first, from the last one on. -/
def rightSweep (qr : Arr K → Arr K × Arr K) : List (SpT Q K) → Option (List (SpT Q K))
  | T :: T' :: ts => (rightSweep qr (T' :: ts)).bind fun r => match r with
    | N :: r =>
      let f := SpT.rightCanonicalize qr N
      (SpT.tensordotN T f.1 1).map fun M => M :: f.2 :: r
    | [] => none
  | ts => some ts

/-- mps.py:306-326 `canonicalize`; `none`: the assertion on the centre fails. -/
def canonicalize (qr : Arr K → Arr K × Arr K) (a : Mps Q K) (center : Int) : Option (Mps Q K) :=
  let c := if center < 0 then (a.tensors.length : Int) + center else center
  if 0 ≤ c ∧ c < a.tensors.length then
    (leftSweep qr c.toNat a.tensors).bind fun ts =>
      (rightSweep qr (ts.drop c.toNat)).map fun r => ⟨ts.take c.toNat ++ r, a.const⟩
  else none

end Mps
end Verif
