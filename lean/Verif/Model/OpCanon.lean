import Verif.Model.Canon
import Verif.Model.MpsProd

/-!
Model of the block QR factorisation of `FermionTensor`, `/repo/pyblock3/algebra/core.py:1943-2007`.

`np.linalg.qr` is an arbitrary function on arrays; only `mode='reduced'` is modelled.
-/

namespace Verif
namespace OpT
variable {Q K : Type} [DecidableEq Q] [Zero Q] [Zero K]

/-- core.py:1953: the blocks with the number of their part, first the odd ones. -/
def taggedBlocks (A : OpT Q K) : List (Bool × (List Q × Arr K)) := A.odd.map (fun b => (true, b)) ++ A.even.map (fun b => (false, b))

/-- core.py:1952-1958: the blocks of both parts collected by their last label. -/
def rowGroups (A : OpT Q K) : Dict Q (List (Bool × (List Q × Arr K))) := groupBy (fun x => x.2.1.getLastD 0) (taggedBlocks A)

/-- core.py:1960-1974: the blocks of the first factor, with the number of the part they belong to. -/
def rowFactors (qr : Arr K → Arr K × Arr K) (groups : Dict Q (List (Bool × (List Q × Arr K)))) : List (Bool × (List Q × Arr K)) :=
  groups.flatMap fun g =>
    let f := qr (stackLeft (g.2.map fun x => x.2.2))
    List.zipWith (fun x p => (x.1, (x.2.1, p))) g.2 (leftPieces f.1 (f.2.shape.getD 0 0) (g.2.map fun x => x.2.2))

/-- core.py:1943-1975 `left_canonicalize`. -/
def leftCanonicalize (qr : Arr K → Arr K × Arr K) (A : OpT Q K) : OpT Q K × SpT Q K :=
  let groups := rowGroups A
  let qs := rowFactors qr groups
  (⟨(qs.filter fun x => x.1 = true).map Prod.snd, (qs.filter fun x => x.1 = false).map Prod.snd⟩,
    groups.map fun g => ([g.1, g.1], (qr (stackLeft (g.2.map fun x => x.2.2))).2))

/-- core.py:1984-1990: the blocks of both parts collected by their first label. -/
def colGroups (A : OpT Q K) : Dict Q (List (Bool × (List Q × Arr K))) := groupBy (fun x => x.2.1.getD 0 0) (taggedBlocks A)

/-- core.py:1991-2006: the blocks of the second factor, with the number of the part they belong to. -/
def colFactors (qr : Arr K → Arr K × Arr K) (groups : Dict Q (List (Bool × (List Q × Arr K)))) : List (Bool × (List Q × Arr K)) :=
  groups.flatMap fun g =>
    let f := qr (stackRightT (g.2.map fun x => x.2.2))
    List.zipWith (fun x p => (x.1, (x.2.1, p))) g.2 (rightPiecesT f.1 (f.2.shape.getD 0 0) (g.2.map fun x => x.2.2))

/-- core.py:1977-2007 `right_canonicalize`; the first component is the factor on the left. -/
def rightCanonicalize (qr : Arr K → Arr K × Arr K) (A : OpT Q K) : SpT Q K × OpT Q K :=
  let groups := colGroups A
  let qs := colFactors qr groups
  (groups.map fun g => ([g.1, g.1], (qr (stackRightT (g.2.map fun x => x.2.2))).2.transpose [1, 0]),
    ⟨(qs.filter fun x => x.1 = true).map Prod.snd, (qs.filter fun x => x.1 = false).map Prod.snd⟩)

end OpT
end Verif
