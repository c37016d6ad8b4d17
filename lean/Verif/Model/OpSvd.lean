import Verif.Model.OpCanon

/-!
Model of the block singular value decomposition of `FermionTensor`, `/repo/pyblock3/algebra/core.py:2009-2075`.

`np.linalg.svd` is an arbitrary function on arrays; its contract is that of `full_matrices=False`.  The singular values have their own type.
-/

namespace Verif
namespace OpT
variable {Q K V : Type} [DecidableEq Q] [Zero Q] [Zero K]

/-- core.py:2024-2036: the blocks of the left factor, with the number of the part they belong to. -/
def svdRows (svd : Arr K → Arr K × Arr V × Arr K) (groups : Dict Q (List (Bool × (List Q × Arr K)))) : List (Bool × (List Q × Arr K)) :=
  groups.flatMap fun g =>
    let f := svd (stackLeft (g.2.map fun x => x.2.2))
    List.zipWith (fun x p => (x.1, (x.2.1, p))) g.2 (leftPieces f.1 (f.2.1.shape.getD 0 0) (g.2.map fun x => x.2.2))

/-- core.py:2009-2041 `left_svd`; the groups of lines 2016-2022 are those of `left_canonicalize`. -/
def leftSvd (svd : Arr K → Arr K × Arr V × Arr K) (A : OpT Q K) : OpT Q K × SpT Q V × SpT Q K :=
  let groups := rowGroups A
  let us := svdRows svd groups
  (⟨(us.filter fun x => x.1 = true).map Prod.snd, (us.filter fun x => x.1 = false).map Prod.snd⟩,
    groups.map fun g => ([g.1], (svd (stackLeft (g.2.map fun x => x.2.2))).2.1),
    groups.map fun g => ([g.1, g.1], (svd (stackLeft (g.2.map fun x => x.2.2))).2.2))

/-- core.py:2058-2070: the blocks of the right factor, with the number of the part they belong to. -/
def svdCols (svd : Arr K → Arr K × Arr V × Arr K) (groups : Dict Q (List (Bool × (List Q × Arr K)))) : List (Bool × (List Q × Arr K)) :=
  groups.flatMap fun g =>
    List.zipWith (fun x p => (x.1, (x.2.1, p))) g.2 (rightPieces (svd (stackRight (g.2.map fun x => x.2.2))).2.2 (g.2.map fun x => x.2.2))

/-- core.py:2043-2075 `right_svd`; the groups of lines 2050-2056 are those of `right_canonicalize`. -/
def rightSvd (svd : Arr K → Arr K × Arr V × Arr K) (A : OpT Q K) : SpT Q K × SpT Q V × OpT Q K :=
  let groups := colGroups A
  let vs := svdCols svd groups
  (groups.map fun g => ([g.1, g.1], (svd (stackRight (g.2.map fun x => x.2.2))).1),
    groups.map fun g => ([g.1], (svd (stackRight (g.2.map fun x => x.2.2))).2.1),
    ⟨(vs.filter fun x => x.1 = true).map Prod.snd, (vs.filter fun x => x.1 = false).map Prod.snd⟩)

end OpT
end Verif
