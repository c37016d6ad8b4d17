import Verif.Model.Heisenberg
import Verif.Model.BuildMpo
import Verif.Model.SiteOps

/-!
Model of `Heisenberg.build_mpo` (`/repo/pyblock3/heisenberg.py:92-134`) followed by `to_sparse`: the terms are put in one tensor, split over the sites, and the
symbols of each site are replaced by matrices (`get_site_ops`, 136-209).
-/

namespace Verif
namespace Heisenberg
variable {K : Type}

/-- heisenberg.py:95-96: the symbols for the identity and for the whole operator. -/
def iSymbol [One K] : OpElement Name SZ K := ⟨.i, [], 1, 0⟩
def hSymbol [One K] : OpElement Name SZ K := ⟨.h, [], 1, 0⟩

section
variable [Field K]

/-- heisenberg.py:176-189 `get_op`. -/
def getOp (sqrt : Int → K) (twos : Int) (e : OpElement Name SZ K) : Option (OpT SZ K) :=
  match e.name with
  | .i => iOp twos
  | .h => hOp twos
  | .sp => spOp sqrt twos
  | .sm => smOp sqrt twos
  | .sz => szOp twos
  | _ => none

/-- heisenberg.py:199-200, 204-205: the matrix of a string. -/
def stringOp (sqrt : Int → K) (twos : Int) (s : OpString Name SZ K) : Option (OpT SZ K) :=
  ((s.ops.mapM (getOp sqrt twos)).bind Hamiltonian.reduceMatmul).map (OpT.smul s.factor)

/-- heisenberg.py:195-207: what a symbol stands for becomes a matrix.  A sum starts from the number 0, here a tensor without blocks. -/
def valueOp (sqrt : Int → K) (twos : Int) : OpVal Name SZ K → Option (OpT SZ K)
  | .num _ => none
  | .elem e => getOp sqrt twos e
  | .str s => stringOp sqrt twos s
  | .sum l => l.foldlM (fun acc o => o.bind fun s => (stringOp sqrt twos s).map acc.add) ⟨[], []⟩

/-- The matrix that the dictionary of a tensor has for a symbol, after heisenberg.py:128-130.  (The entries are converted when they are looked up; entries that are
not looked up are not converted.) -/
def lookup (sqrt : Int → K) (twos : Int) (ops : Dict (BuildMpo.Key Name) (OpVal Name SZ K)) (e : OpElement Name SZ K) : Option (OpT SZ K) :=
  (Dict.get? ops (BuildMpo.key e)).bind (valueOp sqrt twos)

/-- mps.py:657-664 and symbolic.py:633-644: the tensor of a site that is not the last one. -/
def siteTensor (sqrt : Int → K) (twos : Int) (m : BuildMpo.SiteMatrix Name SZ K) : Option (OpT SZ K) :=
  (m.entries.mapM fun p => (lookup sqrt twos m.ops p.2).map fun T => (⟨p.1.1, p.1.2, p.2.factor, T⟩ : Symbolic.Cell SZ K)).bind
    (Symbolic.toSparse 0 (m.lop.map (·.label)) (m.rop.map (·.label)))

/-- mps.py:657-664 and symbolic.py:621-632: the last tensor, one column with label zero. -/
def lastTensor (sqrt : Int → K) (twos : Int) (col : BuildMpo.Column Name SZ K) : Option (OpT SZ K) :=
  ((col.mat.zipIdx.filterMap fun p => p.1.map fun e => (p.2, e)).mapM fun p =>
    (lookup sqrt twos col.ops p.2).map fun T => (⟨p.1, 0, p.2.factor, T⟩ : Symbolic.Cell SZ K)).bind
    (Symbolic.toSparse 0 (col.lop.map (·.label)) [0])

/-- heisenberg.py:128-131: the tensors of the sites, one after the other. -/
def tensorsFrom (sqrt : Int → K) (twos : Int) : List (BuildMpo.SiteMatrix Name SZ K) → BuildMpo.Column Name SZ K → Option (List (OpT SZ K))
  | [], col => (lastTensor sqrt twos col).map fun W => [W]
  | m :: ms, col => (siteTensor sqrt twos m).bind fun W => (tensorsFrom sqrt twos ms col).map fun ws => W :: ws

/-- heisenberg.py:92-134 `build_mpo` followed by `to_sparse`; without the constant, which is kept next to the tensors.  Sites of a bond outside of
`0 ≤ i < n_sites` are not modelled (numpy would count negative ones from the end and raise for large ones). -/
def buildMpo {V : Type} [DecidableEq K] (sqrt : Int → K) (small : K → Bool) (c : V → K) (svd : Arr K → Arr K × Arr V × Arr K) (big : V → Bool) (twos : Int)
    (nSites : Nat) (topology : List (Int × Int × K)) : Option (List (OpT SZ K)) :=
  (hExpr small topology).bind fun l =>
    (BuildMpo.split (.x, .xl, .xr) small c svd big iSymbol (List.range (nSites - 1))
      ⟨[hSymbol], [some hSymbol], [(BuildMpo.key (hSymbol (K := K)), .sum (l.map some))]⟩).bind fun r => tensorsFrom sqrt twos r.1 r.2

end
end Heisenberg
end Verif
