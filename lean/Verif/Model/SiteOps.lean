import Verif.Model.BuildMpo
import Verif.Model.Symbolic
import Verif.Model.Hamiltonian

/-!
Model of the last steps of `Hamiltonian.build_mpo` (`/repo/pyblock3/hamiltonian.py`): the symbols of each site are replaced by matrices
(`get_site_ops`), and the symbolic tensors by block tensors (`to_sparse`).
-/

namespace Verif
namespace Hamiltonian
variable {K : Type}

/-- The names of symbols (expr.py:28-50) as numbers; 0 and 1 are `C` and `D`, as in `opTable`. -/
def nameI : Nat := 2
def nameH : Nat := 3
def nameX : Nat := 4
def nameXL : Nat := 5
def nameXR : Nat := 6

/-- hamiltonian.py:212-214: the symbols for the identity and for the whole operator. -/
def iSymbol [One K] : OpElement Nat SZ K := ⟨nameI, [], 1, 0⟩
def hSymbol [One K] : OpElement Nat SZ K := ⟨nameH, [], 1, 0⟩

section
variable [Zero K] [Add K] [Mul K] [Neg K] [One K]

/-- hamiltonian.py:319-328 `get_op` for the symbols that `build_mpo` makes: `I`, `C` and `D`.  The symbols of the conventional Hamiltonian (`H`, `A`, `R`,
...) are in `Verif.ConvMpo.getOp`; spin indices other than 0 and 1 are not modelled. -/
def getOp (ipg : Nat) (e : OpElement Nat SZ K) : Option (OpT SZ K) :=
  if e.name = nameI then iOp ipg
  else match e.site with
    | _ :: s :: _ =>
      if s = 0 ∨ s = 1 then
        if e.name = 0 then cOp ipg (decide (s = 1)) else if e.name = 1 then dOp ipg (decide (s = 1)) else none
      else none
    | _ => none

/-- `reduce(np.matmul, ops)`. -/
def reduceMatmul : List (OpT SZ K) → Option (OpT SZ K)
  | [] => none
  | a :: t => t.foldlM (OpT.matmul SZ.isFermion) a

/-- hamiltonian.py:394-395, 399-400: the matrix of a string. -/
def stringOp (ipg : Nat) (s : OpString Nat SZ K) : Option (OpT SZ K) :=
  ((s.ops.mapM (getOp ipg)).bind reduceMatmul).map (OpT.smul s.factor)

/-- hamiltonian.py:391-402: what a symbol stands for becomes a matrix.  A sum starts from the number 0, here a tensor without blocks; adding the number 0 to
a tensor leaves it as it is, and `to_sparse` skips numbers.  A zero among the strings of a sum raises, as does a number. -/
def valueOp (ipg : Nat) : OpVal Nat SZ K → Option (OpT SZ K)
  | .num _ => none
  | .elem e => getOp ipg e
  | .str s => stringOp ipg s
  | .sum l => l.foldlM (fun acc o => o.bind fun s => (stringOp ipg s).map acc.add) ⟨[], []⟩

/-- The matrix that the dictionary of a tensor has for a symbol, after hamiltonian.py:251-253.  (The entries of the dictionary are converted when they are
looked up; entries that are not looked up are not converted.) -/
def lookup (ipg : Nat) (ops : Dict (BuildMpo.Key Nat) (OpVal Nat SZ K)) (e : OpElement Nat SZ K) : Option (OpT SZ K) :=
  (Dict.get? ops (BuildMpo.key e)).bind (valueOp ipg)

/-- mps.py:657-664 and symbolic.py:633-644: the tensor of a site that is not the last one.  The charge of the operator is zero. -/
def siteTensor (ipg : Nat) (m : BuildMpo.SiteMatrix Nat SZ K) : Option (OpT SZ K) :=
  (m.entries.mapM fun p => (lookup ipg m.ops p.2).map fun T => (⟨p.1.1, p.1.2, p.2.factor, T⟩ : Symbolic.Cell SZ K)).bind
    (Symbolic.toSparse 0 (m.lop.map (·.label)) (m.rop.map (·.label)))

/-- mps.py:657-664 and symbolic.py:621-632: the last tensor, one column with label zero. -/
def lastTensor (ipg : Nat) (col : BuildMpo.Column Nat SZ K) : Option (OpT SZ K) :=
  ((col.mat.zipIdx.filterMap fun p => p.1.map fun e => (p.2, e)).mapM fun p =>
    (lookup ipg col.ops p.2).map fun T => (⟨p.1, 0, p.2.factor, T⟩ : Symbolic.Cell SZ K)).bind
    (Symbolic.toSparse 0 (col.lop.map (·.label)) [0])

/-- hamiltonian.py:251-257: the tensors of the sites `i`, `i + 1`, ... -/
def tensorsFrom (orbSym : List Nat) : Nat → List (BuildMpo.SiteMatrix Nat SZ K) → BuildMpo.Column Nat SZ K → Option (List (OpT SZ K))
  | i, [], col => (lastTensor (orbSym.getD i 0) col).map fun W => [W]
  | i, m :: ms, col => (siteTensor (orbSym.getD i 0) m).bind fun W => (tensorsFrom orbSym (i + 1) ms col).map fun ws => W :: ws

end

/-- hamiltonian.py:211-258 `build_mpo` followed by `to_sparse`, from the list of terms; without the constant, which is kept next to the tensors. -/
def buildMpo {V : Type} [CommRing K] [DecidableEq K] (small : K → Bool) (c : V → K) (svd : Arr K → Arr K × Arr V × Arr K) (big : V → Bool) (orbSym : List Nat)
    (terms : List (Option (OpString Nat SZ K))) : Option (List (OpT SZ K)) :=
  (BuildMpo.build (nameX, nameXL, nameXR) small c svd big iSymbol hSymbol orbSym.length terms).bind fun r => tensorsFrom orbSym 0 r.1 r.2

end Hamiltonian
end Verif
