import Verif.Model.Fermion
import Verif.Model.BondInfo

/-!
Model of `SparseFermionTensor.trace`, `/repo/pyblock3/algebra/fermion.py:1337-1371`, with `_trace_preprocess`, fermion.py:171-222.

Axes are non-negative and in range (a negative axis would be missed by `ix not in ax1+ax2`).  The cached attribute `shape` is not modelled.
-/

namespace Verif

/-- fermion.py:212-216 and 1361: `np.einsum` with the subscripts of `ax2` replaced by those of `ax1`. -/
def Arr.traceAxes {K : Type} [Zero K] [Add K] (a : Arr K) (ax1 ax2 out : List Nat) : Arr K :=
  ⟨pick out a.shape, fun ix => ((box (pick ax1 a.shape)).map fun k => a.get (unpick (ax1 ++ ax2 ++ out) (k ++ k ++ ix))).sum⟩

namespace FermT
variable {Q K : Type}

/-- fermion.py:207-210: the pairs of axes, the smaller one first. -/
def tracePairs (ax1 ax2 : List Nat) : List (Nat × Nat) := (ax1.zip ax2).map fun p => (min p.1 p.2, max p.1 p.2)

variable [AddCommGroup Q] [DecidableEq Q]

/-- fermion.py:1107-1112 `dq`: the charge of the first block.  `none`: `IndexError` without blocks. -/
def dq (T : FermT Q K) : Option Q := T.blocks.head?.map fun b => BondFusingInfo.combine b.1 T.pattern

/-- fermion.py:1345-1352: on each pair the signed labels of the block add up to zero. -/
def aligned (pattern : List Bool) (ps : List (Nat × Nat)) (qs : List Q) : Bool :=
  ps.all fun p => decide (BondFusingInfo.combine [qs.getD p.1 0, qs.getD p.2 0] [pattern.getD p.1 true, pattern.getD p.2 true] = 0)

/-- fermion.py:1343-1368: the two loops.  `none`: `einsum` meets two different dimensions for one subscript. -/
def traceBlocks [Ring K] (par : Q → Nat) (T : FermT Q K) (ps : List (Nat × Nat)) (out : List Nat) : Option (SpT Q K) :=
  let ax1 := ps.map Prod.fst
  let ax2 := ps.map Prod.snd
  let bs := T.blocks.filter fun b => aligned T.pattern ps b.1
  if bs.all fun b => decide (pick ax1 b.2.shape = pick ax2 b.2.shape) then
    some (bs.foldl (fun m b =>
      let phase := computePhase (b.1.map par) (ps.flatMap fun p => [p.1, p.2]) false
      SpT.accumulate m (pick out b.1) ((b.2.traceAxes ax1 ax2 out).mapK (· * ((phase : Int) : K)))) [])
  else none

/-- fermion.py:1337-1371 `trace`: a number if no leg is left, else a tensor.  `none`: an exception, also (simplified) if the two lists of axes do not
have the same length. -/
def trace [Ring K] (par : Q → Nat) (T : FermT Q K) (ax1 ax2 : List Nat) : Option (K ⊕ FermT Q K) :=
  if ax1.length ≠ ax2.length then none else
  T.dq.bind fun d =>
    let ps := tracePairs ax1 ax2
    let out := SpT.outAxes T.blocks.ndim (ax1 ++ ax2)
    if ps.length + ps.length = T.blocks.ndim ∧ d ≠ 0 then some (.inl 0) else
    (traceBlocks par T ps out).map fun m =>
      let pattern := out.map fun i => T.pattern.getD i true
      if pattern ≠ [] then .inr ⟨pattern, m⟩ else .inl (m.map fun b => b.2.get []).sum

end FermT
end Verif
