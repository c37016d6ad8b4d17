import Verif.Model.FermTrace
import Verif.Model.FermAdd

/-!
Model of `FlatFermionTensor.trace`, `/repo/pyblock3/algebra/fermion.py:1844-1891`.

Simplified: the dictionary of blocks holds the blocks, not their numbers; the charge and the parities are computed on the decoded labels (the packed
arithmetic is C03).  Axes as in `Verif.Model.FermTrace`.
-/

namespace Verif
namespace FlatFermT
variable {Q C K : Type} [AddCommGroup Q] [DecidableEq Q] [DecidableEq C] [Zero C]

/-- fermion.py:1666-1671 `dq`: the charge of the first block.  `none`: `IndexError` without blocks. -/
def dq (dec : C → Q) (T : FlatFermT C K) : Option Q := T.flat.qs.head?.map fun q => BondFusingInfo.combine (q.map dec) T.pattern

/-- The blocks: row of labels, row of dimensions, slice of the data. -/
def rows (T : FlatFermT C K) : List (List C × List Nat × List K) :=
  (T.flat.qs.zip T.flat.shs).zipIdx.map fun p => (p.1.1, p.1.2, T.flat.block p.2)

/-- fermion.py:1860-1866: the blocks by the labels of their free legs, in the order of first appearance. -/
def groupRows {E : Type} (key : E → List C) (bs : List E) : Dict (List C) (List E) :=
  bs.foldl (fun m e => Dict.set m (key e) ((Dict.get? m (key e)).getD [] ++ [e])) []

/-- fermion.py:1874-1879: `out = out + np.einsum(...).ravel() * phase`, starting from the number 0. -/
def sumRows [Add K] : List (List K) → List K
  | [] => []
  | v :: t => t.foldl (List.zipWith (· + ·)) v

/-- fermion.py:1876-1879: one block, traced and multiplied by its phase. -/
def rowTrace [Ring K] (par : Q → Nat) (dec : C → Q) (ps : List (Nat × Nat)) (out : List Nat) (e : List C × List Nat × List K) : List K :=
  let phase := computePhase ((e.1.map dec).map par) (ps.flatMap fun p => [p.1, p.2]) false
  (((Arr.ofList e.2.1 e.2.2).traceAxes (ps.map Prod.fst) (ps.map Prod.snd) out).mapK (· * ((phase : Int) : K))).toList

/-- fermion.py:1844-1891 `trace`: a number if no leg is left, else a tensor.  `none`: an exception: no charge, `_adjust_q_labels` raising when the signs
of a pair agree, two different dimensions for one subscript, or `np.vstack` of nothing (lines 1882-1883). -/
def trace [Ring K] (par : Q → Nat) (dec : C → Q) (T : FlatFermT C K) (ax1 ax2 : List Nat) : Option (K ⊕ FlatFermT C K) :=
  if ax1.length ≠ ax2.length then none else
  (T.dq dec).bind fun d =>
    let ps := FermT.tracePairs ax1 ax2
    let a1 := ps.map Prod.fst
    let a2 := ps.map Prod.snd
    let out := SpT.outAxes T.ndim (ax1 ++ ax2)
    if ps.length + ps.length = T.ndim ∧ d ≠ 0 then some (.inl 0) else
    if ps.any fun p => decide (T.pattern.getD p.1 true = T.pattern.getD p.2 true) then none else
    let bs := T.rows.filter fun e => decide (pick a1 e.1 = pick a2 e.1)
    let groups := groupRows (fun e => pick out e.1) bs
    if ¬ (bs.all fun e => decide (pick a1 e.2.1 = pick a2 e.2.1)) then none else
    if groups.isEmpty then none else
    let parts := groups.map fun g => (g.1, pick out ((g.2.map fun e => e.2.1).headD []), sumRows (g.2.map (rowTrace par dec ps out)))
    let pattern := out.map fun i => T.pattern.getD i true
    if pattern ≠ [] then
      some (.inr ⟨pattern, Flat.mk' (parts.map fun e => e.1) (parts.map fun e => e.2.1) (parts.map fun e => e.2.2).flatten⟩)
    else some (.inl (parts.map fun e => e.2.2).flatten.sum)

end FlatFermT
end Verif
