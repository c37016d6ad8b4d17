import Verif.Spec.Tensor
import Verif.Spec.Tiles

/-! Specification of fusing: what a fusing table must satisfy and where entries go. -/

namespace Verif
variable {Q : Type} [DecidableEq Q]

/-- The window `(start, length)` that a fusing table gives to the unfused labels `qs` in the fused
sector `q`: the length is the product of the multiplicities. -/
def BondFusingInfo.window (fi : BondFusingInfo Q) (q : Q) (qs : List Q) : Option (Nat × Nat) :=
  ((Dict.get? fi.finfo q).bind fun t => Dict.get? t qs).map fun e => (e.1, e.2.prod)

/-- The shape recorded for the unfused labels `qs` in the fused sector `q`. -/
def BondFusingInfo.shapeOf (fi : BondFusingInfo Q) (q : Q) (qs : List Q) : Option (List Nat) :=
  ((Dict.get? fi.finfo q).bind fun t => Dict.get? t qs).map fun e => e.2

/-- A fusing table is good when windows tile every fused sector, every listed combination has the right fused
label, and no window is empty.  (The last two fields say that the stored dictionaries are
dictionaries and that fused labels with a table have a dimension.) -/
structure GoodTable [AddCommGroup Q] (fi : BondFusingInfo Q) : Prop where
  tiles : ∀ q, Tiles (fi.window q) (Counter.count fi.quanta q)
  sound : ∀ q qs sh, fi.shapeOf q qs = some sh → signedSum fi.pattern qs = q
  pos : ∀ q qs sh, fi.shapeOf q qs = some sh → 0 < sh.prod
  wf : Dict.WF fi.quanta ∧ ∀ q t, Dict.get? fi.finfo q = some t → Dict.WF t
  listed : ∀ q t, Dict.get? fi.finfo q = some t → q ∈ Dict.keys fi.quanta

/-- The multi-index obtained by replacing the legs `idxs` by one leg with basis vector `new`, placed at leg
`m` (the smallest of `idxs`); the other legs keep their order. -/
def fusedIndex {α : Type} [Zero α] (idxs : List Nat) (m : Nat) (x : List α) (new : α) : List α :=
  x.take m ++ new :: ((List.range x.length).filter fun i => decide (m < i ∧ i ∉ idxs)).map fun i => x.getD i 0

/-- The multi-index with the legs `idxs` gathered (in the given order) at leg `m`. -/
def gatheredIndex {α : Type} [Zero α] (idxs : List Nat) (m : Nat) (x : List α) : List α :=
  x.take m ++ idxs.map (fun i => x.getD i 0) ++
    ((List.range x.length).filter fun i => decide (m < i ∧ i ∉ idxs)).map fun i => x.getD i 0

end Verif
