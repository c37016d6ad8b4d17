import Verif.Model.BondInfo
import Verif.Model.Sparse
import Verif.Model.Mps

/-!
Model of `SparseTensor.symmetry_fuse`, `/repo/pyblock3/algebra/core.py:810-831`, and `MPS.symmetry_fuse`, `/repo/pyblock3/algebra/mps.py:593-615`: change from
a higher symmetry (labels `H`) to a lower one (labels `L`).  `symmetryFusingInfo` is in `Verif.Model.BondInfo`.

`dtype` is not modelled (`SubTensor.zeros` takes that of the first block with the new labels).
-/

namespace Verif

/-- The result of `get_symmetry_fusing_info`. -/
abbrev SymmInfo (H L : Type) := BondInfo L × Dict L (Dict H (Nat × Nat))

/-- Is the index inside the slices `k:k + nk`? -/
def inSlices : List (Nat × Nat) → List Nat → Bool
  | [], [] => true
  | w :: ws, i :: is => decide (w.1 ≤ i ∧ i < w.1 + w.2) && inSlices ws is
  | _, _ => false

/-- core.py:829-830 `blocks_map[new_qs][sl] += block`.  `none`: `ValueError`, the slices do not have the shape of the block.  (numpy also raises for slices that
are cut off by the end of an axis.  Axes of length one, which numpy would repeat, are rejected here.) -/
def Arr.addAt {K : Type} [Add K] (o b : Arr K) (ws : List (Nat × Nat)) : Option (Arr K) :=
  if ws.map Prod.snd = b.shape ∧ o.shape.length = ws.length ∧ (ws.zip o.shape).all (fun x => decide (x.1.1 + x.1.2 ≤ x.2)) then
    some ⟨o.shape, fun ix => if inSlices ws ix then o.get ix + b.get (List.zipWith (fun i w => i - w.1) ix ws) else o.get ix⟩
  else none

namespace SpT
variable {H L K : Type} [DecidableEq H] [DecidableEq L]

/-- core.py:827-828 `finfos[iq].finfo[q][qx]` for every leg.  `none`: `KeyError` or `IndexError`. -/
def symmSlices : List (SymmInfo H L) → List (L × H) → Option (List (Nat × Nat))
  | _, [] => some []
  | [], _ :: _ => none
  | f :: fs, x :: xs => ((Dict.get? f.2 x.1).bind fun t => Dict.get? t x.2).bind fun w => (symmSlices fs xs).map fun ws => w :: ws

/-- core.py:821-830: the body of the loop over the blocks. -/
def symmStep [Zero K] [Add K] (finfos : List (SymmInfo H L)) (symmMap : H → L) (m : SpT L K) (b : List H × Arr K) : Option (SpT L K) :=
  let newQs := b.1.map symmMap
  let newNs := List.zipWith (fun (f : SymmInfo H L) q => Counter.count f.1 q) finfos newQs
  let o := (Dict.get? m newQs).getD (Arr.zeros newNs)
  (symmSlices finfos (newQs.zip b.1)).bind fun ws => (o.addAt b.2 ws).map fun a => Dict.set m newQs a

/-- core.py:810-831 `symmetry_fuse`.  `none`: an exception. -/
def symmetryFuse [Zero K] [Add K] (T : SpT H K) (finfos : List (SymmInfo H L)) (symmMap : H → L) : Option (SpT L K) :=
  T.foldlM (symmStep finfos symmMap) []

end SpT

namespace Mps
variable {H L K : Type} [DecidableEq H] [DecidableEq L]

/-- mps.py:594-599: the bonds, read off the tensors. -/
def symmBonds (infos : List (List (BondInfo H))) : List (BondInfo H) :=
  [(infos.headD []).headD []] ++ innerBonds infos ++ [(infos.getLastD []).getLastD []]

/-- mps.py:604-610: the physical legs of site `i` (`minfos`); `k` counts the physical legs of the sites before. -/
def symmPhys (info : Option (List (BondInfo H))) (n i k : Nat) (I : List (BondInfo H)) : List (BondInfo H) :=
  match info with
  | none => (I.take (I.length - 1)).drop 1
  | some basis => if basis.length = n then List.replicate (I.length - 2) (basis.getD i []) else (basis.drop k).take (I.length - 2)

/-- mps.py:603-613: the loop over the sites. -/
def symmSites [Zero K] [Add K] (le : H → H → Bool) (symmMap : H → L) (info : Option (List (BondInfo H))) (n : Nat) :
    Nat → Nat → List (SpT H K) → List (List (BondInfo H)) → List (BondInfo H) → Option (List (SpT L K))
  | i, k, T :: ts, I :: is, l :: r :: bonds =>
    let sinfos := l :: symmPhys info n i k I ++ [r]
    (T.symmetryFuse (sinfos.map fun b => symmetryFusingInfo le b symmMap) symmMap).bind fun R =>
      (symmSites le symmMap info n (i + 1) (k + (I.length - 2)) ts is (r :: bonds)).map fun Rs => R :: Rs
  | _, _, _, _, _ => some []

/-- mps.py:593-615 `symmetry_fuse`; `info` is `info.basis`.  `none`: an exception, also for an object without sites or with a tensor without legs (`IndexError`). -/
def symmetryFuse [Zero K] [Add K] (le : H → H → Bool) (a : Mps H K) (symmMap : H → L) (info : Option (List (BondInfo H))) : Option (Mps L K) :=
  (a.tensors.mapM SpT.infos).bind fun infos =>
    if infos.isEmpty ∨ infos.any List.isEmpty then none else
      (symmSites le symmMap info a.tensors.length 0 0 a.tensors infos (symmBonds infos)).map fun ts => ⟨ts, a.const⟩

end Mps
end Verif
