import Verif.Model.Mps

/-!
Model of `bond_dim` and `show_bond_dims` of matrix product states, `/repo/pyblock3/algebra/mps.py:565-591`, for sites that are `SparseTensor`s.

Simplified: the list `bonds` in `bond_dim`, which gets one entry and is not used, is left out; `show_bond_dims` gives the numbers, not the string with the
separators and the constant.
-/

namespace Verif
namespace Mps
variable {Q K : Type} [DecidableEq Q]

/-- mps.py:569, 580: a site without blocks counts as a tensor with one leg without labels. -/
def orOneLeg (i : List (BondInfo Q)) : List (BondInfo Q) := if i.length ≠ 0 then i else [[]]

/-- mps.py:565-575 `bond_dim`.  `none`: no site (`IndexError`), or a site whose blocks do not fit each other (assertion in `infos`). -/
def bondDim (ts : List (SpT Q K)) : Option Nat := do
  let infos ← ts.mapM SpT.infos
  let infos := infos.map orOneLeg
  let first ← infos.head?
  let last ← infos.getLast?
  let d := (first.headD []).nBonds
  let d := (innerBonds infos).foldl (fun d b => max d b.nBonds) d
  some (max d (last.getLastD []).nBonds)

/-- mps.py:583-588: a bond that one of the sites does not know is taken from the other one. -/
def joinBonds (y x : BondInfo Q) : BondInfo Q :=
  if y.length = 0 then x else if x.length = 0 then y else BondInfo.union y x

/-- mps.py:582-588, the loop. -/
def shownInner : List (List (BondInfo Q)) → List (BondInfo Q)
  | x :: y :: rest => joinBonds (y.getD 0 []) (x.getLastD []) :: shownInner (y :: rest)
  | _ => []

/-- mps.py:577-590 `show_bond_dims`: the numbers that are printed. -/
def shownDims (ts : List (SpT Q K)) : Option (List Nat) := do
  let infos ← ts.mapM SpT.infos
  let infos := infos.map orOneLeg
  let first ← infos.head?
  let last ← infos.getLast?
  some (([first.headD []] ++ shownInner infos ++ [last.getLastD []]).map BondInfo.nBonds)

end Mps
end Verif
