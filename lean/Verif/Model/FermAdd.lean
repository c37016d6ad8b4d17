import Verif.Model.Fermion
import Verif.Model.Flat

/-!
Model of addition and subtraction of fermionic tensors, `/repo/pyblock3/algebra/fermion.py`, in block form and in flat form.  The compiled routine
called by the flat form is modelled by the Python routine of the same name (`Verif.Model.Flat`).
-/

namespace Verif
variable {Q K : Type}

/-- fermion.py:1296 and 1322: `[ix for ix in range(b.ndim) if a.pattern[ix] != b.pattern[ix]]`.  `none`: `IndexError`. -/
def flipAxes (pa pb : List Bool) (n : Nat) : Option (List Nat) :=
  if n ≤ pa.length ∧ n ≤ pb.length then some ((List.range n).filter fun i => pa.getD i true ≠ pb.getD i true) else none

namespace FermT

/-- fermion.py:1136-1148 `shape`, when it is computed: for each leg the dimensions of the labels seen, each label once. -/
def shapeOf [DecidableEq Q] (T : SpT Q K) : List Nat :=
  (List.range T.ndim).map fun i =>
    (T.foldl (fun (st : List Q × Nat) b => match b.1[i]? with
      | none => st
      | some q => if q ∈ st.1 then st else (st.1 ++ [q], st.2 + b.2.shape.getD i 0)) ([], 0)).2

/-- fermion.py:1289-1291 and 1292-1294: a number and a tensor; the number is added to each stored block. -/
def addNumber [Add K] (A : FermT Q K) (c : K) : FermT Q K := ⟨A.pattern, A.blocks.map fun b => (b.1, b.2.mapK (· + c))⟩

/-- fermion.py:1318-1320: a tensor minus a number. -/
def subNumber [Sub K] (A : FermT Q K) (c : K) : FermT Q K := ⟨A.pattern, A.blocks.map fun b => (b.1, b.2.mapK (· - c))⟩

/-- fermion.py:1315-1317: a number minus a tensor. -/
def numberSub [Sub K] (c : K) (A : FermT Q K) : FermT Q K := ⟨A.pattern, A.blocks.map fun b => (b.1, b.2.mapK (c - ·))⟩

variable [DecidableEq Q]

/-- fermion.py:1295-1307 `_add` for two tensors (the loop is that of core.py:948-957).  `none`: `IndexError`, or `_adjust_block` raising
`NotImplementedError` for a block of `b`. -/
def add [Add K] (A B : FermT Q K) : Option (FermT Q K) :=
  (flipAxes A.pattern B.pattern B.blocks.ndim).bind fun flips =>
    if flips ≠ [] ∧ B.blocks ≠ [] then none else some ⟨A.pattern, A.blocks.add B.blocks⟩

/-- fermion.py:1321-1332 `_subtract` for two tensors. -/
def subtract [Sub K] [Neg K] (A B : FermT Q K) : Option (FermT Q K) :=
  (flipAxes A.pattern B.pattern B.blocks.ndim).bind fun flips =>
    if flips ≠ [] ∧ B.blocks ≠ [] then none else some ⟨A.pattern, A.blocks.subtract B.blocks⟩

/-- fermion.py:1307, 1158-1161: the `shape` reported by the result of `_add`: `shape=None`, so it is computed from the blocks. -/
def addShape [Add K] (A B : FermT Q K) : List Nat := shapeOf (A.blocks.add B.blocks)

/-- fermion.py:1332, 1158-1161: the `shape` reported by the result of `_subtract`: that of `a`. -/
def subtractShape (A _B : FermT Q K) : List Nat := shapeOf A.blocks

end FermT

/-- fermion.py:1641-1664: a `FlatFermionTensor`: a flat tensor and a pattern. -/
structure FlatFermT (C K : Type) where
  pattern : List Bool
  flat : Flat C K

namespace FlatFermT
variable {C : Type} [DecidableEq C]

/-- `q_labels.shape[1]`. -/
def ndim (T : FlatFermT C K) : Nat := (T.flat.qs.headD []).length

/-- fermion.py:1805-1814 `_add` for two tensors.  `none`: `IndexError`, or `_adjust_q_labels` raising `NotImplementedError`. -/
def add [Add K] (A B : FlatFermT C K) : Option (FlatFermT C K) :=
  if B.flat.qs.length = 0 then some A
  else if A.flat.qs.length = 0 then some B
  else (flipAxes A.pattern B.pattern B.ndim).bind fun flips =>
    if flips ≠ [] then none else some ⟨A.pattern, Flat.addImpl A.flat B.flat⟩

/-- fermion.py:1828-1838 `_subtract` for two tensors. -/
def subtract [Add K] [Neg K] (A B : FlatFermT C K) : Option (FlatFermT C K) :=
  if B.flat.qs.length = 0 then some A
  else if A.flat.qs.length = 0 then some B
  else (flipAxes A.pattern B.pattern B.ndim).bind fun flips =>
    if flips ≠ [] then none else some ⟨A.pattern, Flat.addImpl A.flat (Flat.neg B.flat)⟩

/-- fermion.py:1769-1775 `to_sparse`. -/
def toSparse [Zero K] (dec : C → Q) (T : FlatFermT C K) : FermT Q K := ⟨T.pattern, T.flat.toSparse dec⟩

end FlatFermT
end Verif
