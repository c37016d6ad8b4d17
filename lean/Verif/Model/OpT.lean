import Verif.Model.Sparse

/-!
Model of `FermionTensor` (`/repo/pyblock3/algebra/core.py`): a block-sparse operator tensor kept as an odd and an even part.
Fermion parity of a label is an arbitrary predicate `isF` (core.py reads the attribute `is_fermion`).
-/

namespace Verif

/-- core.py:1412-1430 `FermionTensor(odd, even)`. -/
structure OpT (Q K : Type) where
  odd : SpT Q K
  even : SpT Q K

namespace OpT
variable {Q K : Type} [DecidableEq Q]

/-- core.py:1431-1434 `ndim`: bitwise or of the two numbers of legs.  When both parts are nonempty they have the same number
of legs, and an empty part has 0. -/
def ndim (T : OpT Q K) : Nat := T.odd.ndim ||| T.even.ndim

/-- core.py:1530-1538 `zeros`: the blocks go to the odd part when the charge `dq` is fermionic. -/
def zeros [AddCommGroup Q] [Zero K] (isF : Q → Bool) (le : Q → Q → Bool) (infos : List (BondInfo Q)) (dq : Q) :
    Option (OpT Q K) :=
  (SpT.zeros le infos none (some dq)).map fun t => if isF dq then ⟨t, []⟩ else ⟨[], t⟩

/-- core.py:1490-1500 ufunc `add` of two tensors. -/
def add [Add K] (A B : OpT Q K) : OpT Q K := ⟨A.odd.add B.odd, A.even.add B.even⟩

/-- core.py:1501-1508 ufunc `multiply` by a number (commutative, so either side). -/
def smul [Mul K] (c : K) (A : OpT Q K) : OpT Q K := ⟨A.odd.smul c, A.even.smul c⟩

/-- core.py:1697-1702 and 1751-1759: `r = A + B` followed by the in-place negation of those blocks of `A` (`negA`) and of `B`
(`negB`) that carry the fermion factor.  `SparseTensor._add` (core.py:948-957) puts the block objects of `A` and `B` themselves
into the sum unless both have a block with the same labels, in which case it makes a new array; so the in-place negation
reaches the sum exactly when the label occurs on one side only. -/
def addAliased [Add K] [Neg K] (A B : SpT Q K) (negA negB : List Q → Bool) : SpT Q K :=
  (A.add B).map fun b =>
    if Dict.has A b.1 && Dict.has B b.1 then b
    else if (Dict.has A b.1 && negA b.1) || (Dict.has B b.1 && negB b.1) then (b.1, b.2.neg) else b

/-- core.py:1751-1759: the fermion factor of a block, the parity of the labels at the positions `idx`.  (A single integer
position is a list of one.) -/
def factor [Zero Q] (isF : Q → Bool) (idx : List Nat) (q : List Q) : Bool :=
  (idx.map fun i => isF (q.getD i 0)).foldl xor false

/-- core.py:1668-1761 `_tensordot` of two operator tensors.  `none`: an assertion fails.  Axes are given in the form with two
lists (core.py:1686-1692). -/
def tensordot [Zero Q] [Add K] [Mul K] [Zero K] [Neg K] (isF : Q → Bool) (A B : OpT Q K) (axesA axesB : List Int) :
    Option (OpT Q K) :=
  let idxa := axesA.map (SpT.normAxis A.ndim)
  let idxb := axesB.map (SpT.normAxis B.ndim)
  let ia := idxa.map Int.ofNat
  let ib := idxb.map Int.ofNat
  (SpT.tensordot A.odd B.even ia ib).bind fun oddA =>
  (SpT.tensordot A.even B.odd ia ib).bind fun oddB =>
  (SpT.tensordot A.odd B.odd ia ib).bind fun evenA =>
  (SpT.tensordot A.even B.even ia ib).bind fun evenB =>
  let no := fun _ : List Q => false
  if idxa = [] ∧ idxb = [] then
    if A.ndim % 2 = 1 then none else
    let f := factor isF (List.range' (A.ndim / 2) (A.ndim / 2))
    some ⟨addAliased oddA oddB no f, addAliased evenA evenB f no⟩
  else if idxa = [A.ndim - 1] ∧ idxb = [0] then
    if A.ndim % 2 = 1 then none else
    let d := (A.ndim - 2) / 2
    let f := factor isF (List.range' (d + 1) d)
    some ⟨addAliased oddA oddB no f, addAliased evenA evenB f no⟩
  else
    let f := factor isF (List.range' (A.ndim - idxa.length) (idxb.min?.getD 0))
    some ⟨addAliased oddA oddB f no, addAliased evenA evenB f no⟩

/-- core.py:1481-1489 ufunc `matmul` of two tensors. -/
def matmul [Zero Q] [Add K] [Mul K] [Zero K] [Neg K] (isF : Q → Bool) (A B : OpT Q K) : Option (OpT Q K) :=
  tensordot isF A B [-1] [0]

/-- core.py:2223-2247 `transpose` of both parts. -/
def transpose [Zero Q] (axes : List Nat) (A : OpT Q K) : OpT Q K :=
  ⟨A.odd.transpose (some axes), A.even.transpose (some axes)⟩

/-- core.py:1794-1812 `_hdot` of two operator tensors with legs (left, ups, downs, right): contract the last leg with the first
and regroup as (left, ups of both, downs of both, right). -/
def hdot [Zero Q] [Add K] [Mul K] [Zero K] [Neg K] (isF : Q → Bool) (A B : OpT Q K) : Option (OpT Q K) :=
  (tensordot isF A B [-1] [0]).map fun r =>
    if A.ndim % 2 = 0 ∧ B.ndim % 2 = 0 then
      let da := A.ndim / 2 - 1
      let db := B.ndim / 2 - 1
      let na := A.ndim - 1
      r.transpose (0 :: List.range' 1 da ++ List.range' na db ++ List.range' (da + 1) da ++ List.range' (na + db) db ++
        [na + db + db])
    else r

/-- core.py:1767-1785 `_shdot` of two operator matrices with legs (ups, downs): outer product regrouped. -/
def shdot [Zero Q] [Add K] [Mul K] [Zero K] [Neg K] (isF : Q → Bool) (A B : OpT Q K) : Option (OpT Q K) :=
  (tensordot isF A B [] []).map fun r =>
    if A.ndim % 2 = 0 ∧ B.ndim % 2 = 0 then
      let da := A.ndim / 2
      let db := B.ndim / 2
      r.transpose (List.range da ++ List.range' (da + da) db ++ List.range' da da ++ List.range' (da + da + db) db)
    else r

end OpT
end Verif
