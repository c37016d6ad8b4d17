import Verif.Model.Mps
import Verif.Model.OpT
import Verif.Model.Fuse

/-!
Model of the products of matrix product states and operators: `MPS._dot` and `MPS._matmul`, `/repo/pyblock3/algebra/mps.py:437-560`, with
`FermionTensor._pdot`, `FermionTensor.infos`, `fuse` and `kron_add`, `/repo/pyblock3/algebra/core.py`.

States have `SparseTensor` sites (`Mps`), operators have `FermionTensor` sites (`Mpo`).  Not modelled: the branch of `_matmul` for a right
factor with a single site (mps.py:500-507), state times operator and density matrices, compression, `out=`.
-/

namespace Verif
namespace SpT
variable {Q K : Type} [DecidableEq Q]

/-- core.py:468-473 `item`; `none`: the assertion fails. -/
def item [Zero K] : SpT Q K → Option K
  | [] => some 0
  | [b] => if b.1 = [] then some (b.2.get []) else none
  | _ => none

end SpT

namespace Mps
variable {Q K : Type} [DecidableEq Q]

/-- Axes `0, ..., n - 1`. -/
def firstAxes (n : Nat) : List Int := (List.range n).map Int.ofNat

/-- mps.py:451-474: the loop over the sites and the end of `_dot`; `left` is `none` before the first site, `c` is the product of the
constants. -/
def dotGo [Zero Q] [Zero K] [Add K] [Mul K] (c : K) : Option (SpT Q K) → List (SpT Q K) → List (SpT Q K) → Option K
  | left, A :: as, B :: bs =>
    if A.isEmpty || B.isEmpty then some 0
    else if A.ndim ≠ B.ndim then none
    else
      let cidx := firstAxes (if as.isEmpty then A.ndim else A.ndim - 1)
      match left with
      | none => (SpT.tensordot A B cidx cidx).bind fun l => dotGo c (some l) as bs
      | some l => (SpT.tensordot l A [0] [0]).bind fun lbra => (SpT.tensordot lbra B cidx cidx).bind fun l' => dotGo c (some l') as bs
  | none, _, _ => some (0 + c)
  | some l, _, _ => (SpT.item l).map (· + c)

/-- mps.py:437-474 `_dot` of two objects (numbers: lines 440-446 are ordinary multiplication). -/
def dot [Zero Q] [Zero K] [Add K] [Mul K] (a b : Mps Q K) : Option K :=
  if a.tensors.length ≠ b.tensors.length then none else dotGo (a.const * b.const) none a.tensors b.tensors

end Mps

/-- A matrix product operator: an `MPS` object whose tensors are `FermionTensor`s. -/
structure Mpo (Q K : Type) where
  tensors : List (OpT Q K)
  const : K

namespace OpT
variable {Q K : Type} [DecidableEq Q]

/-- core.py:1441-1444 `n_blocks == 0`. -/
def noBlocks (A : OpT Q K) : Bool := A.odd.isEmpty && A.even.isEmpty

/-- core.py:1560-1568 `infos`. -/
def infos (A : OpT Q K) : Option (List (BondInfo Q)) :=
  if A.odd.ndim = 0 then A.even.infos
  else if A.even.ndim = 0 then A.odd.infos
  else A.odd.infos.bind fun o => A.even.infos.map fun e => (o.zip e).map fun x => BondInfo.union x.1 x.2

/-- core.py:1718-1733 and 1751-1759: `_tensordot` of an operator tensor with a state tensor of which at least two legs remain. -/
def tensordotState [Zero Q] [Add K] [Mul K] [Zero K] [Neg K] (isF : Q → Bool) (A : OpT Q K) (B : SpT Q K) (axesA axesB : List Int) :
    Option (SpT Q K) :=
  let idxa := axesA.map (SpT.normAxis A.ndim)
  let idxb := axesB.map (SpT.normAxis B.ndim)
  let ia := idxa.map Int.ofNat
  let ib := idxb.map Int.ofNat
  (SpT.tensordot A.even B ia ib).bind fun even =>
  (SpT.tensordot A.odd B ia ib).map fun odd =>
  addAliased odd even (factor isF (List.range' (A.ndim - idxa.length) (idxb.min?.getD 0))) fun _ => false

/-- core.py:1879-1885 and 1896: `_pdot` of an operator tensor with a state tensor that has fewer legs. -/
def pdotState [Zero Q] [Add K] [Mul K] [Zero K] [Neg K] (isF : Q → Bool) (A : OpT Q K) (B : SpT Q K) : Option (SpT Q K) :=
  if A.ndim ≤ B.ndim then none else
  let dau := A.ndim - B.ndim
  let db := B.ndim - 2
  (tensordotState isF A B ((List.range' (dau + 1) db).map Int.ofNat) ((List.range' 1 db).map Int.ofNat)).map fun r =>
    r.transpose (some ([0, dau + 2] ++ List.range' 1 dau ++ [dau + 1, dau + 3]))

/-- core.py:1871-1877 and 1896: `_pdot` of two operator tensors with the same even number of legs. -/
def pdot [Zero Q] [Add K] [Mul K] [Zero K] [Neg K] (isF : Q → Bool) (A B : OpT Q K) : Option (OpT Q K) :=
  if A.ndim ≠ B.ndim ∨ A.ndim % 2 = 1 then none else
  let d := A.ndim / 2 - 1
  (tensordot isF A B ((List.range' (d + 1) d).map Int.ofNat) ((List.range' 1 d).map Int.ofNat)).map fun r =>
    r.transpose ([0, d + 2] ++ List.range' 1 d ++ List.range' (d + 3) d ++ [d + 1, d + d + 3])

/-- core.py:1648-1664 `fuse` with an explicit table. -/
def fuse [AddCommGroup Q] [Zero K] (A : OpT Q K) (idxs : List Nat) (fi : BondFusingInfo Q) : Option (OpT Q K) :=
  (A.odd.fuse idxs fi none).bind fun o => (A.even.fuse idxs fi none).map fun e => ⟨o, e⟩

/-- core.py:1915-1932 `_kron_add` with explicit bonds. -/
def kronAdd [Zero Q] [Zero K] [Add K] (A B : OpT Q K) (lb rb : BondInfo Q) : OpT Q K :=
  ⟨A.odd.kronAdd B.odd lb rb, A.even.kronAdd B.even lb rb⟩

end OpT

/-- The bonds of a product between neighbouring sites, mps.py:534-535: `(tl[0] | tr[-2]) ^ (tl[1] | tr[-1])`. -/
def prodInner {Q : Type} [DecidableEq Q] [AddCommGroup Q] (le : Q → Q → Bool) :
    List (List (BondInfo Q)) → List (Option (BondFusingInfo Q))
  | x :: y :: rest =>
    BondFusingInfo.tensorProduct le [BondInfo.union (y.getD 0 []) (x.getD (x.length - 2) []),
      BondInfo.union (y.getD 1 []) (x.getD (x.length - 1) [])] none none :: prodInner le (y :: rest)
  | _ => []

/-- mps.py:530-536 `prod_bonds`. -/
def prodBonds {Q : Type} [DecidableEq Q] [AddCommGroup Q] (le : Q → Q → Bool) (infos : List (List (BondInfo Q))) :
    Option (List (BondFusingInfo Q)) :=
  let first := infos.headD []
  let last := infos.getLastD []
  ([BondFusingInfo.tensorProduct le [first.getD 0 [], first.getD 1 []] none none] ++ prodInner le infos ++
    [BondFusingInfo.tensorProduct le [last.getD (last.length - 2) [], last.getD (last.length - 1) []] none none]).mapM id

namespace Mps
variable {Q K : Type} [DecidableEq Q]

/-- mps.py:538-540: the two left legs and the two right legs of each site become one. -/
def mergeSites [AddCommGroup Q] [Zero K] : List (SpT Q K) → List (BondFusingInfo Q) → Option (List (SpT Q K))
  | T :: ts, l :: r :: rest =>
    (T.fuse [T.ndim - 2, T.ndim - 1] r none).bind fun t1 => (t1.fuse [0, 1] l none).bind fun t2 =>
      (mergeSites ts (r :: rest)).map fun ts' => t2 :: ts'
  | _, _ => some []

/-- mps.py:521-526, one site: `none` an exception, `some none` when the number 0 is returned. -/
def applySites [Zero Q] [Add K] [Mul K] [Zero K] [Neg K] (isF : Q → Bool) : List (OpT Q K) → List (SpT Q K) → Option (Option (List (SpT Q K)))
  | A :: as, B :: bs =>
    if A.noBlocks || B.isEmpty then some none else
    match A.pdotState isF B with
    | none => none
    | some r => if r.isEmpty then some none else (applySites isF as bs).map fun o => o.map fun rs => r :: rs
  | _, _ => some (some [])

/-- mps.py:510-540: the product of an operator and a state with at least two sites without the constants.  (Line 517-518: an operator tensor has
an even number of legs.) -/
def applyTensors [AddCommGroup Q] [Add K] [Mul K] [Zero K] [Neg K] (isF : Q → Bool) (le : Q → Q → Bool) (a : Mpo Q K) (b : Mps Q K) :
    Option (Option (Mps Q K)) :=
  if a.tensors.length ≠ b.tensors.length ∨ b.tensors.length ≤ 1 then none else
  match applySites isF a.tensors b.tensors with
  | none => none
  | some none => some none
  | some (some rs) =>
    (rs.mapM SpT.infos).bind fun infos => (prodBonds le infos).bind fun pb => (mergeSites rs pb).map fun ts => some ⟨ts, 0⟩

/-- mps.py:491-551 `_matmul` of an operator and a state; `some none`: the number 0 is returned.  A state with a constant raises: line 547 or 549
adds an operator tensor to a state tensor. -/
def apply [AddCommGroup Q] [Add K] [Mul K] [Zero K] [Neg K] [DecidableEq K] (isF : Q → Bool) (le : Q → Q → Bool) (a : Mpo Q K) (b : Mps Q K) :
    Option (Option (Mps Q K)) :=
  match applyTensors isF le a b with
  | none => none
  | some none => some none
  | some (some r) =>
    if a.const ≠ 0 ∧ b.const = 0 then (r.add (b.smul a.const)).map some
    else if b.const ≠ 0 then none
    else some (some r)

end Mps

namespace Mpo
variable {Q K : Type} [DecidableEq Q]

/-- mps.py:414-417 for operators. -/
def kronAddSites [Zero Q] [Zero K] [Add K] : List (OpT Q K) → List (OpT Q K) → List (BondInfo Q) → List (OpT Q K)
  | A :: as, B :: bs, l :: r :: rest => OpT.kronAdd A B l r :: kronAddSites as bs (r :: rest)
  | _, _, _ => []

/-- mps.py:389-418 `_add` for operators. -/
def add [Zero Q] [Zero K] [Add K] (a b : Mpo Q K) : Option (Mpo Q K) :=
  if a.tensors.length ≠ b.tensors.length then none else
  match a.tensors, b.tensors with
  | [ta], [tb] => some ⟨[ta.add tb], a.const + b.const⟩
  | _, _ =>
    if a.tensors.any OpT.noBlocks then some ⟨b.tensors, a.const + b.const⟩
    else if b.tensors.any OpT.noBlocks then some ⟨a.tensors, a.const + b.const⟩
    else
      (a.tensors.mapM OpT.infos).bind fun ainfos => (b.tensors.mapM OpT.infos).map fun binfos =>
        let first := (ainfos.headD []).headD []
        let last := (ainfos.getLastD []).getLastD []
        let bonds := [first] ++ ((Mps.innerBonds ainfos).zip (Mps.innerBonds binfos)).map (fun x => BondInfo.addCounts x.1 x.2) ++ [last]
        ⟨kronAddSites a.tensors b.tensors bonds, a.const + b.const⟩

/-- mps.py:264-275 multiplication with a number. -/
def smul [Mul K] (c : K) (a : Mpo Q K) : Mpo Q K :=
  ⟨match a.tensors with
    | [] => []
    | t :: ts => t.smul c :: ts, c * a.const⟩

/-- mps.py:538-540. -/
def mergeSites [AddCommGroup Q] [Zero K] : List (OpT Q K) → List (BondFusingInfo Q) → Option (List (OpT Q K))
  | T :: ts, l :: r :: rest =>
    (T.fuse [T.ndim - 2, T.ndim - 1] r).bind fun t1 => (t1.fuse [0, 1] l).bind fun t2 =>
      (mergeSites ts (r :: rest)).map fun ts' => t2 :: ts'
  | _, _ => some []

/-- mps.py:521-526. -/
def mulSites [Zero Q] [Add K] [Mul K] [Zero K] [Neg K] (isF : Q → Bool) : List (OpT Q K) → List (OpT Q K) → Option (Option (List (OpT Q K)))
  | A :: as, B :: bs =>
    if A.noBlocks || B.noBlocks then some none else
    match A.pdot isF B with
    | none => none
    | some r => if r.noBlocks then some none else (mulSites isF as bs).map fun o => o.map fun rs => r :: rs
  | _, _ => some (some [])

/-- mps.py:510-540 for two operators. -/
def mulTensors [AddCommGroup Q] [Add K] [Mul K] [Zero K] [Neg K] (isF : Q → Bool) (le : Q → Q → Bool) (a b : Mpo Q K) :
    Option (Option (Mpo Q K)) :=
  if a.tensors.length ≠ b.tensors.length ∨ b.tensors.length ≤ 1 then none else
  match mulSites isF a.tensors b.tensors with
  | none => none
  | some none => some none
  | some (some rs) =>
    (rs.mapM OpT.infos).bind fun infos => (prodBonds le infos).bind fun pb => (mergeSites rs pb).map fun ts => some ⟨ts, 0⟩

/-- mps.py:491-551 `_matmul` of two operators with the constants (lines 542-551). -/
def mul [AddCommGroup Q] [Add K] [Sub K] [Mul K] [Zero K] [Neg K] [DecidableEq K] (isF : Q → Bool) (le : Q → Q → Bool) (a b : Mpo Q K) :
    Option (Option (Mpo Q K)) :=
  match mulTensors isF le a b with
  | none => none
  | some none => some none
  | some (some r) =>
    if a.const ≠ 0 ∧ b.const = 0 then (r.add (b.smul a.const)).map some
    else if a.const = 0 ∧ b.const ≠ 0 then (r.add (a.smul b.const)).map some
    else if a.const ≠ 0 ∧ b.const ≠ 0 then
      ((a.smul b.const).add (b.smul a.const)).bind fun t => (r.add t).map fun r' => some ⟨r'.tensors, r'.const - a.const * b.const⟩
    else some (some r)

end Mpo
end Verif
