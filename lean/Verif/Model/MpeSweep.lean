import Verif.Model.Mpe
import Verif.Model.MpsProd
import Verif.Model.Canon

/-!
Model of what a partition object (`MPE`, `/repo/pyblock3/algebra/mpe.py`) does with tensors: boundary environments, contraction of an environment
with one site, the tensors of a sub-system, and expectation values; with the constructors `ones` and the two branches of `_tensordot`
(`/repo/pyblock3/algebra/core.py`) for an operator tensor and a state tensor of which one leg remains.

`Model/Mpe.lean` has the bookkeeping of the environments (which ones are rebuilt when); `sweepCfg` below puts the two together.  Parallel execution,
timing and options (compression in `@`) are left out.
-/

namespace Verif

/-- `np.ones(shape)`. -/
def Arr.ones {K : Type} [One K] (sh : List Nat) : Arr K := ⟨sh, fun _ => 1⟩

namespace SpT
variable {Q K : Type} [DecidableEq Q]

/-- core.py:510-516 `ones`. -/
def ones [AddCommGroup Q] [One K] (le : Q → Q → Bool) (infos : List (BondInfo Q)) (pattern : Option (List Bool)) (dq : Option Q) :
    Option (SpT Q K) :=
  (skeleton le infos pattern dq).map fun l => l.map fun (sh, qs) => (qs, Arr.ones sh)

/-- core.py:538-542 `conj`: every block is conjugated. -/
def conj [Star K] (T : SpT Q K) : SpT Q K := T.map fun b => (b.1, b.2.mapK star)

end SpT

namespace OpT
variable {Q K : Type} [DecidableEq Q]

/-- core.py:1540-1548 `ones`: the blocks go to the odd part when a charge `dq` is given and fermionic. -/
def ones [AddCommGroup Q] [One K] (isF : Q → Bool) (le : Q → Q → Bool) (infos : List (BondInfo Q)) (pattern : Option (List Bool))
    (dq : Option Q) : Option (OpT Q K) :=
  (SpT.ones le infos pattern dq).map fun t => if (dq.map isF).getD false then ⟨t, []⟩ else ⟨[], t⟩

/-- core.py:1718-1727: `_tensordot` of an operator tensor with a state tensor of which one leg remains; no sign. -/
def rotateKet [Zero Q] [Add K] [Mul K] [Zero K] (A : OpT Q K) (B : SpT Q K) (axesA axesB : List Int) : Option (OpT Q K) :=
  let ia := (axesA.map (SpT.normAxis A.ndim)).map Int.ofNat
  let ib := (axesB.map (SpT.normAxis B.ndim)).map Int.ofNat
  (SpT.tensordot A.even B ia ib).bind fun even => (SpT.tensordot A.odd B ia ib).map fun odd => ⟨odd, even⟩

/-- core.py:1734-1741: `_tensordot` of a state tensor, of which one leg remains, with an operator tensor; no sign. -/
def rotateBra [Zero Q] [Add K] [Mul K] [Zero K] (A : SpT Q K) (B : OpT Q K) (axesA axesB : List Int) : Option (OpT Q K) :=
  let ia := (axesA.map (SpT.normAxis A.ndim)).map Int.ofNat
  let ib := (axesB.map (SpT.normAxis B.ndim)).map Int.ofNat
  (SpT.tensordot A B.even ia ib).bind fun even => (SpT.tensordot A B.odd ia ib).map fun odd => ⟨odd, even⟩

end OpT

namespace Mpe
section
variable {Q K : Type} [DecidableEq Q]

/-- mpe.py:105-121: the six tensors of `idents`. -/
structure Idents (Q K : Type) where
  lMpo : OpT Q K
  rMpo : OpT Q K
  lBra : SpT Q K
  rBra : SpT Q K
  lKet : SpT Q K
  rKet : SpT Q K

/-- First leg of the first tensor, mpe.py:106-107. `none`: the assertion in `infos` fails, or there is no block (then the code goes on with `None`
and the construction of the identities raises). -/
def firstLeg (T : SpT Q K) : Option (BondInfo Q) := T.infos.bind fun i => i.head?

/-- Last leg of the last tensor, mpe.py:108-109. -/
def lastLeg (T : SpT Q K) : Option (BondInfo Q) := T.infos.bind fun i => i.getLast?

/-- mpe.py:105-121 `_init_identities`; `dq` is the charge of the operator, or `None`.  The two right identities of bra and ket use the left legs:
the extra leg that a sub-system gets at its right end is a copy of the left edge. -/
def initIdents [AddCommGroup Q] [One K] (isF : Q → Bool) (le : Q → Q → Bool) (bra : List (SpT Q K)) (mpo : List (OpT Q K)) (ket : List (SpT Q K))
    (dq : Option Q) : Option (Idents Q K) :=
  (firstLeg (bra.headD [])).bind fun qbl => (firstLeg (ket.headD [])).bind fun qkl =>
  (lastLeg (bra.getLastD [])).bind fun qbr => (lastLeg (ket.getLastD [])).bind fun qkr =>
  let w0 := mpo.headD ⟨[], []⟩
  let w1 := mpo.getLastD ⟨[], []⟩
  (if w0.noBlocks then some qbl else w0.infos.bind fun i => i.head?).bind fun qml =>
  (if w1.noBlocks then some qbl else w1.infos.bind fun i => i.getLast?).bind fun qmr =>
  let pat := some [true, true, false, false]
  (OpT.ones isF le [qml, qbl, qkl, qml] pat none).bind fun lMpo => (OpT.ones isF le [qmr, qbr, qkr, qmr] pat dq).bind fun rMpo =>
  (SpT.ones le [qbl] none none).bind fun lBra => (SpT.ones le [qbl] none none).bind fun rBra =>
  (SpT.ones le [qkl] none none).bind fun lKet => (SpT.ones le [qkl] none none).map fun rKet => ⟨lMpo, rMpo, lBra, rBra, lKet, rKet⟩

/-- mpe.py:139 and 153-159, the contractions of `_left_contract_rotate`.  `none`: an exception.  With a bra or ket tensor without blocks the lists of
axes in lines 155-158 are empty or wrong, and the `min` of an empty list in core.py:1730 or 1744 raises. -/
def leftRotate [Zero Q] [Add K] [Mul K] [Zero K] [Neg K] [Star K] (isF : Q → Bool) (prev W : OpT Q K) (bra ket : SpT Q K) : Option (OpT Q K) :=
  if bra.ndim < 2 ∨ ket.ndim < 2 then none else
  let du := bra.ndim - 2
  let dd := ket.ndim - 2
  (prev.hdot isF W).bind fun r =>
  (r.rotateKet ket ((List.range' (du + 2) (dd + 1)).map Int.ofNat) ((List.range' 0 (dd + 1)).map Int.ofNat)).bind fun r =>
  (OpT.rotateBra bra.conj r ((List.range' 0 (du + 1)).map Int.ofNat) ((List.range' 1 (du + 1)).map Int.ofNat)).map fun r =>
  r.transpose [1, 0, 3, 2]

/-- mpe.py:169 and 183-189, the contractions of `_right_contract_rotate`. -/
def rightRotate [Zero Q] [Add K] [Mul K] [Zero K] [Neg K] [Star K] (isF : Q → Bool) (prev W : OpT Q K) (bra ket : SpT Q K) : Option (OpT Q K) :=
  if bra.ndim < 2 ∨ ket.ndim < 2 then none else
  let du := bra.ndim - 2
  let dd := ket.ndim - 2
  (W.hdot isF prev).bind fun r =>
  (r.rotateKet ket ((List.range' (du + 2) (dd + 1)).map Int.ofNat) ((List.range' 1 (dd + 1)).map Int.ofNat)).bind fun r =>
  (OpT.rotateBra bra.conj r ((List.range' 1 (du + 1)).map Int.ofNat) ((List.range' 1 (du + 1)).map Int.ofNat)).map fun r =>
  r.transpose [1, 0, 3, 2]

/-- The object of `Model/Mpe.lean` with these tensors.  An environment is `none` after an exception.  Canonicalisation (mpe.py:123-131) is QR
factorisation of a site and multiplication of the other factor into the neighbour. -/
def sweepCfg [Zero Q] [Add K] [Mul K] [Zero K] [Neg K] [Star K] (isF : Q → Bool) (qr : Arr K → Arr K × Arr K) (canon same : Bool)
    (mpo : List (OpT Q K)) (ids : Idents Q K) : Cfg (SpT Q K) (OpT Q K) (Option (OpT Q K)) where
  n := mpo.length
  canon := canon
  same := same
  mpo := fun i => mpo.getD i ⟨[], []⟩
  identL := some ids.lMpo
  identR := some ids.rMpo
  rotL := fun prev W bra ket => prev.bind fun p => leftRotate isF p W bra ket
  rotR := fun prev W bra ket => prev.bind fun p => rightRotate isF p W bra ket
  canonL := fun T T' => ((SpT.leftCanonicalize qr T).1, (SpT.tensordotN (SpT.leftCanonicalize qr T).2 T' 1).getD [])
  canonR := fun T T' => ((SpT.tensordotN T (SpT.rightCanonicalize qr T').1 1).getD [], (SpT.rightCanonicalize qr T').2)

/-- mpe.py:231-237 `_effective_mpo`: the environments `L`, `R` and the operator tensors of the sites of the sub-system. -/
def effMpo [Zero Q] [Add K] [Mul K] [Zero K] [Neg K] (isF : Q → Bool) (L : OpT Q K) (ws : List (OpT Q K)) (R : OpT Q K) (const : K) :
    Option (Mpo Q K) :=
  match ws with
  | [] => (L.hdot isF R).map fun t => ⟨[t], const⟩
  | W :: ws => (L.hdot isF W).bind fun first =>
    let tensors := first :: ws ++ [R]
    if 2 < tensors.length then
      let last := tensors.getD (tensors.length - 2) ⟨[], []⟩
      (last.hdot isF R).map fun t => ⟨tensors.take (tensors.length - 2) ++ [t], const⟩
    else some ⟨tensors, const⟩

/-- mpe.py:239-246 `_effective_mps`: `lid` and `rid` add one leg at each end (`tensors[:2]` and `tensors[-2:]` are both the first tensor and `rid`
when the sub-system has one site). -/
def effMps [Zero Q] [Add K] [Mul K] [Zero K] (lid : SpT Q K) (ts : List (SpT Q K)) (rid : SpT Q K) : Option (Mps Q K) :=
  let tensors := lid :: ts ++ [rid]
  (SpT.tensordotN (tensors.getD 0 []) (tensors.getD 1 []) 0).bind fun t =>
    let tensors := t :: tensors.drop 2
    (SpT.tensordotN (tensors.getD (tensors.length - 2) []) (tensors.getD (tensors.length - 1) []) 0).map fun t =>
      ⟨tensors.take (tensors.length - 2) ++ [t], 0⟩

/-- mpe.py:256-261 `_embedded_mps`: the extra legs are removed. -/
def embeddedMps [Zero Q] [Add K] [Mul K] [Zero K] (lid : SpT Q K) (m : Mps Q K) (rid : SpT Q K) : Option (Mps Q K) :=
  (SpT.tensordotN lid (m.tensors.getD 0 []) 1).bind fun t =>
    let tensors := m.tensors.set 0 t
    (SpT.tensordotN (tensors.getD (tensors.length - 1) []) rid 1).map fun t => ⟨tensors.set (tensors.length - 1) t, 0⟩

/-- mpe.py:324-327 `expectation`, for at least two sites: `np.dot(self.bra.conj(), self.mpo @ self.ket)`; the dot product with the number 0 is 0
(mps.py:440-446). -/
def expectation [AddCommGroup Q] [Add K] [Mul K] [Zero K] [Neg K] [Star K] [DecidableEq K] (isF : Q → Bool) (le : Q → Q → Bool)
    (bra : Mps Q K) (mpo : Mpo Q K) (ket : Mps Q K) : Option K :=
  match Mps.apply isF le mpo ket with
  | none => none
  | some none => some 0
  | some (some r) => Mps.dot bra.conj r

/-- mpe.py:271-279 `_effective`, i.e. `mpe[l:r]`, from what `Mpe.getWindow` returns: the sub-system (bra, operator, ket). -/
def effective [Zero Q] [Add K] [Mul K] [Zero K] [Neg K] [Star K] (isF : Q → Bool) (qr : Arr K → Arr K × Arr K) (canon same : Bool) (mpo : Mpo Q K)
    (ids : Idents Q K) (l r : Nat) (s : Sys (SpT Q K) (Option (OpT Q K))) : Option (Mps Q K × Mpo Q K × Mps Q K) :=
  (getWindow (sweepCfg isF qr canon same mpo.tensors ids) l r s).bind fun w =>
    w.1.bind fun L => w.2.1.bind fun R =>
    (effMps ids.lKet w.2.2.1 ids.rKet).bind fun ket => (effMps ids.lBra w.2.2.2 ids.rBra).bind fun bra =>
    (effMpo isF L ((mpo.tensors.drop l).take (r - l)) R mpo.const).map fun o => (bra, o, ket)

end
end Mpe
end Verif
