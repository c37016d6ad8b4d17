import Verif.Model.OpT
import Verif.Model.Expr
import Verif.Thm.Symmetry
import Mathlib.Algebra.Field.Defs

/-!
Model of `/repo/pyblock3/hamiltonian.py`: the one-orbital basis, the one-orbital operators, the integer encoding of
Hamiltonian terms.
-/

namespace Verif

/-- symmetry.py:51-61: the operations of `SZ` form a commutative group (the proofs are C02). -/
instance : Zero SZ := ⟨SZ.zero⟩
instance : Add SZ := ⟨SZ.add⟩
instance : Neg SZ := ⟨SZ.neg⟩
instance : Sub SZ := ⟨SZ.sub⟩
instance : AddCommGroup SZ where
  add_assoc := C02_add_assoc
  add_comm := C02_add_comm
  zero_add := C02_zero_add
  add_zero a := (C02_add_comm a SZ.zero).trans (C02_zero_add a)
  neg_add_cancel := C02_neg_add
  sub_eq_add_neg := C02_sub_eq
  nsmul := nsmulRec
  zsmul := zsmulRec

namespace Hamiltonian
variable {K : Type}

/-- Order of labels used by `sorted` (symmetry.py:63-64). -/
def szLe (a b : SZ) : Bool := !(SZ.lt b a)

/-- hamiltonian.py:65-69: the four states of an orbital of irrep `ipg`. -/
def siteBasis (ipg : Nat) : BondInfo SZ := [(⟨0, 0, 0⟩, 1), (⟨1, 1, ipg⟩, 1), (⟨1, -1, ipg⟩, 1), (⟨2, 0, 0⟩, 1)]

/-- core.py:587-597 `__getitem__` with one label, followed by `[0, 0] = v`: the first block whose last label is `q` is changed
in place.  `none`: no such block (`None` is not subscriptable), or the block has no position (0, 0). -/
def setItem (T : SpT SZ K) (q : SZ) (v : K) : Option (SpT SZ K) :=
  match T with
  | [] => none
  | b :: t =>
    if b.1.getLast? = some q then
      if inBox b.2.shape [0, 0] then
        some ((b.1, ⟨b.2.shape, fun ix => if ix = [0, 0] then v else b.2.get ix⟩) :: t)
      else none
    else (setItem t q v).map (b :: ·)

/-- hamiltonian.py:266: `sz = [1, -1]`. -/
def sz (s : Bool) : Int := if s then -1 else 1

section
variable [Zero K]

/-- `self.FT.zeros(bond_infos=(basis, basis), dq=dq)`. -/
def siteZeros (ipg : Nat) (dq : SZ) : Option (OpT SZ K) :=
  OpT.zeros SZ.isFermion szLe [siteBasis ipg, siteBasis ipg] dq

/-- Assignments to blocks of the odd part, one after another. -/
def setOdd (T : OpT SZ K) (l : List (SZ × K)) : Option (OpT SZ K) :=
  (l.foldlM (fun t x => setItem t x.1 x.2) T.odd).map fun o => ⟨o, T.even⟩

/-- Assignments to blocks of the even part, one after another. -/
def setEven (T : OpT SZ K) (l : List (SZ × K)) : Option (OpT SZ K) :=
  (l.foldlM (fun t x => setItem t x.1 x.2) T.even).map fun e => ⟨T.odd, e⟩

/-- hamiltonian.py:271-278 `i_operator`. -/
def iOp [One K] (ipg : Nat) : Option (OpT SZ K) :=
  (siteZeros ipg ⟨0, 0, 0⟩).bind fun T =>
    setEven T [(⟨0, 0, 0⟩, 1), (⟨1, -1, ipg⟩, 1), (⟨1, 1, ipg⟩, 1), (⟨2, 0, 0⟩, 1)]

end

/-- hamiltonian.py:280-288 `h_operator`, with `t0 = t(0, m, m)`, `t1 = t(1, m, m)`, `v01 = v(0, 1, m, m, m, m)`,
`v10 = v(1, 0, m, m, m, m)`. -/
def hOp [Field K] (ipg : Nat) (t0 t1 v01 v10 : K) : Option (OpT SZ K) :=
  (siteZeros ipg ⟨0, 0, 0⟩).bind fun T =>
    setEven T [(⟨0, 0, 0⟩, 0), (⟨1, -1, ipg⟩, t1), (⟨1, 1, ipg⟩, t0), (⟨2, 0, 0⟩, t0 + t1 + 1 / 2 * (v01 + v10))]

section
variable [Zero K]

/-- hamiltonian.py:290-296 `c_operator(s)`; `s = false` is spin 0. -/
def cOp [One K] [Neg K] (ipg : Nat) (s : Bool) : Option (OpT SZ K) :=
  (siteZeros ipg ⟨1, sz s, ipg⟩).bind fun T =>
    setOdd T [(⟨0, 0, 0⟩, 1), (⟨1, -sz s, ipg⟩, if s then -1 else 1)]

/-- hamiltonian.py:298-304 `d_operator(s)`. -/
def dOp [One K] [Neg K] (ipg : Nat) (s : Bool) : Option (OpT SZ K) :=
  (siteZeros ipg ⟨-1, -sz s, ipg⟩).bind fun T =>
    setOdd T [(⟨1, sz s, ipg⟩, 1), (⟨2, 0, 0⟩, if s then -1 else 1)]

/-- Python `x @ y` when `x`, `y` may have failed. -/
def mm [Add K] [Mul K] [Neg K] (x y : Option (OpT SZ K)) : Option (OpT SZ K) :=
  x.bind fun a => y.bind fun b => OpT.matmul SZ.isFermion a b

/-- Python `x + y`. -/
def plus [Add K] (x y : Option (OpT SZ K)) : Option (OpT SZ K) :=
  x.bind fun a => y.map fun b => a.add b

/-- Python `c * x`. -/
def times [Mul K] (c : K) (x : Option (OpT SZ K)) : Option (OpT SZ K) := x.map (OpT.smul c)

variable [Add K] [Mul K] [Neg K] [One K]

/-- hamiltonian.py:306-308 `a_operator(sl, sr)`. -/
def aOp (ipg : Nat) (sl sr : Bool) : Option (OpT SZ K) := mm (cOp ipg sl) (cOp ipg sr)

/-- hamiltonian.py:310-312 `ad_operator(sl, sr)`. -/
def adOp (ipg : Nat) (sl sr : Bool) : Option (OpT SZ K) := mm (dOp ipg sr) (dOp ipg sl)

/-- hamiltonian.py:314-316 `b_operator(sl, sr)`. -/
def bOp (ipg : Nat) (sl sr : Bool) : Option (OpT SZ K) := mm (cOp ipg sl) (dOp ipg sr)

end

/-! ### Term codes -/

/-- hamiltonian.py:143 `SPIN, SITE, OP = 1, 2, 16384`. -/
def SPIN : Int := 1
def SITE : Int := 2
def OP : Int := 16384

/-- hamiltonian.py:145: `OP_C, OP_D = 0 * OP, 1 * OP`. -/
def OP_C : Int := 0 * OP
def OP_D : Int := 1 * OP

/-- hamiltonian.py:154-155, 165-168: code of the operator of kind `k` on site `i` with spin `s`. -/
def code (k i s : Int) : Int := k + i * SITE + s * SPIN

/-- hamiltonian.py:144-172 `generate_qc_terms` (`big x` is `abs(x) > cutoff`). -/
def generateQcTerms [Field K] (n : Nat) (h1e : Nat → Nat → K) (g2e : Nat → Nat → Nat → Nat → K) (big : K → Bool) :
    List (K × List Int) :=
  ((List.range n).flatMap fun i => (List.range n).flatMap fun j =>
    if big (h1e i j) then
      [(0 : Int), 1].map fun s => (h1e i j, [code OP_C i s, code OP_D j s, -1, -1])
    else []) ++
  ((List.range n).flatMap fun i => (List.range n).flatMap fun j => (List.range n).flatMap fun k => (List.range n).flatMap fun l =>
    if big (g2e i j k l) then
      [(0 : Int), 1].flatMap fun sij => [(0 : Int), 1].map fun skl =>
        (1 / 2 * g2e i j k l, [code OP_C i sij, code OP_C k skl, code OP_D l skl, code OP_D j sij])
    else [])

/-- hamiltonian.py:215-222: the table entry `c_op[m, s]` or `d_op[m, s]`; kind 0 is `C`, 1 is `D`.  Python indexing: negative
indices count from the end, other indices out of range raise. -/
def opTable [One K] (orbSym : List Nat) (kind m s : Int) : Option (OpElement Nat SZ K) :=
  let n := orbSym.length
  let m' := if m < 0 then m + n else m
  let s' := if s < 0 then s + 2 else s
  if 0 ≤ m' ∧ m' < n ∧ 0 ≤ s' ∧ s' < 2 then
    let sg : Int := if s' = 0 then 1 else -1
    let pg := orbSym.getD m'.toNat 0
    if kind = 0 ∨ kind = -2 then some ⟨0, [m', s'], 1, ⟨1, sg, pg⟩⟩
    else if kind = 1 ∨ kind = -1 then some ⟨1, [m', s'], 1, ⟨-1, -sg, pg⟩⟩
    else none
  else none

/-- hamiltonian.py:226-228: decoding one term: `[c_op, d_op][i // OP][(i % OP) // SITE, (i % SITE) // SPIN]` for the codes
that are not -1. -/
def decodeTerm [CommRing K] (orbSym : List Nat) (x : K) (t : List Int) : Option (OpString Nat SZ K) :=
  ((t.filter (· ≠ -1)).mapM fun i => opTable orbSym (i / OP) (i % OP / SITE) (i % SITE / SPIN)).map fun ops =>
    OpString.mk' ops x

/-- hamiltonian.py:223-228 decoding of all terms. -/
def decodeTerms [CommRing K] (orbSym : List Nat) (gen : List (K × List Int)) : Option (List (OpString Nat SZ K)) :=
  gen.mapM fun p => decodeTerm orbSym p.1 p.2

end Hamiltonian
end Verif
