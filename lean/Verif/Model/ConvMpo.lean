import Verif.Model.SiteOps
import Verif.Model.Fcidump

/-!
Model of the conventional matrix product operator of a quantum-chemistry Hamiltonian: `QCSymbolicMPO`
(`/repo/pyblock3/symbolic/symbolic_mpo.py`), with the site operators of `get_site_ops` (`/repo/pyblock3/hamiltonian.py`), followed by `to_sparse`.

Spins 0 and 1 are `false` and `true`.  The loops of the code are lists in the order of the loops.  The running position `p` of the code is written in closed
form: it is the start of the block plus the sizes of the parts of the block passed so far.
-/

namespace Verif
namespace Fcidump
variable {K : Type}

/-- fcidump.py:199-200 `t(s, i, j)`. -/
def Integrals.t : Integrals K → Bool → Nat → Nat → K
  | .restricted h _, _, i, j => h (i, j)
  | .unrestricted ha hb _ _ _, s, i, j => if s then hb (i, j) else ha (i, j)

/-- fcidump.py:202-211 `v(sij, skl, i, j, k, l)`. -/
def Integrals.v : Integrals K → Bool → Bool → Nat → Nat → Nat → Nat → K
  | .restricted _ g, _, _, i, j, k, l => g (i, j, k, l)
  | .unrestricted _ _ gaa gab gbb, s, s', i, j, k, l =>
    if s = s' then if s then gbb (i, j, k, l) else gaa (i, j, k, l)
    else if s = false ∧ s' = true then gab (i, j, k, l)
    else gab (k, l, i, j)

end Fcidump

namespace ConvMpo
open Hamiltonian
variable {K : Type}

/-- expr.py:28-50, the names of the symbols of the conventional Hamiltonian (see also `nameI`, `nameH`; `C` and `D` are 0 and 1). -/
def nameR : Nat := 7
def nameRD : Nat := 8
def nameA : Nat := 9
def nameAD : Nat := 10
def nameB : Nat := 11
def nameP : Nat := 12
def namePD : Nat := 13
def nameQ : Nat := 14

/-- Symbols. -/
abbrev Sym (K : Type) := OpElement Nat SZ K

/-- `for s in range(2)`. -/
def spins : List Bool := [false, true]

/-- A spin as an index. -/
def idx (s : Bool) : Int := if s then 1 else 0

section
variable [One K] (g : List Nat)

/-- symbolic_mpo.py:118-119: labels of the operators with one index. -/
def qa (m : Nat) (s : Bool) : SZ := ⟨1, sz s, g.getD m 0⟩
def qb (m : Nat) (s : Bool) : SZ := ⟨-1, -sz s, g.getD m 0⟩

/-- symbolic_mpo.py:120-127: operators with one index. -/
def cSym (m : Nat) (s : Bool) : Sym K := ⟨0, [m, idx s], 1, qa g m s⟩
def dSym (m : Nat) (s : Bool) : Sym K := ⟨1, [m, idx s], 1, qb g m s⟩
def rdSym (m : Nat) (s : Bool) : Sym K := ⟨nameRD, [m, idx s], 1, qa g m s⟩
def rSym (m : Nat) (s : Bool) : Sym K := ⟨nameR, [m, idx s], 1, qb g m s⟩

/-- symbolic_mpo.py:134-139: labels of the operators with two indices; `g` are the point-group labels. -/
def qp (i j : Nat) (si sj : Bool) : SZ := ⟨2, sz si + sz sj, g.getD i 0 ^^^ g.getD j 0⟩
def qm (i j : Nat) (si sj : Bool) : SZ := ⟨0, sz si - sz sj, g.getD i 0 ^^^ g.getD j 0⟩

/-- symbolic_mpo.py:140-151: operators with two indices. -/
def aSym (i j : Nat) (si sj : Bool) : Sym K := ⟨nameA, [i, j, idx si, idx sj], 1, qp g i j si sj⟩
def adSym (i j : Nat) (si sj : Bool) : Sym K := ⟨nameAD, [i, j, idx si, idx sj], 1, -qp g i j si sj⟩
def bSym (i j : Nat) (si sj : Bool) : Sym K := ⟨nameB, [i, j, idx si, idx sj], 1, qm g i j si sj⟩
def pSym (i j : Nat) (si sj : Bool) : Sym K := ⟨nameP, [i, j, idx si, idx sj], 1, -qp g i j si sj⟩
def pdSym (i j : Nat) (si sj : Bool) : Sym K := ⟨namePD, [i, j, idx si, idx sj], 1, qp g i j si sj⟩
def qSym (i j : Nat) (si sj : Bool) : Sym K := ⟨nameQ, [i, j, idx si, idx sj], 1, -qm g i j si sj⟩

end

/-- expr.py:120-124 `f * op`; the number 0 is `none`. -/
def scale [Zero K] [Mul K] [DecidableEq K] (f : K) (e : Sym K) : Option (Sym K) :=
  if f = 0 then none else some { e with factor := e.factor * f }

/-- One assignment `mat[row, col] = val`; the value `none` is the number 0.  Assignments to a `SymbolicMatrix` are appended (symbolic.py:151-154), so that values
assigned to the same place add up in `to_sparse`. -/
structure Put (K : Type) where
  row : Nat
  col : Nat
  val : Option (Sym K)

section
variable [Field K] [DecidableEq K] (v : Bool → Bool → Nat → Nat → Nat → Nat → K) (g : List Nat) (sym : Bool) (n m : Nat)

/-- symbolic_mpo.py:164-179 and 198-211, the row vector of the first site (`m = 0`).  The sites `j` of the loops in lines 172-179 are `1`, ..., `n - 1`. -/
def firstRow : List (Put K) :=
  [⟨0, 0, some hSymbol⟩, ⟨0, 1, some iSymbol⟩,
   ⟨0, 2, some (cSym g 0 false)⟩, ⟨0, 3, some (cSym g 0 true)⟩, ⟨0, 4, some (dSym g 0 false)⟩, ⟨0, 5, some (dSym g 0 true)⟩] ++
  (spins.flatMap fun s => (List.range' 1 (n - 1)).map fun j => ⟨0, 6 + s.toNat * (n - 1) + j - 0 - 1, some (rdSym g j s)⟩) ++
  (spins.flatMap fun s => (List.range' 1 (n - 1)).map fun j => ⟨0, 6 + 2 * (n - 1) + s.toNat * (n - 1) + j - 0 - 1, some (rSym g j s).neg⟩) ++
  (spins.flatMap fun sr => spins.map fun sl => ⟨0, 6 + 4 * (n - 1) + (sr.toNat * 2 + sl.toNat), some (aSym g 0 0 sl sr)⟩) ++
  (spins.flatMap fun sr => spins.map fun sl => ⟨0, 6 + 4 * (n - 1) + 4 + (sr.toNat * 2 + sl.toNat), some (adSym g 0 0 sl sr)⟩) ++
  (spins.flatMap fun sr => spins.map fun sl => ⟨0, 6 + 4 * (n - 1) + 8 + (sr.toNat * 2 + sl.toNat), some (bSym g 0 0 sl sr)⟩)

/-- symbolic_mpo.py:180-197 and 213-249, the first column of the matrix of a site `m > 0`; the column vector of the last site is this column. -/
def firstColumn : List (Put K) :=
  [⟨0, 0, some iSymbol⟩, ⟨1, 0, some hSymbol⟩] ++
  (spins.flatMap fun s => (List.range m).map fun j => ⟨2 + s.toNat * m + j, 0, some (rSym g j s)⟩) ++
  (spins.flatMap fun s => (List.range m).map fun j => ⟨2 + 2 * m + s.toNat * m + j, 0, some (rdSym g j s).neg⟩) ++
  (spins.map fun s => ⟨2 + 4 * m + s.toNat * (n - m), 0, some (dSym g m s)⟩) ++
  (spins.map fun s => ⟨2 + 4 * m + 2 * (n - m) + s.toNat * (n - m), 0, some (cSym g m s)⟩) ++
  (spins.flatMap fun sr => spins.flatMap fun sl => (List.range m).flatMap fun j => (List.range m).map fun k =>
    ⟨2 + 4 * m + 4 * (n - m) + ((sr.toNat * 2 + sl.toNat) * m + j) * m + k, 0, scale (1 / 2) (pSym g j k sl sr)⟩) ++
  (spins.flatMap fun sr => spins.flatMap fun sl => (List.range m).flatMap fun j => (List.range m).map fun k =>
    ⟨2 + 4 * m + 4 * (n - m) + ((4 + sr.toNat * 2 + sl.toNat) * m + j) * m + k, 0, scale (1 / 2) (pdSym g j k sl sr)⟩) ++
  (spins.flatMap fun sr => spins.flatMap fun sl => (List.range m).flatMap fun j => (List.range m).map fun k =>
    ⟨2 + 4 * m + 4 * (n - m) + ((8 + sr.toNat * 2 + sl.toNat) * m + j) * m + k, 0, some (qSym g j k sl sr)⟩)

/-- symbolic_mpo.py:253-272: pointers to the rows. -/
def pI : Nat := 1
def pC (s : Bool) : Nat := if s then 2 + m else 2
def pD (s : Bool) : Nat := if s then 2 + m * 3 else 2 + m * 2
def pRD (s : Bool) : Nat := if s then 2 + m * 3 + n - m else 2 + m * 4 - m
def pR (s : Bool) : Nat := if s then 2 + m + n * 3 - m else 2 + m * 2 + n * 2 - m
def pA (sl sr : Bool) : Nat := 2 + n * 4 + m * m * (if sl then if sr then 3 else 1 else if sr then 2 else 0)
def pAD (sl sr : Bool) : Nat := 2 + n * 4 + m * m * (if sl then if sr then 7 else 5 else if sr then 6 else 4)
def pB (sl sr : Bool) : Nat := 2 + n * 4 + m * m * (if sl then if sr then 11 else 9 else if sr then 10 else 8)

/-- symbolic_mpo.py:273-278: the columns of the creation operators. -/
def cColumns : List (Put K) := spins.flatMap fun s =>
  ((List.range m).map fun j => ⟨pC m s + j, 2 + s.toNat * (m + 1) + j, some iSymbol⟩) ++ [⟨pI, 2 + s.toNat * (m + 1) + m, some (cSym g m s)⟩]

/-- symbolic_mpo.py:279-283: the columns of the annihilation operators. -/
def dColumns : List (Put K) := spins.flatMap fun s =>
  ((List.range m).map fun j => ⟨pD m s + j, 2 + 2 * (m + 1) + s.toNat * (m + 1) + j, some iSymbol⟩) ++
    [⟨pI, 2 + 2 * (m + 1) + s.toNat * (m + 1) + m, some (dSym g m s)⟩]

/-- symbolic_mpo.py:287-323: one column of the operators `RD`, for the later site `i`; `c` is the column. -/
def rdColumn (s : Bool) (i c : Nat) : List (Put K) :=
  [⟨pRD n m s + i, c, some iSymbol⟩, ⟨pI, c, some (rdSym g i s)⟩] ++
  (spins.flatMap fun sp => (List.range m).flatMap fun k =>
    [⟨pD m sp + k, c, some (pdSym g i k s sp)⟩, ⟨pC m sp + k, c, some (qSym g k i sp s)⟩]) ++
  (if sym then
    spins.flatMap fun sp => (List.range m).flatMap fun j => (List.range m).flatMap fun l =>
      [⟨pA n m s sp + j * m + l, c, scale (1 / 2 * v s sp i j m l) (dSym g m sp)⟩,
       ⟨pA n m sp s + j * m + l, c, scale (-(1 / 2) * v s sp i l m j) (dSym g m sp)⟩]
  else
    spins.flatMap fun sp => (List.range m).flatMap fun j => (List.range m).map fun l =>
      ⟨pA n m s sp + j * m + l, c, scale (v s sp i j m l) (dSym g m sp)⟩) ++
  (spins.flatMap fun sp => (List.range m).flatMap fun k => (List.range m).map fun l =>
    ⟨pB n m sp sp + l * m + k, c, scale (v s sp i m k l) (cSym g m s)⟩) ++
  (spins.flatMap fun sp => (List.range m).flatMap fun j => (List.range m).map fun k =>
    ⟨pB n m s sp + j * m + k, c, scale (-1 * v s sp i j k m) (cSym g m sp)⟩)

/-- symbolic_mpo.py:284-324: the columns of the operators `RD`. -/
def rdColumns : List (Put K) := spins.flatMap fun s => (List.range' (m + 1) (n - (m + 1))).flatMap fun i =>
  rdColumn v g sym n m s i (2 + 4 * (m + 1) + s.toNat * (n - (m + 1)) + i - (m + 1))

/-- symbolic_mpo.py:328-364: one column of the operators `R`. -/
def rColumn (s : Bool) (i c : Nat) : List (Put K) :=
  [⟨pR n m s + i, c, some iSymbol⟩, ⟨pI, c, some (rSym g i s).neg⟩] ++
  (spins.flatMap fun sp => (List.range m).flatMap fun k =>
    [⟨pC m sp + k, c, scale (-1) (pSym g i k s sp)⟩, ⟨pD m sp + k, c, scale (-1) (qSym g i k s sp)⟩]) ++
  (if sym then
    spins.flatMap fun sp => (List.range m).flatMap fun j => (List.range m).flatMap fun l =>
      [⟨pAD n m s sp + j * m + l, c, scale (-(1 / 2) * v s sp i j m l) (cSym g m sp)⟩,
       ⟨pAD n m sp s + j * m + l, c, scale (1 / 2 * v s sp i l m j) (cSym g m sp)⟩]
  else
    spins.flatMap fun sp => (List.range m).flatMap fun j => (List.range m).map fun l =>
      ⟨pAD n m s sp + j * m + l, c, scale (-1 * v s sp i j m l) (cSym g m sp)⟩) ++
  (spins.flatMap fun sp => (List.range m).flatMap fun k => (List.range m).map fun l =>
    ⟨pB n m sp sp + k * m + l, c, scale (-1 * v s sp i m k l) (dSym g m s)⟩) ++
  (spins.flatMap fun sp => (List.range m).flatMap fun j => (List.range m).map fun k =>
    ⟨pB n m sp s + k * m + j, c, scale (-1 * -1 * v s sp i j k m) (dSym g m sp)⟩)

/-- symbolic_mpo.py:325-365: the columns of the operators `R`. -/
def rColumns : List (Put K) := spins.flatMap fun s => (List.range' (m + 1) (n - (m + 1))).flatMap fun i =>
  rColumn v g sym n m s i (2 + 4 * (m + 1) + 2 * (n - (m + 1)) + s.toNat * (n - (m + 1)) + i - (m + 1))

/-- Where the columns of the operators with two indices start: after `A` at 0, `AD` at 4, `B` at 8 (symbolic_mpo.py:366-402, the value of `p`). -/
def pPair (k : Nat) (sl sr : Bool) : Nat :=
  2 + 4 * (m + 1) + 4 * (n - (m + 1)) + (k + sr.toNat * 2 + sl.toNat) * ((m + 1) * (m + 1))

/-- symbolic_mpo.py:366-377: the columns of the operators `A`. -/
def aColumns : List (Put K) := spins.flatMap fun sr => spins.flatMap fun sl =>
  ((List.range m).flatMap fun i => (List.range m).map fun j => ⟨pA n m sl sr + i * m + j, pPair n m 0 sl sr + i * (m + 1) + j, some iSymbol⟩) ++
  ((List.range m).flatMap fun i =>
    [⟨pC m sl + i, pPair n m 0 sl sr + i * (m + 1) + m, some (cSym g m sr)⟩, ⟨pC m sr + i, pPair n m 0 sl sr + m * (m + 1) + i, some (cSym g m sl).neg⟩]) ++
  [⟨pI, pPair n m 0 sl sr + m * (m + 1) + m, some (aSym g m m sl sr)⟩]

/-- symbolic_mpo.py:378-389: the columns of the operators `AD`. -/
def adColumns : List (Put K) := spins.flatMap fun sr => spins.flatMap fun sl =>
  ((List.range m).flatMap fun i => (List.range m).map fun j => ⟨pAD n m sl sr + i * m + j, pPair n m 4 sl sr + i * (m + 1) + j, some iSymbol⟩) ++
  ((List.range m).flatMap fun i =>
    [⟨pD m sl + i, pPair n m 4 sl sr + i * (m + 1) + m, some (dSym g m sr).neg⟩, ⟨pD m sr + i, pPair n m 4 sl sr + m * (m + 1) + i, some (dSym g m sl)⟩]) ++
  [⟨pI, pPair n m 4 sl sr + m * (m + 1) + m, some (adSym g m m sl sr)⟩]

/-- symbolic_mpo.py:390-402: the columns of the operators `B`. -/
def bColumns : List (Put K) := spins.flatMap fun sr => spins.flatMap fun sl =>
  ((List.range m).flatMap fun i => (List.range m).map fun j => ⟨pB n m sl sr + i * m + j, pPair n m 8 sl sr + i * (m + 1) + j, some iSymbol⟩) ++
  ((List.range m).flatMap fun i =>
    [⟨pC m sl + i, pPair n m 8 sl sr + i * (m + 1) + m, some (dSym g m sr)⟩, ⟨pD m sr + i, pPair n m 8 sl sr + m * (m + 1) + i, some (cSym g m sl).neg⟩]) ++
  [⟨pI, pPair n m 8 sl sr + m * (m + 1) + m, some (bSym g m m sl sr)⟩]

/-- symbolic_mpo.py:153-402: the assignments to the matrix of site `m`, in their order. -/
def puts : List (Put K) :=
  if m = 0 then firstRow g n
  else if m + 1 = n then firstColumn g n m
  else firstColumn g n m ++ [⟨1, 1, some iSymbol⟩] ++ cColumns g m ++ dColumns g m ++ rdColumns v g sym n m ++ rColumns v g sym n m ++
    aColumns g n m ++ adColumns g n m ++ bColumns g n m

/-- symbolic_mpo.py:404-446: the operators of the left bond. -/
def lop : List (Sym K) :=
  if m = 0 then [hSymbol] else
  [iSymbol, hSymbol] ++
  (spins.flatMap fun s => (List.range m).map fun j => rSym (K := K) g j s) ++
  (spins.flatMap fun s => (List.range m).map fun j => (rdSym (K := K) g j s).neg) ++
  (spins.flatMap fun s => (List.range' m (n - m)).map fun j => dSym (K := K) g j s) ++
  (spins.flatMap fun s => (List.range' m (n - m)).map fun j => cSym (K := K) g j s) ++
  (spins.flatMap fun sr => spins.flatMap fun sl => (List.range m).flatMap fun j => (List.range m).map fun k => { pSym (K := K) g j k sl sr with factor := (1 / 2 : K) }) ++
  (spins.flatMap fun sr => spins.flatMap fun sl => (List.range m).flatMap fun j => (List.range m).map fun k => { pdSym (K := K) g j k sl sr with factor := (1 / 2 : K) }) ++
  (spins.flatMap fun sr => spins.flatMap fun sl => (List.range m).flatMap fun j => (List.range m).map fun k => qSym (K := K) g j k sl sr)

/-- symbolic_mpo.py:448-488: the operators of the right bond. -/
def rop : List (Sym K) :=
  if m + 1 = n then [hSymbol] else
  [hSymbol, iSymbol] ++
  (spins.flatMap fun s => (List.range (m + 1)).map fun j => cSym (K := K) g j s) ++
  (spins.flatMap fun s => (List.range (m + 1)).map fun j => dSym (K := K) g j s) ++
  (spins.flatMap fun s => (List.range' (m + 1) (n - (m + 1))).map fun j => rdSym (K := K) g j s) ++
  (spins.flatMap fun s => (List.range' (m + 1) (n - (m + 1))).map fun j => (rSym (K := K) g j s).neg) ++
  (spins.flatMap fun sr => spins.flatMap fun sl => (List.range (m + 1)).flatMap fun j => (List.range (m + 1)).map fun k => aSym (K := K) g j k sl sr) ++
  (spins.flatMap fun sr => spins.flatMap fun sl => (List.range (m + 1)).flatMap fun j => (List.range (m + 1)).map fun k => adSym (K := K) g j k sl sr) ++
  (spins.flatMap fun sr => spins.flatMap fun sl => (List.range (m + 1)).flatMap fun j => (List.range (m + 1)).map fun k => bSym (K := K) g j k sl sr)

end

/-! ### Site operators -/

/-- A spin from an index. -/
def spinOf (s : Int) : Option Bool := if s = 0 then some false else if s = 1 then some true else none

section
variable [Field K] (tiny : K → Bool) (t : Bool → Nat → Nat → K) (v : Bool → Bool → Nat → Nat → Nat → Nat → K) (g : List Nat) (m : Nat)

/-- hamiltonian.py:334-343: `R`.  The number 0 is `some none`; `tiny x` is `abs(x) < cutoff`. -/
def rOp (i : Nat) (s : Bool) : Option (Option (OpT SZ K)) :=
  if g.getD i 0 ≠ g.getD m 0 ∨ (tiny (t s i m) ∧ tiny (v s false i m m m) ∧ tiny (v s true i m m m)) then some none
  else (plus (times (1 / 2 * t s i m) (dOp (g.getD m 0) s))
    (mm (plus (times (v s false i m m m) (bOp (g.getD m 0) false false)) (times (v s true i m m m) (bOp (g.getD m 0) true true))) (dOp (g.getD m 0) s))).map some

/-- hamiltonian.py:344-353: `RD`. -/
def rdOp (i : Nat) (s : Bool) : Option (Option (OpT SZ K)) :=
  if g.getD i 0 ≠ g.getD m 0 ∨ (tiny (t s i m) ∧ tiny (v s false i m m m) ∧ tiny (v s true i m m m)) then some none
  else (plus (times (1 / 2 * t s i m) (cOp (g.getD m 0) s))
    (mm (cOp (g.getD m 0) s) (plus (times (v s false i m m m) (bOp (g.getD m 0) false false)) (times (v s true i m m m) (bOp (g.getD m 0) true true))))).map some

/-- hamiltonian.py:354-359: `P`. -/
def pOp (i k : Nat) (si sk : Bool) : Option (Option (OpT SZ K)) :=
  if tiny (v si sk i m k m) then some none else (times (v si sk i m k m) (adOp (g.getD m 0) si sk)).map some

/-- hamiltonian.py:360-365: `PD`. -/
def pdOp (i k : Nat) (si sk : Bool) : Option (Option (OpT SZ K)) :=
  if tiny (v si sk i m k m) then some none else (times (v si sk i m k m) (aOp (g.getD m 0) si sk)).map some

/-- hamiltonian.py:366-382: `Q`. -/
def qOp (i j : Nat) (si sj : Bool) : Option (Option (OpT SZ K)) :=
  if si = sj then
    if tiny (v si sj i m m j) ∧ tiny (v si false i j m m) ∧ tiny (v si true i j m m) then some none
    else (plus (times (-v si sj i m m j) (bOp (g.getD m 0) sj si))
      (plus (times (v si false i j m m) (bOp (g.getD m 0) false false)) (times (v si true i j m m) (bOp (g.getD m 0) true true)))).map some
  else
    if tiny (v si sj i m m j) then some none else (times (-v si sj i m m j) (bOp (g.getD m 0) sj si)).map some

/-- hamiltonian.py:318-384 `get_op` on site `m`, for all the symbols of the conventional Hamiltonian.  `none` is an exception, `some none` the number 0. -/
def getOp (e : Sym K) : Option (Option (OpT SZ K)) :=
  if e.name = nameI then (iOp (g.getD m 0)).map some
  else if e.name = nameH then (hOp (g.getD m 0) (t false m m) (t true m m) (v false true m m m m) (v true false m m m m)).map some
  else match e.site with
    | [i, s] => (spinOf s).bind fun s =>
      if e.name = 0 then (cOp (g.getD m 0) s).map some
      else if e.name = 1 then (dOp (g.getD m 0) s).map some
      else if e.name = nameR then rOp tiny t v g m i.toNat s
      else if e.name = nameRD then rdOp tiny t v g m i.toNat s
      else none
    | [i, j, si, sj] => (spinOf si).bind fun si => (spinOf sj).bind fun sj =>
      if e.name = nameA then (aOp (g.getD m 0) si sj).map some
      else if e.name = nameAD then (adOp (g.getD m 0) si sj).map some
      else if e.name = nameB then (bOp (g.getD m 0) si sj).map some
      else if e.name = nameP then pOp tiny v g m i.toNat j.toNat si sj
      else if e.name = namePD then pdOp tiny v g m i.toNat j.toNat si sj
      else if e.name = nameQ then qOp tiny v g m i.toNat j.toNat si sj
      else none
    | _ => none

/-- symbolic_mpo.py:490-491, symbolic.py:263-272 `deflate` and 609-644: what an assignment contributes to the tensor.  The number 0, symbols whose operator is the number 0
and symbols whose operator has no blocks are removed. -/
def cell (p : Put K) : Option (Option (Symbolic.Cell SZ K)) := match p.val with
  | none => some none
  | some e => (getOp tiny t v g m e.abs).map fun o => o.bind fun T =>
    if T.odd.isEmpty && T.even.isEmpty then none else some ⟨p.row, p.col, e.factor, T⟩

/-- `QCSymbolicMPO(hamil).to_sparse()`: the tensor of site `m`. -/
def tensor [DecidableEq K] (sym : Bool) (n : Nat) : Option (OpT SZ K) :=
  ((puts v g sym n m).mapM (cell tiny t v g m)).bind fun cells =>
    Symbolic.toSparse 0 ((lop (K := K) g n m).map (·.label)) ((rop (K := K) g n m).map (·.label)) (cells.filterMap id)

end

/-- hamiltonian.py:179-193 `build_qc_mpo` (without the C++ extension): the tensors of the Hamiltonian with the integrals `x`; the constant is kept next to them.
`sym` is the option `symmetrized_p`, by default true. -/
def buildQcMpo [Field K] [DecidableEq K] (tiny : K → Bool) (x : Fcidump.Integrals K) (orbSym : List Nat) (sym : Bool) : Option (List (OpT SZ K)) :=
  (List.range orbSym.length).mapM fun m => tensor tiny x.t x.v orbSym m sym orbSym.length

end ConvMpo
end Verif
