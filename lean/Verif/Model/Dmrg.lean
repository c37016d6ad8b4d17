import Mathlib.Order.Defs.LinearOrder
import Mathlib.Algebra.Group.Defs

/-!
Model of the driver `DMRG.solve`, `/repo/pyblock3/algorithms/dmrg.py`.

The work at one pair of sites (environments, local eigenvalue problem, decomposition, replacement of the tensors; lines 88-135) is an
arbitrary function of the parameters of the call and of the state of the partition object.  `R` are the numbers used for noises and
thresholds, `E` the energies: numbers, or tuples of numbers in lexicographic order when there are several roots (lines 79, 136-139).
Printing and timing are left out.
-/

namespace Verif
namespace Dmrg

/-- The attributes of the driver that `solve` reads and writes: `bdims`, `noises`, `dav_thrds`, `init_site`. -/
structure Driver (R : Type) where
  bdims : List Nat
  noises : List R
  thrds : List R
  initSite : Option Nat

/-- The parameters used at one pair of sites: number of the sweep, first site, direction, bond dimension, noise, threshold. -/
structure Call (R : Type) where
  sweep : Nat
  site : Nat
  forward : Bool
  bdim : Nat
  noise : R
  thrd : R
  deriving DecidableEq

section
variable {R E S : Type} [LinearOrder R] [LinearOrder E] [Zero R] [Mul R]

/-- dmrg.py:60-61.  `none`: `IndexError` of `self.bdims[-1]` for an empty list. -/
def padBdims (n : Nat) (l : List Nat) : Option (List Nat) :=
  if l.length < n then l.getLast?.map fun x => l ++ List.replicate (n - l.length) x else some l

/-- dmrg.py:62-65.  (Multiplying a list by a negative number gives the empty list.) -/
def padNoises (n : Nat) (l : List R) : List R :=
  match l.getLast? with
  | none => List.replicate n 0
  | some x => l ++ List.replicate (n - l.length) x

/-- dmrg.py:66-72, the thresholds appended for the sweeps `i` from `len(dav_thrds)`; `tiny` is `1E-10`, `tenth` is `0.1`.  The list of
noises has at least `n` elements at this point. -/
def fillThrds (tiny tenth tol : R) (n : Nat) (noises thrds : List R) : List R :=
  thrds ++ (List.range' thrds.length (n - thrds.length)).map fun i =>
    if noises.getD i 0 = 0 then (if tol = 0 then tiny else max (tol * tenth) tiny) else max (noises.getD i 0) tiny

/-- dmrg.py:85-87: the sites visited by one sweep, in order. -/
def sites (nSites dot : Nat) (initSite : Option Nat) (forward : Bool) : List Nat :=
  let r := List.range (nSites + 1 - dot)
  (if forward then r else r.reverse).filter fun i =>
    match initSite with
    | some s => !(forward && decide (i < s))
    | none => true

/-- dmrg.py:85-139, one sweep: each site is handled by `step`, the energy of the sweep is the smallest one, starting from `big`
(`1E10`).  Also returns the list of the calls with their energies. -/
def sweep (step : Call R → S → E × S) (big : E) (calls : List (Call R)) (s : S) : List (Call R × E) × E × S :=
  calls.foldl (fun st c => let r := step c st.2.2; (st.1 ++ [(c, r.1)], min st.2.1 r.1, r.2)) ([], big, s)

/-- dmrg.py:146-151 and 159: the test for leaving the loop after a sweep with energy `e` and noise `x`; `prev` is the energy of the
previous sweep (`none` for the first one), `final` is `noises[-1]`. -/
def stopTest (de : E → E → R) (tol final : R) (prev : Option E) (e : E) (x : R) : Bool :=
  match prev with
  | none => false
  | some p => decide (de e p < tol) && decide (x = final)

/-- dmrg.py:75-161, the loop over sweeps with `left` sweeps to go.  `prev` is the energy of the previous sweep (`none` for the first
one), `de` the absolute difference of two energies (of the first roots).  The lists of the driver have enough elements. -/
def loop (step : Call R → S → E × S) (big : E) (de : E → E → R) (d : Driver R) (nSites dot : Nat) (tol : R) :
    (left iw : Nat) → (forward : Bool) → (prev : Option E) → S → List (List (Call R × E)) × List E × S
  | 0, _, _, _, s => ([], [], s)
  | left + 1, iw, forward, prev, s =>
    let calls := (sites nSites dot d.initSite forward).map fun i =>
      (⟨iw, i, forward, d.bdims.getD iw 0, d.noises.getD iw 0, d.thrds.getD iw 0⟩ : Call R)
    let r := sweep step big calls s
    if stopTest de tol (d.noises.getLastD 0) prev r.2.1 (d.noises.getD iw 0) then ([r.1], [r.2.1], r.2.2) else
    let t := loop step big de d nSites dot tol left (iw + 1) (!forward) (some r.2.1) r.2.2
    (r.1 :: t.1, r.2.1 :: t.2.1, t.2.2)

/-- dmrg.py:56-162 `solve`: the driver after the call (its lists have been extended), the calls sweep by sweep, the list
`energies`, and the final state. -/
def solve (step : Call R → S → E × S) (big : E) (de : E → E → R) (tiny tenth : R) (nSites : Nat) (d : Driver R) (nSweeps : Nat) (tol : R)
    (dot : Nat) (forward : Bool) (s : S) : Option (Driver R × List (List (Call R × E)) × List E × S) :=
  (padBdims nSweeps d.bdims).map fun bdims =>
    let noises := padNoises nSweeps d.noises
    let d' : Driver R := ⟨bdims, noises, fillThrds tiny tenth tol nSweeps noises d.thrds, d.initSite⟩
    (d', loop step big de d' nSites dot tol nSweeps 0 forward none s)

end
end Dmrg
end Verif
