import Verif.Model.FermAdd

/-!
Model of the phases computed by the compiled kernels for flat fermionic tensors, `/repo/src/flat_fermion.cpp`.

Simplified: the bit sets `par_pat` and `tag` are lists (the code asserts at most 64 legs, lines 127 and 329); the table `computed` of phases already
computed for a parity pattern is left out; a slot of `fperm` that is written for an even leg and then overwritten is not written.
-/

namespace Verif
namespace FermPhase

/-- flat_fermion.cpp:35-36: `rev_idx[i]`, the number of odd legs before leg `i`. -/
def revIdx (odd : List Bool) (i : Nat) : Nat := (odd.take i).count true

/-- flat_fermion.cpp:37-38, 66-74, 92-101: the odd legs of `order`, each by its number among the odd legs. -/
def fperm (odd : List Bool) (order : List Nat) : List Nat :=
  (order.filter fun l => odd.getD l false).map (revIdx odd)

/-- flat_fermion.cpp:42-43: `while (!((tag >> l) & 1)) n ^= 1, tag |= 1 << l, l = fperm[l]`.  Each turn tags a new position, so `fuel` above the number of
positions is never used up. -/
def walk (fp : List Nat) : Nat → List Nat → Nat → Bool → List Nat × Bool
  | 0, tag, _, n => (tag, n)
  | fuel + 1, tag, l, n => if l ∈ tag then (tag, n) else walk fp fuel (l :: tag) (fp.getD l 0) (!n)

/-- flat_fermion.cpp:40-44: one turn of the loop over the positions.  State: `tag`, `n`. -/
def cycleStep (fp : List Nat) (st : List Nat × Bool) (i : Nat) : List Nat × Bool :=
  walk fp (fp.length + 1) st.1 i (st.2 ^^ !(decide (i ∈ st.1)))

/-- flat_fermion.cpp:39-45: true if the number of cycles of even length is odd. -/
def oddCycles (fp : List Nat) : Bool := ((List.range fp.length).foldl (cycleStep fp) ([], false)).2

/-- flat_fermion.cpp:30-46 and 140 `compute_phase`, as a sign. -/
def phase1 (odd : List Bool) (perm : List Nat) : Int := 1 - 2 * (oddCycles (fperm odd perm)).toNat

/-- flat_fermion.cpp:48-76 and 339 `compute_phase2`: first the free legs, then the contracted legs backwards. -/
def phase2 (odd : List Bool) (idx : List Nat) : Int :=
  1 - 2 * (oddCycles (fperm odd (((List.range odd.length).filter fun i => i ∉ idx) ++ idx.reverse))).toNat

/-- flat_fermion.cpp:78-105 and 350 `compute_phase3`: first the contracted legs, then the free legs. -/
def phase3 (odd : List Bool) (idx : List Nat) : Int :=
  1 - 2 * (oddCycles (fperm odd (idx ++ (List.range odd.length).filter fun i => i ∉ idx))).toNat

end FermPhase
end Verif
