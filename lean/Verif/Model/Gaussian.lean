import Verif.Model.Py
import Mathlib.Algebra.Field.Defs
import Mathlib.Data.Fin.Basic
import Mathlib.Algebra.BigOperators.Group.Finset.Basic
import Mathlib.Data.Fintype.Basic

/-!
Model of `/repo/pyblock3/gaussian/core.py`: layers of a network of gates, density matrices and energies of Gaussian states.

A Python `set` is a list without repetitions; only membership is observed.
-/

namespace Verif
namespace Gaussian
variable {α : Type} [DecidableEq α]

/-- gaussian/core.py:83-112: the wires of a gate, outputs (`u_idx`) and inputs (`d_idx`). -/
structure Gate (α : Type) where
  u : List α
  d : List α

/-- `set.add`. -/
def setAdd (s : List α) (x : α) : List α := if x ∈ s then s else s ++ [x]

/-- `set.remove`; `none` is `KeyError`. -/
def setRemove (s : List α) (x : α) : Option (List α) := if x ∈ s then some (s.filter (· ≠ x)) else none

/-- gaussian/core.py:166-182 `get_initial_indices` (as a set; the sorting of the result does not matter for `get_layers`). -/
def initialIndices (G : List (Gate α)) : List α :=
  let all := G.foldl (fun s g => g.d.foldl setAdd s) []
  G.foldl (fun s g => g.u.foldl (fun s x => if x ∈ s then s.filter (· ≠ x) else s) s) all

/-- gaussian/core.py:184-200 `get_terminal_indices` (as a set). -/
def terminalIndices (G : List (Gate α)) : List α :=
  let all := G.foldl (fun s g => g.u.foldl setAdd s) []
  G.foldl (fun s g => g.d.foldl (fun s x => if x ∈ s then s.filter (· ≠ x) else s) s) all

/-- gaussian/core.py:236-244, the loop over `current_tensor_idxs`.  State: `current_layer`, `next_tensor_idxs`, `next_idxs`.
`none` is the `KeyError` of `next_idxs.remove`. -/
def layerLoop (G : List (Gate α)) (cur : List α) (todo : List Nat) : Option (List Nat × List Nat × List α) :=
  todo.foldlM (fun st its =>
    let ts := G.getD its ⟨[], []⟩
    if ts.d.all (fun ix => ix ∈ cur) then
      (ts.d.foldlM setRemove st.2.2).map fun nx => (st.1 ++ [its], st.2.1, ts.u.foldl setAdd nx)
    else some (st.1, st.2.1 ++ [its], st.2.2)) ([], [], cur)

/-- Outcome of the `while` loop: still running after the given number of turns, an exception, or the layers. -/
inductive Outcome where
  | running
  | error
  | ok (layers : List (List Nat))
  deriving DecidableEq

/-- gaussian/core.py:229-252, the `while` loop, at most `fuel` turns. -/
def layersLoop (G : List (Gate α)) : Nat → List α → List Nat → List (List Nat) → Outcome
  | 0, _, _, _ => .running
  | fuel + 1, cur, todo, layers =>
    match layerLoop G cur todo with
    | none => .error
    | some (layer, rest, nx) =>
      if rest = [] then .ok (layers ++ [layer]) else layersLoop G fuel nx rest (layers ++ [layer])

/-- gaussian/core.py:218-252 `get_layers`.  The first test `range(0, n) != []` is always true, so the loop body runs at least
once. -/
def getLayers (G : List (Gate α)) (fuel : Nat) : Outcome :=
  layersLoop G fuel (initialIndices G) (List.range G.length) []

/-! ### Energies -/

section
variable {K : Type} [Field K] {n : Nat}

/-- A matrix, and a tensor with four indices. -/
abbrev Mat (K : Type) (n : Nat) := Fin n → Fin n → K
abbrev Ten (K : Type) (n : Nat) := Fin n → Fin n → Fin n → Fin n → K

/-- `einsum('ij,ij->', a, b)`. -/
def dot2 (a b : Mat K n) : K := ∑ i, ∑ j, a i j * b i j

/-- `einsum('ijkl,ijkl->', a, b)`. -/
def dot4 (a b : Ten K n) : K := ∑ i, ∑ j, ∑ k, ∑ l, a i j k l * b i j k l

/-- `einsum('ij,kl,ijkl->', a, b, g)`. -/
def coulomb (a b : Mat K n) (g : Ten K n) : K := ∑ i, ∑ j, ∑ k, ∑ l, a i j * b k l * g i j k l

/-- `einsum('ij,kl,iklj->', a, b, g)`. -/
def exchange (a b : Mat K n) (g : Ten K n) : K := ∑ i, ∑ j, ∑ k, ∑ l, a i j * b k l * g i k l j

/-- `einsum('ij,kl->ijkl', a, b)`. -/
def outerC (a b : Mat K n) : Ten K n := fun i j k l => a i j * b k l

/-- `einsum('ij,kl->iklj', a, b)`: the entry of the result at (i, k, l, j). -/
def outerX (a b : Mat K n) : Ten K n := fun i k l j => a i j * b k l

/-- gaussian/core.py:578-583 `RHFTensorNetwork.make_rdm2`. -/
def rhfRdm2 (dm1 : Mat K n) : Ten K n := fun i j k l => outerC dm1 dm1 i j k l - outerX dm1 dm1 i j k l / 2

/-- gaussian/core.py:585-596 `RHFTensorNetwork.energy_tot`, with `dm1` given. -/
def rhfEnergy (h1e : Mat K n) (g2e : Option (Ten K n)) (dm1 : Mat K n) (dm2 : Option (Ten K n)) : K :=
  let e := dot2 dm1 h1e
  match g2e with
  | none => e
  | some g2e =>
    match dm2 with
    | some dm2 => e + dot4 dm2 g2e * (1 / 2)
    | none => e + coulomb dm1 dm1 g2e * (1 / 2) - exchange dm1 dm1 g2e * (1 / 4)

/-- gaussian/core.py:816-821 `GHFTensorNetwork.make_rdm2`. -/
def ghfRdm2 (dm1 : Mat K n) : Ten K n := fun i j k l => outerC dm1 dm1 i j k l - outerX dm1 dm1 i j k l

/-- gaussian/core.py:810-814: `GHFTensorNetwork` inherits `energy_tot` from `RHFTensorNetwork`. -/
def ghfEnergy (h1e : Mat K n) (g2e : Option (Ten K n)) (dm1 : Mat K n) (dm2 : Option (Ten K n)) : K :=
  rhfEnergy h1e g2e dm1 dm2

/-- gaussian/core.py:718-727 `UHFTensorNetwork.make_rdm2`: the parts aa, ab, bb. -/
def uhfRdm2 (a b : Mat K n) : Ten K n × Ten K n × Ten K n :=
  (fun i j k l => outerC a a i j k l - outerX a a i j k l, outerC a b, fun i j k l => outerC b b i j k l - outerX b b i j k l)

/-- gaussian/core.py:729-755 `UHFTensorNetwork.energy_tot`, with `dm1` given and `h1e`, `g2e` with one part per spin case (when a
single array is given, the code repeats it). -/
def uhfEnergy (h1e : Mat K n × Mat K n) (g2e : Option (Ten K n × Ten K n × Ten K n)) (dm1 : Mat K n × Mat K n)
    (dm2 : Option (Ten K n × Ten K n × Ten K n)) : K :=
  let e := dot2 dm1.1 h1e.1 + dot2 dm1.2 h1e.2
  match g2e with
  | none => e
  | some g =>
    match dm2 with
    | some d => e + dot4 d.1 g.1 * (1 / 2) + dot4 d.2.1 g.2.1 * 1 + dot4 d.2.2 g.2.2 * (1 / 2)
    | none =>
      e + coulomb dm1.1 dm1.1 g.1 * (1 / 2) - exchange dm1.1 dm1.1 g.1 * (1 / 2) + coulomb dm1.1 dm1.2 g.2.1 * 1 +
        coulomb dm1.2 dm1.2 g.2.2 * (1 / 2) - exchange dm1.2 dm1.2 g.2.2 * (1 / 2)

end
end Gaussian
end Verif
