import Verif.Model.Fermion
import Verif.Model.Symmetry
import Mathlib.Algebra.Star.Basic

/-!
Model of the operators of `/repo/pyblock3/algebra/fermion_ops.py` lines 1-296 and of
`/repo/pyblock3/algebra/fermion_encoding.py`.

The four states of a site are numbered 0 (empty), 1 (up), 2 (down), 3 (both).  The keyword `symmetry` selects one of the
five state maps; `flat`/`large` convert the result and are not modelled here (see C24 for the conversion).  `setting.DEFAULT_FERMION`
is `True`.  Numbers are elements of a ring.
-/

namespace Verif
namespace FermiOps

/-- fermion_encoding.py:4-27: a state map sends a state to (label, position in the sector, dimension of the sector). -/
abbrev StateMap (Q : Type) := Nat → Q × Nat × Nat

/-- fermion_encoding.py:4-7. -/
def smU11 : StateMap U11
  | 0 => (⟨0, 0⟩, 0, 1)
  | 1 => (⟨1, 1⟩, 0, 1)
  | 2 => (⟨1, -1⟩, 0, 1)
  | _ => (⟨2, 0⟩, 0, 1)

/-- fermion_encoding.py:9-12. -/
def smU1 : StateMap U1
  | 0 => (⟨0⟩, 0, 1)
  | 1 => (⟨1⟩, 0, 2)
  | 2 => (⟨1⟩, 1, 2)
  | _ => (⟨2⟩, 0, 1)

/-- fermion_encoding.py:14-17. -/
def smZ4 : StateMap Z4
  | 0 => (Zm.mk' 0, 0, 2)
  | 1 => (Zm.mk' 1, 0, 2)
  | 2 => (Zm.mk' 1, 1, 2)
  | _ => (Zm.mk' 0, 1, 2)

/-- fermion_encoding.py:19-22. -/
def smZ2 : StateMap Z2
  | 0 => (Zm.mk' 0, 0, 2)
  | 1 => (Zm.mk' 1, 0, 2)
  | 2 => (Zm.mk' 1, 1, 2)
  | _ => (Zm.mk' 0, 1, 2)

/-- fermion_encoding.py:24-27. -/
def smZ22 : StateMap Z22
  | 0 => (Z22.mk' 0 0, 0, 1)
  | 1 => (Z22.mk' 1 0, 0, 1)
  | 2 => (Z22.mk' 1 1, 0, 1)
  | _ => (Z22.mk' 0 1, 0, 1)

/-- The keys of `cre_map`, `sz_dict`, `pn_dict`. -/
def states : List Nat := [0, 1, 2, 3]

/-- fermion_encoding.py:29 `cre_map`; the character `+` is `true`, `-` is `false`. -/
def creMap : Nat → List Bool
  | 0 => []
  | 1 => [true]
  | 2 => [false]
  | _ => [true, false]

/-- fermion_encoding.py:30 `ann_map`. -/
def annMap : Nat → List Bool
  | 0 => []
  | 1 => [true]
  | 2 => [false]
  | _ => [false, true]

/-- fermion_ops.py:15 `hop_map`. -/
def hopMap : Nat → List Nat
  | 0 => [1, 2]
  | 1 => [0, 3]
  | 2 => [0, 3]
  | _ => [1, 2]

/-- fermion_encoding.py:34 `pn_dict`. -/
def pnDict : Nat → Nat
  | 0 => 0
  | 1 => 1
  | 2 => 1
  | _ => 2

/-- fermion_ops.py:30-34, the inner loop for one shared character.  State: `ia`, `ib`, `offset`. -/
def charStep (constOff : Nat) (st : List Bool × List Bool × Int) (c : Bool) : List Bool × List Bool × Int :=
  let inda := st.1.idxOf c
  let indb := st.2.1.idxOf c
  let ib := st.2.1.filter (· ≠ c)
  let ia := st.1.filter (· ≠ c)
  (ia, ib, st.2.2 + ((indb : Int) + ((ia.length : Int) - inda) + constOff))

/-- fermion_ops.py:24-37, one turn of the loop over the outgoing states.  State: `full_string`, `phase`.  The iteration order of
the Python `set` of shared characters is not specified: `ord ix` says which of the two orders is used at turn `ix`.
(`(-1) ** offset` depends on the parity of `offset` only; a negative `offset` gives the float of the same value.) -/
def swapStep (ord : Nat → Bool) (nops : Nat) (st : List (List Bool) × Int) (p : List Bool × Nat) : List (List Bool) × Int :=
  let ix := p.2
  let ia := p.1
  let ib := st.1.getD (ix + nops) []
  let shared := (if ord ix then [true, false] else [false, true]).filter fun c => ia.contains c && ib.contains c
  let constOff := (((st.1.drop (ix + 1)).take (nops - 1)).map List.length).sum
  let r := shared.foldl (charStep constOff) (ia, ib, 0)
  ((st.1.set ix r.1).set (nops + ix) r.2.1, st.2 * (-1) ^ (r.2.2.natAbs))

/-- fermion_ops.py:17-38 `_compute_swap_phase`. -/
def swapPhase (ord : Nat → Bool) (ss : List Nat) : Int :=
  let nops := ss.length / 2
  let cre := (ss.take nops).map creMap
  let ann := (ss.drop nops).map annMap
  (cre.zipIdx.foldl (swapStep ord nops) (cre ++ ann, 1)).2

section
variable {Q K : Type} [DecidableEq Q]

/-- An array of zeros but for the value `v` at one position. -/
def unitArr [Zero K] (shape ix : List Nat) (v : K) : Arr K := ⟨shape, fun jx => if jx = ix then v else 0⟩

/-- The update that all builders share, e.g. fermion_ops.py:236-240: make the block of these labels if it is missing, then
`dat[ix...] += v`.  Written as adding an array with one entry. -/
def addTerm [AddMonoid K] (sm : StateMap Q) (d : SpT Q K) (t : List Nat × K) : SpT Q K :=
  SpT.accumulate d (t.1.map fun s => (sm s).1)
    (unitArr (t.1.map fun s => (sm s).2.2) (t.1.map fun s => (sm s).2.1) t.2)

/-- Loop over the updates, starting from an empty `block_dict` keyed by labels. -/
def build [AddMonoid K] (sm : StateMap Q) (ts : List (List Nat × K)) : SpT Q K := ts.foldl (addTerm sm) []

/-- fermion_ops.py:40-58, 79-99, 101-121, 123-141: the builders that key `block_dict` by the state, hence one block for each
state, even when two states have the same label. -/
def buildDiag [AddMonoid K] (sm : StateMap Q) (f : Nat → K) : SpT Q K :=
  states.map fun s => ([(sm s).1, (sm s).1], unitArr [(sm s).2.2, (sm s).2.2] [(sm s).2.1, (sm s).2.1] (f s))

/-- fermion_encoding.py:33 `sz_dict`; `half` stands for the float 0.5. -/
def szDict [Ring K] (half : K) : Nat → K
  | 0 => 0
  | 1 => half
  | 2 => -half
  | _ => 0

/-- fermion_ops.py:40-58 `measure_SZ`. -/
def measureSZ [Ring K] (sm : StateMap Q) (half : K) : FermT Q K := ⟨[true, false], buildDiag sm (szDict half)⟩

/-- fermion_ops.py:60-77 `ParticleNumber`. -/
def particleNumber [Ring K] (sm : StateMap Q) : FermT Q K :=
  ⟨[true, false], build sm (states.map fun s => ([s, s], (pnDict s : K)))⟩

/-- fermion_ops.py:79 `pna_dict`. -/
def pnaDict : Nat → Nat
  | 1 => 1
  | _ => 0

/-- fermion_ops.py:80-99 `ParticleNumberAlpha`. -/
def particleNumberAlpha [Ring K] (sm : StateMap Q) : FermT Q K := ⟨[true, false], buildDiag sm fun s => (pnaDict s : K)⟩

/-- fermion_ops.py:101 `pnb_dict`. -/
def pnbDict : Nat → Nat
  | 2 => 1
  | _ => 0

/-- fermion_ops.py:102-121 `ParticleNumberBeta`. -/
def particleNumberBeta [Ring K] (sm : StateMap Q) : FermT Q K := ⟨[true, false], buildDiag sm fun s => (pnbDict s : K)⟩

/-- fermion_ops.py:123-141 `onsite_U`. -/
def onsiteU [Ring K] (sm : StateMap Q) (u : K) : FermT Q K :=
  ⟨[true, false], buildDiag sm fun s => (if pnDict s = 2 then 1 else 0) * u⟩

/-- fermion_ops.py:143: the argument `spin`. -/
inductive Spin | a | b | sum
deriving DecidableEq

/-- fermion_ops.py:148-157 `creation_map`; a state that is not a key has no images. -/
def creationMap : Spin → Nat → List Nat
  | .a, 0 => [1]
  | .a, 2 => [3]
  | .b, 0 => [2]
  | .b, 1 => [3]
  | .sum, 0 => [1, 2]
  | .sum, 1 => [3]
  | .sum, 2 => [3]
  | _, _ => []

/-- fermion_ops.py:158-171: the updates made by `creation`, in order. -/
def creationTerms [Ring K] (ord : List Nat → Nat → Bool) (spin : Spin) : List (List Nat × K) :=
  states.flatMap fun s1 => (creationMap spin s1).map fun os1 => ([os1, s1], ((swapPhase (ord [os1, s1]) [os1, s1] : Int) : K))

/-- fermion_ops.py:143-179 `creation`. -/
def creation [Ring K] (ord : List Nat → Nat → Bool) (sm : StateMap Q) (spin : Spin) : FermT Q K :=
  ⟨[true, false], build sm (creationTerms ord spin)⟩

/-- fermion.py:1128-1133 `dagger`: reverse the legs of each block and conjugate, no phase; flip and reverse the pattern. -/
def dagger [Zero Q] [Star K] (A : FermT Q K) : FermT Q K :=
  { pattern := (A.pattern.map not).reverse
    blocks := (SpT.transpose none A.blocks).map fun b => (b.1, b.2.mapK star) }

/-- fermion_ops.py:181-182 `annihilation`. -/
def annihilation [Zero Q] [Ring K] [Star K] (ord : List Nat → Nat → Bool) (sm : StateMap Q) (spin : Spin) : FermT Q K :=
  dagger (creation ord sm spin)

/-- fermion_ops.py:184-202 `vaccum`. -/
def vacuum [Ring K] (sm : StateMap Q) (n : Nat) : FermT Q K :=
  ⟨List.replicate n true, [(List.replicate n (sm 0).1, unitArr (List.replicate n (sm 0).2.2) (List.replicate n (sm 0).2.1) 1)]⟩

/-- `sorted(x) != sorted(y)` for strings over two characters: same number of each. -/
def sameChars (x y : List Bool) : Bool := x.count true = y.count true ∧ x.count false = y.count false

/-- fermion_ops.py:230-240, 272-284: the pairs of states reached from `s1`, `s2`. -/
def hops (s1 s2 : Nat) : List (Nat × Nat) :=
  (hopMap s1).flatMap fun s3 => ((hopMap s2).filter fun s4 =>
    sameChars (creMap s1 ++ creMap s2) (creMap s3 ++ creMap s4)).map fun s4 => (s3, s4)

/-- `product(cre_map.keys(), repeat=2)`. -/
def statePairs : List (Nat × Nat) := states.flatMap fun s1 => states.map fun s2 => (s1, s2)

/-- fermion_ops.py:226-240: the updates made by `H1`. -/
def h1Terms [Ring K] (ord : List Nat → Nat → Bool) (h : K) : List (List Nat × K) :=
  statePairs.flatMap fun p => (hops p.1 p.2).map fun r =>
    ([p.1, p.2, r.1, r.2], ((swapPhase (ord [p.1, p.2, r.1, r.2]) [p.1, p.2, r.1, r.2] : Int) : K) * h)

/-- fermion_ops.py:222-249 `H1`. -/
def hopping [Ring K] (ord : List Nat → Nat → Bool) (sm : StateMap Q) (h : K) : FermT Q K :=
  ⟨[true, true, false, false], build sm (h1Terms ord h)⟩

/-- fermion_ops.py:262-263 `val`. -/
def onsiteVal [Ring K] (u mu faca facb : K) (s1 s2 : Nat) : K :=
  (if pnDict s1 = 2 then 1 else 0) * faca * u + (pnDict s1 : K) * faca * mu +
    (if pnDict s2 = 2 then 1 else 0) * facb * u + (pnDict s2 : K) * facb * mu

/-- fermion_ops.py:259-284: the updates made by `Hubbard`. -/
def hubbardTerms [Ring K] (ord : List Nat → Nat → Bool) (t u mu faca facb : K) : List (List Nat × K) :=
  statePairs.flatMap fun p =>
    ([p.1, p.2, p.1, p.2], ((swapPhase (ord [p.1, p.2, p.1, p.2]) [p.1, p.2, p.1, p.2] : Int) : K) * onsiteVal u mu faca facb p.1 p.2) ::
    (hops p.1 p.2).map fun r =>
      ([p.1, p.2, r.1, r.2], ((swapPhase (ord [p.1, p.2, r.1, r.2]) [p.1, p.2, r.1, r.2] : Int) : K) * -t)

/-- fermion_ops.py:251-296 `Hubbard`; `fac = (faca, facb)`. -/
def hubbard [Ring K] (ord : List Nat → Nat → Bool) (sm : StateMap Q) (t u mu faca facb : K) : FermT Q K :=
  ⟨[true, true, false, false], build sm (hubbardTerms ord t u mu faca facb)⟩

end
end FermiOps
end Verif
