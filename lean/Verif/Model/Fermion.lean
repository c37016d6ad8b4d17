import Verif.Model.Sparse

/-!
Model of the fermionic block-sparse tensors, `/repo/pyblock3/algebra/fermion.py`.

`setting.DEFAULT_FERMION` is taken to be `True` (with `False`, `compute_phase` returns 1 and the operations are
those of `Verif.Model.Sparse`).  The parity of a label is an arbitrary function `par` into the naturals (the label classes
return `n % 2`).  The cached attribute `shape` (total dimensions) is not modelled.
-/

namespace Verif

/-- fermion.py:1076-1082, one turn of the loop of `compute_phase`.  State: `counted`, `phase`.  `right` is
`direction == "right"`. -/
def phaseStep (plist : List Nat) (right : Bool) (st : List Nat × Int) (x : Nat) : List Nat × Int :=
  let others := if right then List.range' (x + 1) (plist.length - (x + 1)) else List.range x
  let parity := ((others.filter fun i => i ∉ st.1).map fun i => plist.getD i 0).sum * plist.getD x 0
  (st.1 ++ [x], st.2 * (-1) ^ parity)

/-- fermion.py:1061-1083 `compute_phase`, after the parities have been read off the labels. -/
def computePhase (plist : List Nat) (axes : List Nat) (right : Bool) : Int :=
  (axes.foldl (phaseStep plist right) ([], 1)).2

/-- fermion.py:1098-1106: a `SparseFermionTensor`: blocks and pattern (`true` is `+`). -/
structure FermT (Q K : Type) where
  pattern : List Bool
  blocks : SpT Q K

namespace FermT
variable {Q K : Type}

/-- fermion.py:1603-1610 `_transpose`: transpose each block and multiply by its phase.  `axes = None` reverses the legs
(`ndim` is the rank of the first block, core.py:443-446). -/
def transpose [Zero Q] [Ring K] (par : Q → Nat) (axes : Option (List Nat)) (A : FermT Q K) : FermT Q K :=
  let ax := axes.getD (List.range A.blocks.ndim).reverse
  { pattern := ax.map fun i => A.pattern.getD i true
    blocks := A.blocks.map fun b =>
      (pick ax b.1, (b.2.transpose ax).mapK (· * ((computePhase (b.1.map par) ax false : Int) : K))) }

/-- fermion.py:132-169 `_contract_patterns`: pattern of the result and the axes of `b` whose sign does not fit. -/
def contractPatterns (pa pb : List Bool) (idxa idxb : List Nat) : List Bool × List Nat :=
  let concA := idxa.map fun i => pa.getD i true
  let concB := idxb.map fun i => pb.getD i true
  let outA := (pa.zipIdx.filter fun p => p.2 ∉ idxa).map Prod.fst
  let outB := (pb.zipIdx.filter fun p => p.2 ∉ idxb).map Prod.fst
  let flips := if concA ≠ concB.map not then
      ((idxb.zip (concA.zip concB)).filter fun p => p.2.1 = p.2.2).map Prod.fst
    else []
  (outA ++ outB, flips)

variable [DecidableEq Q]

/-- fermion.py:1459-1487: the main loops of `_tensordot_basic`. -/
def tensordotCore [Zero Q] [Ring K] (par : Q → Nat) (A B : SpT Q K) (idxa idxb outa outb : List Nat) : SpT Q K :=
  let mapB := SpT.collectB B idxb outb
  A.foldl (fun m a =>
    let phaseA := computePhase (a.1.map par) idxa true
    match Dict.get? mapB (pick idxa a.1) with
    | none => m
    | some l =>
      let outqa := pick outa a.1
      l.foldl (fun m b =>
        let phaseB := computePhase (b.1.1.map par) idxb false
        SpT.accumulate m (outqa ++ b.2)
          ((a.2.tensordot b.1.2 idxa idxb outa outb).mapK (· * ((phaseA * phaseB : Int) : K)))) m) []

/-- fermion.py:1443-1487 `_tensordot_basic` with axes lists (also `_tensordot`, line 1433, with its default
`ENABLE_FUSED_IMPLS = False`).  `none`: the failing assert of line 1457, or `_adjust_block` raising
`NotImplementedError` for a block of `b` when patterns do not fit.  A result without legs is turned into a number by the
caller; here it stays a block without legs. -/
def tensordot [Zero Q] [Ring K] (par : Q → Nat) (A B : FermT Q K) (axesA axesB : List Int) : Option (FermT Q K) :=
  let idxa := axesA.map (SpT.normAxis A.blocks.ndim)
  let idxb := axesB.map (SpT.normAxis B.blocks.ndim)
  let (pat, flips) := contractPatterns A.pattern B.pattern idxa idxb
  if idxa.length ≠ idxb.length then none
  else if flips ≠ [] ∧ B.blocks ≠ [] then none
  else some { pattern := pat
              blocks := tensordotCore par A.blocks B.blocks idxa idxb (SpT.outAxes A.blocks.ndim idxa)
                (SpT.outAxes B.blocks.ndim idxb) }

end FermT
end Verif
