import Verif.Model.FermPhase
import Verif.Model.FlatFermTrace

/-!
Model of the transposition and the contraction of flat fermionic tensors, `/repo/pyblock3/algebra/fermion.py:1966-2018` and
`/repo/src/flat_fermion.cpp:108-552`, with `setting.DEFAULT_FERMION` equal to `True`.

Simplified: labels are compared instead of hashed and then compared; the products of one output block are summed as they are found, and the output blocks
stand in the order in which they are found (the code lists them in the order of a hash table); the choice of transposed storage for the matrix product is
left out.  The attribute `shape` is left out.
-/

namespace Verif
namespace FlatFermT
variable {Q C K : Type} [AddCommGroup Q] [DecidableEq Q] [DecidableEq C] [Zero C]

/-- flat_fermion.cpp:131-134, 332-334: which legs of a block are odd. -/
def oddLegs (par : Q → Nat) (dec : C → Q) (q : List C) : List Bool := q.map fun c => decide (par (dec c) % 2 = 1)

/-- fermion.py:2000-2018 `_transpose` and flat_fermion.cpp:108-180 `flat_fermion_tensor_transpose`. -/
def transpose [Ring K] (par : Q → Nat) (dec : C → Q) (axes : Option (List Nat)) (T : FlatFermT C K) : FlatFermT C K :=
  let ax := axes.getD (List.range T.ndim).reverse
  if T.flat.qs.length = 0 then T else
  { pattern := ax.map fun i => T.pattern.getD i true
    flat := ⟨T.flat.qs.map (pick ax), T.flat.shs.map (pick ax),
      (T.rows.map fun e => (((Arr.ofList e.2.1 e.2.2).transpose ax).mapK
        (((FermPhase.phase1 (oddLegs par dec e.1) ax : Int) : K) * ·)).toList).flatten, T.flat.idxs⟩ }

/-- flat_fermion.cpp:403-448, 529-546: the products of one block of `a`. -/
def dotOuter [Ring K] (par : Q → Nat) (dec : C → Q) (B : FlatFermT C K) (mB : Dict (List C) (List Nat)) (idxa idxb outa outb : List Nat)
    (st : Flat.TdState C K) (e : List C × List Nat × List K) : Flat.TdState C K :=
  match Dict.get? mB (pick idxa e.1) with
  | none => st
  | some l => l.foldl (fun st ib =>
      let f := B.rows.getD ib ([], [], [])
      let phase := FermPhase.phase2 (oddLegs par dec e.1) idxa * FermPhase.phase3 (oddLegs par dec f.1) idxb
      Flat.tdStep st (pick outa e.1 ++ pick outb f.1)
        (((Arr.ofList e.2.1 e.2.2).tensordot (Arr.ofList f.2.1 f.2.2) idxa idxb outa outb).mapK (((phase : Int) : K) * ·))) st

/-- flat_fermion.cpp:182-552 `flat_fermion_tensor_tensordot`. -/
def dotCore [Ring K] (par : Q → Nat) (dec : C → Q) (A B : FlatFermT C K) (idxa idxb outa outb : List Nat) : Flat C K :=
  if A.flat.qs.length = 0 then A.flat else if B.flat.qs.length = 0 then B.flat else
  let st := A.rows.foldl (dotOuter par dec B (Flat.mapIdxB B.flat.qs idxb) idxa idxb outa outb) ⟨[], [0], [], [], []⟩
  ⟨st.qs, st.shs, st.mats.flatten, st.idxs⟩

/-- fermion.py:1966-1996 `_tensordot` with axes lists: a number if no leg is left, else a tensor.  `none`: `_adjust_q_labels` raising
`NotImplementedError` because two contracted signs agree, `data[0]` raising `IndexError` because there is no data (line 1995), or axes lists of different
lengths (the kernel then reads outside the lists). -/
def tensordot [Ring K] (par : Q → Nat) (dec : C → Q) (A B : FlatFermT C K) (axesA axesB : List Int) : Option (K ⊕ FlatFermT C K) :=
  let idxa := axesA.map (SpT.normAxis A.ndim)
  let idxb := axesB.map (SpT.normAxis B.ndim)
  let (pat, flips) := FermT.contractPatterns A.pattern B.pattern idxa idxb
  if idxa.length ≠ idxb.length then none
  else if flips ≠ [] then none
  else
    let F := dotCore par dec A B idxa idxb (SpT.outAxes A.ndim idxa) (SpT.outAxes B.ndim idxb)
    if idxa.length = A.ndim ∧ idxb.length = B.ndim then F.data.head?.map .inl else some (.inr ⟨pat, F⟩)

end FlatFermT
end Verif
