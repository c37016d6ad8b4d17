import Verif.Model.Flat
import Verif.Model.Fermion

/-!
Model of `Constructor` (conversion of tensors to vectors and back), `/repo/pyblock3/algebra/fermion.py:2044-2230`, built by
`from_bond_infos`.

Labels are elements of a group, packed to codes of type `C` by `enc` (`to_flat`) and unpacked by `dec` (`from_flat`).  The tables
`shapes_tab`, `q_labels_tab`, `idxs_tab` only store results of the generator, which is a pure function, so they are not
modelled; the cache of `tensor_to_vector` is.  `update`, `from_sparse_tensor` and `from_flat_tensor` are not modelled.
`np.real_if_close` is the identity on real vectors.
-/

namespace Verif

/-- fermion.py:1212-1233 `SparseFermionTensor._skeleton` with given pattern and charge: all allowed blocks `(shape, labels)`.
`none`: `np.nditer` raises for an empty bond. -/
def fermSkeleton {Q : Type} [AddCommGroup Q] [DecidableEq Q] (le : Q → Q → Bool) (infos : List (BondInfo Q)) (pattern : List Bool) (dq : Q) :
    Option (List (List Nat × List Q)) :=
  if infos.any List.isEmpty then none else
  let qsh := infos.map fun i => sortBy (fun x y => le x.1 y.1) i
  some ((cart qsh).filterMap fun x =>
    let ps := BondFusingInfo.signedLabels (x.map Prod.fst) pattern
    if ps.length = 1 ∨ ps.foldl (· + ·) 0 = dq then some (x.map Prod.snd, x.map Prod.fst) else none)

namespace Constructor

/-- The tables for one charge: shapes, packed labels, offsets. -/
structure Info (C : Type) where
  shs : List (List Nat)
  qs : List (List C)
  idxs : List Nat

variable {Q C K : Type} [AddCommGroup Q] [DecidableEq Q] [DecidableEq C]

/-- fermion.py:2082-2102 the generator of `from_bond_infos` with `flat=True`.  `none`: empty bond, or `np.prod(shapes, axis=1)` raises for an
empty list of blocks. -/
def info (le : Q → Q → Bool) (enc : Q → C) (bonds : List (BondInfo Q)) (pattern : List Bool) (dq : Q) : Option (Info C) :=
  match fermSkeleton le bonds pattern dq with
  | none => none
  | some [] => none
  | some l => some ⟨l.map Prod.fst, l.map fun e => e.2.map enc, Flat.offsets 0 (l.map Prod.fst)⟩

/-- fermion.py:2184-2185 `vector_size`. -/
def vectorSize (i : Info C) : Nat := i.idxs.getLastD 0

/-- fermion.py:2187-2194 `vector_to_tensor` with `flat=True`; `none` is the failing assert. -/
def vectorToTensor (i : Info C) (v : List K) : Option (Flat C K) :=
  if v.length = i.idxs.getLastD 0 then some ⟨i.qs, i.shs, v, i.idxs⟩ else none

/-- fermion.py:2195-2200 `vector_to_tensor` with `flat=False` (labels not packed). -/
def vectorToSparse [Zero K] (i : Info Q) (v : List K) : Option (SpT Q K) :=
  if v.length = i.idxs.getLastD 0 then
    some ((i.shs.zip i.qs).zipIdx.map fun p => (p.1.2, Arr.ofList p.1.1 (pySlice v (i.idxs.getD p.2 0) (i.idxs.getD (p.2 + 1) 0))))
  else none

/-- fermion.py:2213-2219: where the blocks of a tensor with label rows `tqs` go: `index_tab[ix] = (idxs[iblk], idxs[iblk+1])`. -/
def indexTab (i : Info C) (tqs : List (List C)) : Dict Nat (Nat × Nat) :=
  i.qs.zipIdx.foldl (fun m p =>
    if p.1 ∈ tqs then Dict.set m (tqs.idxOf p.1) (i.idxs.getD p.2 0, i.idxs.getD (p.2 + 1) 0) else m) []

/-- `vector[ist:ied] = xs`: numpy needs equal lengths, or broadcasts a single element. -/
def npAssign (v : List K) (ist ied : Nat) (xs : List K) : Option (List K) :=
  let n := (pySlice v ist ied).length
  if xs.length = n then some (sliceAssign v ist xs)
  else match xs with
    | [x] => some (sliceAssign v ist (List.replicate n x))
    | _ => none

/-- fermion.py:2221-2222: copy the blocks.  `none`: index out of range, or lengths that do not fit. -/
def copyBlocks (T : Flat C K) : Dict Nat (Nat × Nat) → List K → Option (List K)
  | [], v => some v
  | (ix, (ist, ied)) :: rest, v =>
    if ix + 1 < T.idxs.length then
      match npAssign v ist ied (T.block ix) with
      | none => none
      | some v' => copyBlocks T rest v'
    else none

/-- fermion.py:2202-2222 `tensor_to_vector` with `flat=True`: the vector and the new cache.  `key` is `hash(str(·))` of the label
array.  `none` is an exception: different patterns, a tensor without blocks (no charge), no allowed block, or `copyBlocks`. -/
def tensorToVector [Zero K] {H : Type} [DecidableEq H] (key : List (List C) → H) (gen : Q → Option (Info C)) (dec : C → Q)
    (pattern : List Bool) (cache : Dict H (Dict Nat (Nat × Nat))) (Tpat : List Bool) (T : Flat C K) :
    Option (List K × Dict H (Dict Nat (Nat × Nat))) :=
  if Tpat ≠ pattern then none else
  match T.qs with
  | [] => none
  | q0 :: _ =>
    match gen ((BondFusingInfo.signedLabels (q0.map dec) Tpat).foldl (· + ·) 0) with
    | none => none
    | some i =>
      if i.qs = T.qs then some (T.data, cache)
      else
        let size := (i.shs.map List.prod).sum
        let cache := if Dict.has cache (key T.qs) then cache else Dict.set cache (key T.qs) (indexTab i T.qs)
        match copyBlocks T ((Dict.get? cache (key T.qs)).getD []) (List.replicate size 0) with
        | none => none
        | some v => some (v, cache)

/-- Successive calls of `tensor_to_vector` on one constructor: the cache is kept between them. -/
def runCalls [Zero K] {H : Type} [DecidableEq H] (key : List (List C) → H) (gen : Q → Option (Info C)) (dec : C → Q) (pattern : List Bool)
    (cache : Dict H (Dict Nat (Nat × Nat))) : List (Flat C K) → Option (List (List K))
  | [] => some []
  | T :: rest =>
    match tensorToVector key gen dec pattern cache pattern T with
    | none => none
    | some (v, cache) => (runCalls key gen dec pattern cache rest).map (v :: ·)

end Constructor
end Verif
