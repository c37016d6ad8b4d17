import Verif.Model.Dict
import Verif.Model.Py
import Mathlib.Algebra.Group.Defs

/-!
Model of `BondInfo` and `BondFusingInfo`, `/repo/pyblock3/algebra/symmetry.py:75-275`.

Labels are elements of an abelian group `Q` (see `Verif.Thm.Symmetry` for the concrete classes).
Multiplicities are natural numbers (the `np.uint32` products of lines 217 and 251 are unbounded here).
`le` is the comparison used by `sorted`; it stands for `<` on labels, or for the order of the
translated labels when `trans` is given (line 201).
-/

namespace Verif

/-- symmetry.py:75 `class BondInfo(Counter)`. -/
abbrev BondInfo (Q : Type) := Counter Q

namespace BondInfo
variable {Q : Type} [DecidableEq Q]

/-- symmetry.py:87-90 `n_bonds`. -/
def nBonds (a : BondInfo Q) : Nat := (Dict.values a).sum

/-- symmetry.py:100-107 `tensor_product`: nested loop over both dictionaries. -/
def tensorProduct [Add Q] (a b : BondInfo Q) (ref : Option (BondInfo Q)) : BondInfo Q :=
  a.foldl (fun quanta (ka, va) =>
    b.foldl (fun quanta (kb, vb) =>
      if ref.all (fun r => Dict.has r (ka + kb)) then Counter.incr quanta (ka + kb) (va * vb)
      else quanta) quanta) []

/-- symmetry.py:109-111 `__and__`, i.e. CPython `Counter.__and__`: loop over `self`, keep positive
minima. -/
def inter (a b : BondInfo Q) : BondInfo Q :=
  a.foldl (fun r (k, v) =>
    let o := Counter.count b k
    let n := if v < o then v else o
    if 0 < n then Dict.set r k n else r) []

/-- symmetry.py:113-115 `__or__`, i.e. CPython `Counter.__or__`. -/
def union (a b : BondInfo Q) : BondInfo Q :=
  let r := a.foldl (fun r (k, v) =>
    let o := Counter.count b k
    let n := if v < o then o else v
    if 0 < n then Dict.set r k n else r) []
  b.foldl (fun r (k, v) => if !Dict.has a k && decide (0 < v) then Dict.set r k v else r) r

/-- symmetry.py:117-119 `__add__`, i.e. CPython `Counter.__add__`. -/
def addCounts (a b : BondInfo Q) : BondInfo Q :=
  let r := a.foldl (fun r (k, v) =>
    let n := v + Counter.count b k
    if 0 < n then Dict.set r k n else r) []
  b.foldl (fun r (k, v) => if !Dict.has a k && decide (0 < v) then Dict.set r k v else r) r

/-- symmetry.py:121-123 `__neg__`: dictionary comprehension with negated keys. -/
def negKeys [Neg Q] (a : BondInfo Q) : BondInfo Q :=
  a.foldl (fun r (k, v) => Dict.set r (-k) v) []

/-- symmetry.py:133-135 `filter`. -/
def filter (a other : BondInfo Q) : BondInfo Q :=
  a.foldl (fun r (k, v) =>
    if Dict.has other k then Dict.set r k (min (Counter.count other k) v) else r) []

/-- symmetry.py:141 `int(np.ceil(v * bond_dim / n_total + 0.1))` in exact rational arithmetic:
the ceiling of `(10 v D + n) / (10 n)`. -/
def ceilShare (v bondDim nTotal : Nat) : Nat :=
  (10 * v * bondDim + nTotal + 10 * nTotal - 1) / (10 * nTotal)

/-- symmetry.py:137-143 `truncate`.  The loop rewrites the value of each existing key, with `n_total`
computed before.  `ref[k]` is a `Counter` lookup. -/
def truncate (a : BondInfo Q) (bondDim : Nat) (ref : Option (BondInfo Q)) : BondInfo Q :=
  let nTotal := nBonds a
  if nTotal > bondDim then
    a.map fun (k, v) =>
      let x := ceilShare v bondDim nTotal
      (k, match ref with
        | none => x
        | some r => min x (Counter.count r k))
  else a

/-- symmetry.py:149 `int(np.round(v * bond_dim / n_total + 0.1))` in exact rational arithmetic:
`(10 v D + n) / (10 n)` rounded to the nearest integer, halves to even (numpy). -/
def roundShare (v bondDim nTotal : Nat) : Nat :=
  let num := 10 * v * bondDim + nTotal
  let den := 10 * nTotal
  let d := num / den
  let r := num % den
  if 2 * r < den then d
  else if 2 * r > den then d + 1
  else if d % 2 = 0 then d else d + 1

/-- symmetry.py:145-154 `truncate_no_keep`. -/
def truncateNoKeep (a : BondInfo Q) (bondDim : Nat) (ref : Option (BondInfo Q)) : BondInfo Q :=
  let nTotal := nBonds a
  if nTotal > bondDim then
    (a.map fun (k, v) =>
      let x := roundShare v bondDim nTotal
      (k, match ref with
        | none => x
        | some r => min x (Counter.count r k))).filter fun p => p.2 != 0
  else a

end BondInfo

/-- `np.nditer` over an array of shape `(len(l_1), ..., len(l_n))` in C order (the last index runs
fastest), returning the selected elements. -/
def cart {α : Type} : List (List α) → List (List α)
  | [] => [[]]
  | l :: ls => l.flatMap fun x => (cart ls).map fun xs => x :: xs

/-- Entry of a fusing table: unfused labels ↦ (start, unfused shape). -/
abbrev FuseTable (Q : Type) := Dict (List Q) (Nat × List Nat)

/-- symmetry.py:164-183 `class BondFusingInfo`. -/
structure BondFusingInfo (Q : Type) where
  quanta : BondInfo Q
  finfo : Dict Q (FuseTable Q)
  pattern : List Bool

namespace BondFusingInfo
variable {Q : Type} [DecidableEq Q] [AddCommGroup Q]

/-- symmetry.py:208-209: `iq if ip == '+' else -iq` for a zipped pattern (`zip` stops at the shorter
list). -/
def signedLabels (qs : List Q) (pattern : List Bool) : List Q :=
  (qs.zip pattern).map fun (q, s) => if s then q else -q

/-- symmetry.py:212 `np.add.reduce(ps)`. -/
def combine (qs : List Q) (pattern : List Bool) : Q :=
  (signedLabels qs pattern).foldl (· + ·) 0

/-- symmetry.py:213-217: body of the loop of `tensor_product`. -/
def addWindow (ref : Option (BondInfo Q)) (pattern : List Bool)
    (st : BondInfo Q × Dict Q (FuseTable Q)) (item : List Q × List Nat) :
    BondInfo Q × Dict Q (FuseTable Q) :=
  let q := combine item.1 pattern
  if ref.all (fun r => Dict.has r q) then
    let table := (Dict.get? st.2 q).getD []
    let start := Counter.count st.1 q
    (Counter.incr st.1 q item.2.prod, Dict.set st.2 q (Dict.set table item.1 (start, item.2)))
  else st

/-- symmetry.py:185-218 `tensor_product`.  `none`: `np.nditer` raises for a zero-sized array, i.e.
when some bond is empty. -/
def tensorProduct (le : Q → Q → Bool) (infos : List (BondInfo Q)) (ref : Option (BondInfo Q))
    (pattern : Option (List Bool)) : Option (BondFusingInfo Q) :=
  if infos.any List.isEmpty then none else
  let qs := infos.map fun q => sortBy (fun x y => le x.1 y.1) q
  let pattern := pattern.getD (List.replicate qs.length true)
  let items := (cart qs).map fun x => (x.map Prod.fst, x.map Prod.snd)
  let st := items.foldl (addWindow ref pattern) ([], [])
  some ⟨st.1, st.2, pattern⟩

/-- symmetry.py:238-244: items are collected by fused label. -/
def collect (ref : Option (BondInfo Q)) (pattern : List Bool)
    (items : List (List Q × List Nat)) : Dict Q (List (List Q × List Nat)) :=
  items.foldl (fun c item =>
    let q := combine item.1 pattern
    if ref.all (fun r => Dict.has r q) then
      Dict.set c q ((Dict.get? c q).getD [] ++ [item])
    else c) []

/-- symmetry.py:248-253: inner loop for one fused label; `none` is the failing `assert` of line 253. -/
def sumTable : List (List Q × List Nat) → Nat → FuseTable Q → Option (Nat × FuseTable Q)
  | [], n, t => some (n, t)
  | (qs, shs) :: rest, n, t =>
    match Dict.get? t qs with
    | none => sumTable rest (n + shs.prod) (Dict.set t qs (n, shs))
    | some (_, shs') => if shs' = shs then sumTable rest n t else none

/-- symmetry.py:245-253: outer loop over the collected labels.  `quanta[q]` is only touched by the inner
loop; collected lists are never empty, so storing the final count once is the same. -/
def sumTables (leL : List Q → List Q → Bool) :
    Dict Q (List (List Q × List Nat)) → BondInfo Q × Dict Q (FuseTable Q) →
    Option (BondInfo Q × Dict Q (FuseTable Q))
  | [], st => some st
  | (q, v) :: rest, st =>
    match sumTable (sortBy (fun x y => leL x.1 y.1) v) (Counter.count st.1 q) [] with
    | none => none
    | some (n, t) => sumTables leL rest (Dict.set st.1 q n, Dict.set st.2 q t)

/-- symmetry.py:220-254 `kron_sum`; `none` is the failing `assert`.  (With `pattern=None` and no
items the code raises `IndexError` on line 237; the pattern is explicit here.) -/
def kronSum (leL : List Q → List Q → Bool) (items : List (List Q × List Nat))
    (ref : Option (BondInfo Q)) (pattern : List Bool) : Option (BondFusingInfo Q) :=
  match sumTables leL (collect ref pattern items) ([], []) with
  | none => none
  | some st => some ⟨st.1, st.2, pattern⟩

end BondFusingInfo

/-- symmetry.py:256-275 `get_symmetry_fusing_info`: table low-symmetry label ↦ (high-symmetry
label ↦ (start, multiplicity)). -/
def symmetryFusingInfo {H L : Type} [DecidableEq H] [DecidableEq L] (le : H → H → Bool)
    (info : BondInfo H) (symmMap : H → L) : BondInfo L × Dict L (Dict H (Nat × Nat)) :=
  (sortBy (fun x y => le x.1 y.1) info).foldl (fun st (k, v) =>
    let q := symmMap k
    let table := (Dict.get? st.2 q).getD []
    (Counter.incr st.1 q v, Dict.set st.2 q (Dict.set table k (Counter.count st.1 q, v)))) ([], [])

end Verif
