import Verif.Model.Dict

/-!
Model of `_fuse_data_map` and of the loop that groups the blocks of an operator, `/repo/pyblock3/algebra/fermion_ops.py`.
A block is given by its row labels and its column labels (`left_q`, `right_q`), of any type `P`.  The blocks are referred to by
their position.
-/

namespace Verif
namespace FuseMap
variable {P : Type} [DecidableEq P]

/-- The three dictionaries `to_parent`, `from_parent`, `data_map`. -/
structure Groups (P : Type) where
  toParent : Dict P P
  fromParent : Dict P (List P)
  dataMap : Dict P (List Nat)

/-- `del d[k]`. -/
def del {β : Type} (d : Dict P β) (k : P) : Dict P β := d.filter fun e => e.1 ≠ k

/-- fermion_ops.py:314-316, the loop `for sub in from_parent[parent_b]`.  `none` is `KeyError`. -/
def adopt (p : P) (subs : List P) (tp : Dict P P) (fp : Dict P (List P)) : Option (Dict P P × Dict P (List P)) :=
  subs.foldlM (fun s sub => (Dict.get? s.2 p).map fun l => (Dict.set s.1 sub p, Dict.set s.2 p (l ++ [sub]))) (tp, fp)

/-- fermion_ops.py:296-319 `_fuse_data_map`; returns the dictionaries and the parent.  `none` is `KeyError`. -/
def fuse (l r : P) (s : Groups P) : Option (Groups P × P) :=
  match Dict.get? s.toParent l, Dict.get? s.toParent r with
  | none, none =>
    some (⟨Dict.set (Dict.set s.toParent l l) r l,
      Dict.set s.fromParent l (if r ≠ l then [l] ++ [r] else [l]), Dict.set s.dataMap l []⟩, l)
  | none, some p =>
    (Dict.get? s.fromParent p).map fun fs =>
      (⟨Dict.set s.toParent l p, Dict.set s.fromParent p (fs ++ [l]), s.dataMap⟩, p)
  | some p, none =>
    (Dict.get? s.fromParent p).map fun fs =>
      (⟨Dict.set s.toParent r p, Dict.set s.fromParent p (fs ++ [r]), s.dataMap⟩, p)
  | some p, some pb =>
    if p = pb then some (s, p) else
    (Dict.get? s.fromParent pb).bind fun subs =>
    (adopt p subs s.toParent s.fromParent).bind fun tf =>
    (Dict.get? s.dataMap p).bind fun dp =>
    (Dict.get? s.dataMap pb).map fun db =>
      (⟨tf.1, tf.2, del (Dict.set s.dataMap p (dp ++ db)) pb⟩, p)

/-- fermion_ops.py:362-366 (and 432-436), the loop over the blocks: `data_map[parent].append(iblk)`. -/
def group (blocks : List (P × P)) : Option (Groups P) :=
  blocks.zipIdx.foldlM (fun s b =>
    (fuse b.1.1 b.1.2 s).bind fun sp =>
    (Dict.get? sp.1.dataMap sp.2).map fun d => { sp.1 with dataMap := Dict.set sp.1.dataMap sp.2 (d ++ [b.2]) }) ⟨[], [], []⟩

end FuseMap
end Verif
