import Verif.Model.Trunc
import Mathlib.Algebra.BigOperators.Group.List.Basic
import Mathlib.Data.List.Dedup

/-!
Model of the truncation of singular values of fermionic tensors, `/repo/pyblock3/algebra/fermion.py:224-360`.

The singular values are a list of lists, one list for each symmetry sector.  `argsort` is `np.argsort`, whose order of equal values is not
specified, so it is a parameter.  GPU arrays (`.get()`) and NaN are not modelled.
-/

namespace Verif
namespace Trim
variable {V : Type} [Zero V] [Add V] [Mul V] [LE V] [LT V] [DecidableLE V] [DecidableLT V] [Max V]

/-- `np.concatenate`: raises for an empty list. -/
def concatenate (d : List (List V)) : Option (List V) := if d.isEmpty then none else some d.flatten

/-- `s.max()`: raises for an empty array. -/
def maxOf : List V → Option V
  | [] => none
  | x :: xs => some (xs.foldl max x)

/-- fermion.py:268-270 and 289-291: sector of each entry of the concatenated array. -/
def indMap (d : List (List V)) : List Nat := d.zipIdx.flatMap fun b => List.replicate b.1.length b.2

/-- fermion.py:273 and 300: `n_chis[i] -= 1`. -/
def decr (n : List Int) (i : Nat) : List Int := n.modify i (· - 1)

/-- `max_bond is not None and max_bond > 0`. -/
def capOf : Option Int → Option Int
  | some m => if 0 < m then some m else none
  | none => none

/-- fermion.py:252-258: numbers of values above the threshold. -/
def countAbove (thr : V) (d : List (List V)) : List Int := d.map fun b => (b.countP fun x => decide (thr < x) : Nat)

/-- fermion.py:260-273: remove the smallest ones of the values kept so far, until `max_bond` are left. -/
def capCounts (argsort : List V → List Nat) (maxBond : Option Int) (d : List (List V)) (n : List Int) : Option (List Int) :=
  match capOf maxBond with
  | none => some n
  | some m =>
    let total := n.sum
    let extra := total - m
    if 0 < extra then (concatenate d).map fun s =>
      (List.range extra.toNat).foldl (fun n (i : Nat) => decr n ((indMap d).getD ((argsort s).getD ((i : Int) + s.length - total).toNat 0) 0)) n
    else some n

/-- Running sums, `np.cumsum`. -/
def cumsum : V → List V → List V
  | _, [] => []
  | t, x :: xs => (t + x) :: cumsum (t + x) xs

/-- fermion.py:224-303 `_trim_singular_vals`: how many values to keep in each sector; `none`: an exception. -/
def trimSingularVals (argsort : List V → List Nat) (cutoff : V) (mode : Nat) (maxBond : Option Int) (d : List (List V)) : Option (List Int) :=
  if mode = 1 then capCounts argsort maxBond d (countAbove cutoff d)
  else if mode = 2 then (concatenate d).bind fun s => (maxOf s).bind fun smax => capCounts argsort maxBond d (countAbove (cutoff * smax) d)
  else if mode = 3 ∨ mode = 4 ∨ mode = 5 ∨ mode = 6 then (concatenate d).map fun s0 =>
    let s := s0.map fun x => if mode = 3 ∨ mode = 4 then x * x else x
    let target := if mode = 4 ∨ mode = 6 then cutoff * s.sum else cutoff
    let ncut := (cumsum 0 (sortBy (fun a b => decide (a ≤ b)) s)).countP fun x => decide (x ≤ target)
    let ncut := match capOf maxBond with
      | some m => max (ncut : Int) (s.length - m)
      | none => ncut
    (List.range ncut.toNat).foldl (fun n (i : Nat) => decr n ((indMap d).getD ((argsort s).getD i 0) 0)) (d.map fun b => (b.length : Int))
  else none

/-- fermion.py:305-320: sums of the kept and of the lost values of one sector. -/
def keepLose (pow : V → V) (b : List V) (n : Int) : V × V :=
  (((b.zipIdx.filter fun x => decide ((x.2 : Int) < n)).map fun x => pow x.1).sum,
    ((b.zipIdx.filter fun x => decide (¬ (x.2 : Int) < n)).map fun x => pow x.1).sum)

/-- fermion.py:305-320 `_renorm_singular_vals`; `pow x` is `x ** renorm`, `root x` is `x ** (1 / renorm)`. -/
def renormFactor [Div V] (pow root : V → V) (d : List (List V)) (n : List Int) : V :=
  let r := (d.zip n).map fun x => keepLose pow x.1 x.2
  let keep := (r.map Prod.fst).sum
  let lose := (r.map Prod.snd).sum
  root ((keep + lose) / keep)

/-- The argument `max_bond` of `_trim_and_renorm_SVD`: nothing or a number, or one number for each sector. -/
inductive Cap where
  | total (m : Option Int)
  | each (ms : List Int)

/-- fermion.py:332-345: the numbers of values to keep. -/
def capNumbers (argsort : List V → List Nat) (cutoff : V) (mode : Nat) (d : List (List V)) : Cap → Option (List Int)
  | .total m => trimSingularVals argsort cutoff mode m d
  | .each ms => if ms.length = d.length ∧ ms.dedup.length = 1 then some ms else none

/-- fermion.py:322-360 `_trim_and_renorm_SVD`; `renorm` says whether the argument `renorm` is positive. -/
def trimAndRenorm {K : Type} [Div V] (argsort : List V → List Nat) (cutoff : V) (mode : Nat) (cap : Cap) (renorm : Bool) (pow root : V → V)
    (d : List (List V)) (uv : List (Arr K × Arr K)) : Option (List (List V) × List (Arr K × Arr K)) :=
  (capNumbers argsort cutoff mode d cap).map fun n =>
    let total : Int := (d.map fun b => (b.length : Int)).sum
    let d := if n.sum < total ∧ renorm then d.map fun b => b.map fun x => x * renormFactor pow root d n else d
    (d.zipWith (fun b k => pyTake k b) n, uv.zipWith (fun x k => (x.1.pickLast (pyTake k (List.range (x.1.shape.getLastD 0))),
      x.2.pickFirst (pyTake k (List.range (x.2.shape.headD 0))))) n)

end Trim
end Verif
