import Verif.Model.Py
import Mathlib.Algebra.Ring.Defs
import Mathlib.Algebra.BigOperators.Group.List.Basic

/-!
Model of the symbolic operator expressions, `/repo/pyblock3/symbolic/expr.py`.

Operator names are an arbitrary type `N` (in the code an enumeration of 21 names; only equality is used here), quantum
labels an arbitrary type `L`, factors an arbitrary commutative ring `K`.  The printing methods, hashing, `parse` and
`OpElement.__lt__` are not modelled.
-/

namespace Verif

/-- Python's `a <= b` on tuples of integers: lexicographic, a proper prefix is smaller. -/
def tupleLe : List Int → List Int → Bool
  | [], _ => true
  | _ :: _, [] => false
  | a :: s, b :: t => decide (a < b) || (decide (a = b) && tupleLe s t)

/-- expr.py:69-92. -/
structure OpElement (N L K : Type) where
  name : N
  site : List Int
  factor : K
  label : L

/-- expr.py:197-211: the operators of a string are stored with factor one (`abs`, line 148-149); the product of their
factors goes into the factor of the string. -/
structure OpString (N L K : Type) where
  ops : List (OpElement N L K)
  factor : K

namespace OpElement
variable {N L K : Type}

/-- expr.py:148-149 `__abs__`. -/
def abs [One K] (x : OpElement N L K) : OpElement N L K := { x with factor := 1 }

/-- expr.py:151-152 `__neg__`. -/
def neg [Neg K] (x : OpElement N L K) : OpElement N L K := { x with factor := - x.factor }

/-- expr.py:154-159 `__eq__`: the quantum label is not compared. -/
def same [DecidableEq N] [DecidableEq K] (x y : OpElement N L K) : Bool :=
  decide (x.name = y.name ∧ x.site = y.site ∧ x.factor = y.factor)

end OpElement

namespace OpString
variable {N L K : Type} [CommRing K]

/-- expr.py:209-211 `__init__`. -/
def mk' (ops : List (OpElement N L K)) (factor : K := 1) : OpString N L K :=
  { ops := ops.map OpElement.abs, factor := (ops.map (·.factor)).prod * factor }

/-- expr.py:220-223: the sign loops of `sort`: for each `ix`, each later `jx` with a smaller site changes the sign. -/
def sortSign : List (OpElement N L K) → K → K
  | [], f => f
  | ix :: rest, f => sortSign rest (rest.foldl (fun f jx => if tupleLe ix.site jx.site then f else -f) f)

/-- expr.py:218-224 `sort`. -/
def sort (fermion : Bool) (s : OpString N L K) : OpString N L K :=
  { factor := if fermion then sortSign s.ops s.factor else s.factor
    ops := sortBy (fun x y => tupleLe x.site y.site) s.ops }

end OpString

/-- What a Python variable can hold here: a number, an element, a string, or a sum.  The list of a sum holds strings, but
also the number 0, written `none`, which `OpString.__mul__` returns for tiny factors (lines 252, 264). -/
inductive OpVal (N L K : Type) where
  | num (c : K)
  | elem (e : OpElement N L K)
  | str (s : OpString N L K)
  | sum (l : List (Option (OpString N L K)))

/-- Outcome of a Python binary method: `NotImplemented`, an exception, or a value. -/
inductive PyRet (α : Type) where
  | notImpl
  | error
  | ok (v : α)

namespace OpVal
variable {N L K : Type} [CommRing K] [DecidableEq K]

/-- Apply to every string of a sum; an entry that is the number 0 has no `ops` (`AttributeError`). -/
def mapStrings (f : OpString N L K → OpString N L K) (l : List (Option (OpString N L K))) : PyRet (OpVal N L K) :=
  if l.any (·.isNone) then .error else .ok (.sum (l.map fun s => s.map f))

/-- expr.py:108-118, 120-128: element times number (either order). -/
def elemNum (e : OpElement N L K) (c : K) : OpVal N L K :=
  if c = 0 then .num 0 else .elem { e with factor := e.factor * c }

/-- expr.py:249-252, 261-264: string times number (either order); `small x` is `abs(x) <= 1E-12`. -/
def strNum (small : K → Bool) (s : OpString N L K) (c : K) : Option (OpString N L K) :=
  if c = 0 then none else if small (s.factor * c) then none else some (OpString.mk' s.ops (s.factor * c))

/-- expr.py:253-254: string times string. -/
def strStr (s t : OpString N L K) : OpString N L K := OpString.mk' (s.ops ++ t.ops) (s.factor * t.factor)

/-- The value of an `Option`al string: `none` is the number 0. -/
def ofOpt : Option (OpString N L K) → OpVal N L K
  | none => .num 0
  | some s => .str s

/-- `a.__mul__(b)`: expr.py:108-118 (element), 246-256 (string), 343-354 (sum).  A number leaves expressions to the right
operand. -/
def mulL (small : K → Bool) : OpVal N L K → OpVal N L K → PyRet (OpVal N L K)
  | .num c, .num d => .ok (.num (c * d))
  | .num _, _ => .notImpl
  | .elem e, .num c => .ok (elemNum e c)
  | .elem e, .sum l => mapStrings (fun st => OpString.mk' (e :: st.ops) st.factor) l
  | .elem e, .elem f => .ok (.str (OpString.mk' [e, f]))
  | .elem _, .str _ => .notImpl
  | .str s, .elem e => .ok (.str (OpString.mk' (s.ops ++ [e]) s.factor))
  | .str s, .num c => .ok (ofOpt (strNum small s c))
  | .str s, .str t => .ok (.str (strStr s t))
  | .str _, .sum _ => .notImpl
  | .sum l, .num c => if c = 0 then .ok (.num 0) else .ok (.sum (l.map fun x => x.bind fun s => strNum small s c))
  | .sum l, .str t => .ok (.sum (l.map fun x => x.map fun s => strStr s t))
  | .sum l, .sum r =>
    -- line 351: `0 * other` is the number 0, which has no attribute `strings`
    if l.any (·.isNone) then .error
    else .ok (.sum ((l.filterMap id).flatMap fun s => r.map fun y => y.map fun t => strStr s t))
  | .sum _, .elem _ => .notImpl

/-- `b.__rmul__(a)`, the fallback for `a * b`: expr.py:120-128 (element), 258-266 (string), 356-367 (sum). -/
def mulR (small : K → Bool) (b a : OpVal N L K) : PyRet (OpVal N L K) :=
  match b, a with
  | .elem e, .num c => .ok (elemNum e c)
  | .elem e, .sum l => mapStrings (fun st => OpString.mk' (st.ops ++ [e]) st.factor) l
  | .str s, .elem e => .ok (.str (OpString.mk' (e :: s.ops) s.factor))
  | .str s, .num c => .ok (ofOpt (strNum small s c))
  | .sum l, .num c => if c = 0 then .ok (.num 0) else .ok (.sum (l.map fun x => x.bind fun s => strNum small s c))
  | .sum l, .str t => .ok (.sum (l.map fun x => x.map fun s => strStr t s))
  | _, _ => .notImpl

/-- Python's `a * b`: the left method, then the reflected right method; `none` is an exception. -/
def mul (small : K → Bool) (a b : OpVal N L K) : Option (OpVal N L K) :=
  match mulL small a b with
  | .ok v => some v
  | .error => none
  | .notImpl =>
    match mulR small b a with
    | .ok v => some v
    | _ => none

/-- `a.__add__(b)`: expr.py:130-138 (element), 268-276 (string), 321-329 (sum). -/
def addL : OpVal N L K → OpVal N L K → PyRet (OpVal N L K)
  | .num c, .num d => .ok (.num (c + d))
  | .num _, _ => .notImpl
  | .elem e, .elem f => .ok (.sum [some (OpString.mk' [e]), some (OpString.mk' [f])])
  | .elem e, .num c => if c = 0 then .ok (.elem e) else .notImpl
  | .elem e, .sum l => .ok (.sum (some (OpString.mk' [e]) :: l))
  | .elem _, .str _ => .notImpl
  | .str s, .num c => if c = 0 then .ok (.str s) else .notImpl
  | .str s, .sum l => .ok (.sum (some s :: l))
  | .str s, .str t => .ok (.sum [some s, some t])
  | .str _, .elem _ => .notImpl
  | .sum l, .num c => if c = 0 then .ok (.sum l) else .notImpl
  | .sum l, .str t => .ok (.sum (l ++ [some t]))
  | .sum l, .sum r => .ok (.sum (l ++ r))
  | .sum _, .elem _ => .notImpl

/-- `b.__radd__(a)`: expr.py:140-146 (element), 278-282 (string), 331-335 (sum). -/
def addR (b a : OpVal N L K) : PyRet (OpVal N L K) :=
  match b, a with
  | .elem e, .num c => if c = 0 then .ok (.elem e) else .notImpl
  | .elem e, .sum l => .ok (.sum (l ++ [some (OpString.mk' [e])]))
  | .str s, .num c => if c = 0 then .ok (.str s) else .notImpl
  | .sum l, .num c => if c = 0 then .ok (.sum l) else .notImpl
  | _, _ => .notImpl

/-- Python's `a + b`. -/
def add (a b : OpVal N L K) : Option (OpVal N L K) :=
  match addL a b with
  | .ok v => some v
  | .error => none
  | .notImpl =>
    match addR b a with
    | .ok v => some v
    | _ => none

end OpVal

namespace OpSum
variable {N L K : Type} [CommRing K] [DecidableEq K] [DecidableEq N]

/-- expr.py:309, one turn of the loop: `mp[tuple(string.ops)] += string.factor`. -/
def collect (mp : List (List (OpElement N L K) × K)) (s : OpString N L K) : List (List (OpElement N L K) × K) :=
  match mp with
  | [] => [(s.ops, s.factor)]
  | (k, v) :: t =>
    if k.length = s.ops.length ∧ (k.zip s.ops).all (fun p => p.1.same p.2) then (k, v + s.factor) :: t
    else (k, v) :: collect t s

/-- expr.py:306-311 `simplify` (of a sum whose entries are all strings). -/
def simplify (small : K → Bool) (l : List (OpString N L K)) : List (OpString N L K) :=
  ((l.foldl collect []).filter fun p => !small p.2).map fun p => OpString.mk' p.1 p.2

/-- expr.py:313-316 `sort`: drop the zeros, sort each string. -/
def sort (fermion : Bool) (l : List (Option (OpString N L K))) : List (OpString N L K) :=
  (l.filterMap id).map (OpString.sort fermion)

end OpSum
end Verif
