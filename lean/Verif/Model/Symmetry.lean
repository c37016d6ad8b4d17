import Mathlib.Data.Nat.Bitwise

/-!
Model of the quantum label classes of
`/repo/pyblock3/algebra/symmetry.py` and `/repo/pyblock3/algebra/fermion_symmetry.py`.

Python integers are unbounded; the numpy integer arrays that hold packed labels are modelled by
`Int` too (fixed-width wrap-around is not modelled).  Python `//` and `%` with a positive divisor
are `Int.fdiv` / `Int.fmod`; on positive divisors these agree with Lean's `/` and `%`.
-/

namespace Verif

/-- symmetry.py:28-34 `class SZ`: fields `n`, `twos`, `pg`.  The point-group irrep is only ever
combined with `^` and is nonnegative in the library, so it is a `Nat`. -/
structure SZ where
  n : Int
  twos : Int
  pg : Nat
deriving DecidableEq, Repr

namespace SZ

/-- symmetry.py:31 default arguments of `SZ.__init__`. -/
def zero : SZ := ⟨0, 0, 0⟩

/-- symmetry.py:36-38 `is_fermion`: `self.n % 2 == 1`. -/
def isFermion (q : SZ) : Bool := q.n % 2 == 1

/-- symmetry.py:40-41 `to_flat`. -/
def toFlat (q : SZ) : Int := ((q.n + 8192) * 16384 + (q.twos + 8192)) * 8 + (q.pg : Int)

/-- symmetry.py:43-45 `from_flat`. `x % 8` is nonnegative, hence `toNat`. -/
def fromFlat (x : Int) : SZ :=
  ⟨(x / 131072) % 16384 - 8192, (x / 8) % 16384 - 8192, (x % 8).toNat⟩

/-- symmetry.py:47-49 `is_flat_fermion`: `(x & 131072) != 0`.  Packed labels are nonnegative;
the bit test is taken on the natural number. -/
def isFlatFermion (x : Int) : Bool := (x.toNat &&& 131072) != 0

/-- symmetry.py:51-52 `__add__`. -/
def add (a b : SZ) : SZ := ⟨a.n + b.n, a.twos + b.twos, a.pg ^^^ b.pg⟩

/-- symmetry.py:54-55 `__sub__`. -/
def sub (a b : SZ) : SZ := ⟨a.n - b.n, a.twos - b.twos, a.pg ^^^ b.pg⟩

/-- symmetry.py:57-58 `__neg__` (keeps `pg`). -/
def neg (a : SZ) : SZ := ⟨-a.n, -a.twos, a.pg⟩

/-- symmetry.py:60-61 `__eq__`. -/
def beq (a b : SZ) : Bool := a.n == b.n && a.twos == b.twos && a.pg == b.pg

/-- symmetry.py:63-64 `__lt__`: Python tuple comparison (first differing component decides). -/
def lt (a b : SZ) : Bool :=
  if a.n == b.n then
    if a.twos == b.twos then decide (a.pg < b.pg) else decide (a.twos < b.twos)
  else decide (a.n < b.n)

/-- symmetry.py:66-67 `__hash__`: hash of the tuple of fields, for an arbitrary hash of tuples. -/
def hash {H : Type} (tupleHash : Int × Int × Nat → H) (a : SZ) : H :=
  tupleHash (a.n, a.twos, a.pg)

end SZ

/-- fermion_symmetry.py:30-35 `class U1`. -/
structure U1 where
  n : Int
deriving DecidableEq, Repr

namespace U1
/-- fermion_symmetry.py:34. -/
def zero : U1 := ⟨0⟩
/-- fermion_symmetry.py:37-38. -/
def add (a b : U1) : U1 := ⟨a.n + b.n⟩
/-- fermion_symmetry.py:40-41. -/
def sub (a b : U1) : U1 := ⟨a.n - b.n⟩
/-- fermion_symmetry.py:43-44. -/
def neg (a : U1) : U1 := ⟨-a.n⟩
/-- fermion_symmetry.py:58-60 `parity`. -/
def parity (a : U1) : Int := a.n % 2
/-- fermion_symmetry.py:66-68 `qpn_to_flat`. -/
def qpnToFlat (n : Int) : Int := (n + 8192) * 131072
/-- fermion_symmetry.py:70-72 `flat_to_qpn`. -/
def flatToQpn (x : Int) : Int := x / 131072 - 8192
/-- fermion_symmetry.py:74-76 `from_flat`. -/
def fromFlat (x : Int) : U1 := ⟨flatToQpn x⟩
/-- fermion_symmetry.py:78-79 `to_flat`. -/
def toFlat (a : U1) : Int := qpnToFlat a.n
/-- fermion_symmetry.py:81-86 `flat_to_parity`. -/
def flatToParity (x : Int) : Int := (x / 131072) % 2
/-- fermion_symmetry.py:88-93 `flip_flat`. -/
def flipFlat (x : Int) : Int := 2147483648 - x
end U1

/-- fermion_symmetry.py:147-180 `class Z2(U1)` with `_modulus = 2`, and `class Z4(Z2)` with
`_modulus = 4`; the modulus is the parameter `m`. -/
structure Zm (m : Int) where
  n : Int
deriving DecidableEq, Repr

namespace Zm
variable {m : Int}
/-- fermion_symmetry.py:152-153 `__init__`: reduces modulo `_modulus`. -/
def mk' (n : Int) : Zm m := ⟨n % m⟩
/-- fermion_symmetry.py:152 default argument. -/
def zero : Zm m := mk' 0
/-- fermion_symmetry.py:37-38 inherited; goes through `__init__`. -/
def add (a b : Zm m) : Zm m := mk' (a.n + b.n)
/-- fermion_symmetry.py:40-41 inherited. -/
def sub (a b : Zm m) : Zm m := mk' (a.n - b.n)
/-- fermion_symmetry.py:43-44 inherited. -/
def neg (a : Zm m) : Zm m := mk' (-a.n)
/-- fermion_symmetry.py:58-60 inherited `parity`. -/
def parity (a : Zm m) : Int := a.n % 2
/-- fermion_symmetry.py:155-157 `flat_to_parity`. -/
def flatToParity (x : Int) : Int := x % 2
/-- fermion_symmetry.py:159-161 `qpn_to_flat`. -/
def qpnToFlat (m n : Int) : Int := n % m
/-- fermion_symmetry.py:163-165 `flat_to_qpn`. -/
def flatToQpn (m x : Int) : Int := x % m
/-- fermion_symmetry.py:74-76 inherited. -/
def fromFlat (x : Int) : Zm m := mk' (flatToQpn m x)
/-- fermion_symmetry.py:78-79 inherited. -/
def toFlat (a : Zm m) : Int := qpnToFlat m a.n
/-- fermion_symmetry.py:167-169 `flip_flat`. -/
def flipFlat (m x : Int) : Int := (-x) % m
end Zm

/-- fermion_symmetry.py:174-178. -/
abbrev Z4 := Zm 4
/-- fermion_symmetry.py:147-153. -/
abbrev Z2 := Zm 2

/-- fermion_symmetry.py:182-188 `class U11`. -/
structure U11 where
  n : Int
  sz : Int
deriving DecidableEq, Repr

namespace U11
/-- fermion_symmetry.py:186. -/
def zero : U11 := ⟨0, 0⟩
/-- fermion_symmetry.py:190-191. -/
def add (a b : U11) : U11 := ⟨a.n + b.n, a.sz + b.sz⟩
/-- fermion_symmetry.py:193-194. -/
def sub (a b : U11) : U11 := ⟨a.n - b.n, a.sz - b.sz⟩
/-- fermion_symmetry.py:199-200. -/
def neg (a : U11) : U11 := ⟨-a.n, -a.sz⟩
/-- fermion_symmetry.py:208-210. -/
def parity (a : U11) : Int := a.n % 2
/-- fermion_symmetry.py:216-218. -/
def flatToParity (x : Int) : Int := (x / 131072) % 2
/-- fermion_symmetry.py:220-222. -/
def qpnToFlat (n sz : Int) : Int := ((n + 8192) * 16384 + (sz + 8192)) * 8
/-- fermion_symmetry.py:224-226. -/
def flatToQpn (x : Int) : Int × Int := ((x / 131072) % 16384 - 8192, (x / 8) % 16384 - 8192)
/-- fermion_symmetry.py:228-230. -/
def flipFlat (x : Int) : Int := 2147614720 - x
/-- fermion_symmetry.py:232-233. -/
def toFlat (a : U11) : Int := qpnToFlat a.n a.sz
/-- fermion_symmetry.py:235-237. -/
def fromFlat (x : Int) : U11 := ⟨(flatToQpn x).1, (flatToQpn x).2⟩
end U11

/-- fermion_symmetry.py:294-302 `class Z22(U11)` with `_mod1 = _mod2 = 2`. -/
structure Z22 where
  n : Int
  sz : Int
deriving DecidableEq, Repr

namespace Z22
/-- fermion_symmetry.py:300-302 `__init__`. -/
def mk' (n sz : Int) : Z22 := ⟨n % 2, sz % 2⟩
/-- fermion_symmetry.py:300 defaults. -/
def zero : Z22 := mk' 0 0
/-- fermion_symmetry.py:190-191 inherited. -/
def add (a b : Z22) : Z22 := mk' (a.n + b.n) (a.sz + b.sz)
/-- fermion_symmetry.py:193-194 inherited. -/
def sub (a b : Z22) : Z22 := mk' (a.n - b.n) (a.sz - b.sz)
/-- fermion_symmetry.py:199-200 inherited. -/
def neg (a : Z22) : Z22 := mk' (-a.n) (-a.sz)
/-- fermion_symmetry.py:208-210 inherited. -/
def parity (a : Z22) : Int := a.n % 2
/-- fermion_symmetry.py:304-306 (`n % 2 * 2 + sz % 2` parses as `((n % 2) * 2) + (sz % 2)`). -/
def qpnToFlat (n sz : Int) : Int := n % 2 * 2 + sz % 2
/-- fermion_symmetry.py:308-310. -/
def flatToQpn (x : Int) : Int × Int := (x / 2, x % 2)
/-- fermion_symmetry.py:312-314. -/
def flatToParity (x : Int) : Int := x / 2 % 2
/-- fermion_symmetry.py:316-318. -/
def flipFlat (x : Int) : Int := x % (2 * 2)
/-- fermion_symmetry.py:232-233 inherited. -/
def toFlat (a : Z22) : Int := qpnToFlat a.n a.sz
/-- fermion_symmetry.py:235-237 inherited. -/
def fromFlat (x : Int) : Z22 := mk' (flatToQpn x).1 (flatToQpn x).2
end Z22

/-! ### `_compute` -/

/-- The interface of a symmetry class used by `_compute`: fermion_symmetry.py:95-145 (U1, Z2, Z4)
and 242-292 (U11, Z22).  `C` is the label class, `P` its unpacked integer representation
(`n`, or the pair `(n, sz)`), on which the array path works componentwise. -/
structure SymClass (C P : Type) where
  zero : C
  add : C → C → C
  sub : C → C → C
  neg : C → C
  toFlat : C → Int
  fromFlat : Int → C
  /-- `qpn_to_flat` on the unpacked integers. -/
  qpnToFlat : P → Int
  /-- `flat_to_qpn`. -/
  flatToQpn : Int → P
  /-- the attributes `dq.n` (and `dq.sz`) of a label. -/
  attrs : C → P
  /-- `cls(0)` seen as unpacked integers is what the array path adds when there is no offset. -/
  pAdd : P → P → P
  pNeg : P → P
  pZero : P

/-- fermion_symmetry.py:34-145. -/
def U1.cls : SymClass U1 Int where
  zero := U1.zero
  add := U1.add
  sub := U1.sub
  neg := U1.neg
  toFlat := U1.toFlat
  fromFlat := U1.fromFlat
  qpnToFlat := U1.qpnToFlat
  flatToQpn := U1.flatToQpn
  attrs a := a.n
  pAdd := (· + ·)
  pNeg := Neg.neg
  pZero := 0

/-- fermion_symmetry.py:147-180 (Z2 for `m = 2`, Z4 for `m = 4`). -/
def Zm.cls (m : Int) : SymClass (Zm m) Int where
  zero := Zm.zero
  add := Zm.add
  sub := Zm.sub
  neg := Zm.neg
  toFlat := Zm.toFlat
  fromFlat := Zm.fromFlat
  qpnToFlat := Zm.qpnToFlat m
  flatToQpn := Zm.flatToQpn m
  attrs a := a.n
  pAdd := (· + ·)
  pNeg := Neg.neg
  pZero := 0

/-- fermion_symmetry.py:182-292. -/
def U11.cls : SymClass U11 (Int × Int) where
  zero := U11.zero
  add := U11.add
  sub := U11.sub
  neg := U11.neg
  toFlat := U11.toFlat
  fromFlat := U11.fromFlat
  qpnToFlat p := U11.qpnToFlat p.1 p.2
  flatToQpn := U11.flatToQpn
  attrs a := (a.n, a.sz)
  pAdd p q := (p.1 + q.1, p.2 + q.2)
  pNeg p := (-p.1, -p.2)
  pZero := (0, 0)

/-- fermion_symmetry.py:294-318. -/
def Z22.cls : SymClass Z22 (Int × Int) where
  zero := Z22.zero
  add := Z22.add
  sub := Z22.sub
  neg := Z22.neg
  toFlat := Z22.toFlat
  fromFlat := Z22.fromFlat
  qpnToFlat p := Z22.qpnToFlat p.1 p.2
  flatToQpn := Z22.flatToQpn
  attrs a := (a.n, a.sz)
  pAdd p q := (p.1 + q.1, p.2 + q.2)
  pNeg p := (-p.1, -p.2)
  pZero := (0, 0)

namespace SymClass
variable {C P : Type} (S : SymClass C P)

/-- fermion_symmetry.py:109-113: the accumulation loop of the object path.
A sign is `true` for `"+"`, `false` for `"-"` (any other character in the code). -/
def accum : C → List (C × Bool) → C
  | out, [] => out
  | out, (iq, true) :: rest => accum (S.add out iq) rest
  | out, (iq, false) :: rest => accum (S.sub out iq) rest

/-- fermion_symmetry.py:102-115: `_compute` on label objects; `none` is the failing
`assert(len(pattern)==len(qpns))`. -/
def computeObj (pattern : List Bool) (qpns : List C) (offset : Option (Bool × C)) (neg : Bool) :
    Option C :=
  if pattern.length = qpns.length then
    let (pat, qs) := match offset with
      | none => (pattern, qpns)
      | some (ix, dq) => (pattern ++ [ix], qpns ++ [dq])
    let out := S.accum S.zero (qs.zip pat)
    some (if neg then S.neg out else out)
  else none

/-- fermion_symmetry.py:133-135: columns with `"-"` are multiplied by -1. -/
def signRow : List Bool → List P → List P
  | false :: pat, x :: xs => S.pNeg x :: signRow pat xs
  | true :: pat, x :: xs => x :: signRow pat xs
  | _, xs => xs

/-- fermion_symmetry.py:116-142: `_compute` on one row of packed labels (`ndim == 1`; for a matrix the code
does the same for every row).  The offset may be a packed label (line 126-127). -/
def computeFlat (pattern : List Bool) (row : List Int) (offset : Option (Bool × (C ⊕ Int)))
    (neg : Bool) : Int :=
  let arr := row.map S.flatToQpn
  let off : P := match offset with
    | none => S.attrs S.zero
    | some (ix, dq) =>
      let d := match dq with
        | .inl d => d
        | .inr x => S.fromFlat x
      S.attrs (if ix then d else S.neg d)
  let total := (S.signRow pattern arr).foldl S.pAdd S.pZero
  S.qpnToFlat (if neg then S.pAdd (S.pNeg total) (S.pNeg off) else S.pAdd total off)

end SymClass

end Verif
