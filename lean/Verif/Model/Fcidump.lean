import Verif.Model.Py
import Mathlib.Algebra.Ring.Defs

/-!
Model of `/repo/pyblock3/fcidump.py`: distribution of integrals over ranks, writing and reading integral files.

Arrays are functions of their indices.  Text is represented by its lines: a line of the body is a number with four indices.
Printing a number and reading it back is an arbitrary function `rnd` (the format `%20.16f` rounds).  The text of a line is
treated in `formatLine` and `parseLine`.
-/

namespace Verif.Fcidump

/-- Indices of a two-electron integral. -/
abbrev Idx4 := Nat × Nat × Nat × Nat

/-- A two-index array. -/
abbrev T2 (K : Type) := Nat × Nat → K
/-- A four-index array. -/
abbrev T4 (K : Type) := Idx4 → K

/-- `a[x] = v`. -/
def put {ι K : Type} [DecidableEq ι] (a : ι → K) (x : ι) (v : K) : ι → K := fun y => if y = x then v else a y

/-! ### Distribution over ranks -/

section
variable {K : Type} [Zero K]

/-- fcidump.py:35-38 `_parallelize_h1e`. -/
def parallelizeH1e (n mrank msize : Nat) (h1e : T2 K) : T2 K :=
  (List.range n).foldl (fun h i => if mrank ≠ i % msize then (fun p => if p.1 = i then 0 else h p) else h) h1e

/-- fcidump.py:48-59: decides whether the element is dropped on this rank.  Integers do not wrap around. -/
def droppedG2e (mrank msize i j k l : Nat) : Bool :=
  let x := sortBy (fun a b => decide (a ≤ b)) [i, j, k, l]
  if x.getD 1 0 = x.getD 2 0 then mrank ≠ x.getD 1 0 % msize
  else
    let ii := x.getD 0 0
    let jj := x.getD 1 0
    if ii ≤ jj then mrank ≠ (jj * (jj + 1) / 2 + ii) % msize
    else mrank ≠ (ii * (ii + 1) / 2 + jj) % msize

/-- fcidump.py:41-59 `_parallelize_g2e`. -/
def parallelizeG2e [DecidableEq K] (n mrank msize : Nat) (g2e : T4 K) : T4 K :=
  (List.range n).foldl (fun g i => (List.range n).foldl (fun g j => (List.range n).foldl (fun g k =>
    (List.range n).foldl (fun g l =>
      if g (i, j, k, l) = 0 then g
      else if droppedG2e mrank msize i j k l then put g (i, j, k, l) 0 else g) g) g) g) g2e

/-- Integrals: restricted, or a tuple per spin (`h1e` of two, `g2e` of three in the order aa, ab, bb). -/
inductive Integrals (K : Type) where
  | restricted (h1e : T2 K) (g2e : T4 K)
  | unrestricted (h1eA h1eB : T2 K) (g2eAA g2eAB g2eBB : T4 K)

/-- fcidump.py:213-231 `parallelize` on rank `mrank` of `msize`: the constant and the integrals. -/
def parallelize [DecidableEq K] (n mrank msize : Nat) (constE : K) (x : Integrals K) : K × Integrals K :=
  (if mrank ≠ 0 then 0 else constE,
   match x with
   | .restricted h g => .restricted (parallelizeH1e n mrank msize h) (parallelizeG2e n mrank msize g)
   | .unrestricted ha hb gaa gab gbb => .unrestricted (parallelizeH1e n mrank msize ha) (parallelizeH1e n mrank msize hb)
       (parallelizeG2e n mrank msize gaa) (parallelizeG2e n mrank msize gab) (parallelizeG2e n mrank msize gbb))

end

/-! ### Files -/

/-- A line of the body: value and four indices. -/
abbrev Rec (K : Type) := K × Int × Int × Int × Int

/-- An integral file: header fields and body. -/
structure File (K : Type) where
  norb : Nat
  nelec : Int
  ms2 : Int
  orbsym : List Nat
  isym : Nat
  iuhf : Bool
  igeneral : Bool
  itgeneral : Bool
  body : List (Rec K)

/-- The attributes of an `FCIDUMP` object used by `write` and set by `read`. -/
structure Data (K : Type) where
  nSites : Nat
  nElec : Int
  twos : Int
  ipg : Nat
  orbSym : List Nat
  general : Bool
  tgeneral : Bool
  constE : K
  ints : Integrals K

section
variable {K : Type} [Zero K]

/-- The four nested loops with the three counters shared by `fold_eri(eri, 8)` (fcidump.py:491-505) and the 8-fold branch of
`write_eri` (fcidump.py:407-423): the body gets the position `ijkl` and the indices. -/
def loop8 {σ : Type} (n : Nat) (body : σ → Nat → Idx4 → σ) (s : σ) : σ :=
  ((List.range n).foldl (fun (st : σ × Nat × Nat) i =>
    (List.range (i + 1)).foldl (fun (st : σ × Nat × Nat) j =>
      let ij := st.2.1
      let r := (List.range (i + 1)).foldl (fun (st : σ × Nat × Nat) k =>
        (List.range (k + 1)).foldl (fun (st : σ × Nat × Nat) l =>
          let kl := st.2.1
          let ijkl := st.2.2
          if kl ≤ ij then (body st.1 ijkl (i, j, k, l), kl + 1, ijkl + 1) else (st.1, kl + 1, ijkl)) st) (st.1, 0, st.2.2)
      (r.1, ij + 1, r.2.2)) st) (s, 0, 0)).1

/-- fcidump.py:491-505 `fold_eri(eri, 8)`. -/
def foldEri8 (n : Nat) (eri : T4 K) : Nat → K := loop8 n (fun x ijkl ix => put x ijkl (eri ix)) fun _ => 0

/-- A line of the body for the element with 0-based indices. -/
def lineOf (v : K) (ix : Idx4) : Rec K := (v, ix.1 + 1, ix.2.1 + 1, ix.2.2.1 + 1, ix.2.2.2 + 1)

/-- fcidump.py:407-423 `write_eri`, 8-fold branch; `big x` is `abs(x) > tol`. -/
def writeEri8 (n : Nat) (big : K → Bool) (eri : Nat → K) : List (Rec K) :=
  loop8 n (fun out ijkl ix => if big (eri ijkl) then out ++ [lineOf (eri ijkl) ix] else out) []

/-- fcidump.py:383-392 `write_eri`, general branch. -/
def writeEri (n : Nat) (big : K → Bool) (eri : T4 K) : List (Rec K) :=
  (List.range n).flatMap fun i => (List.range n).flatMap fun j => (List.range n).flatMap fun k => (List.range n).flatMap fun l =>
    if big (eri (i, j, k, l)) then [lineOf (eri (i, j, k, l)) (i, j, k, l)] else []

/-- fcidump.py:472-478 `write_h1e`. -/
def writeH1e (n : Nat) (big : K → Bool) (h : T2 K) (tgen : Bool) : List (Rec K) :=
  (List.range n).flatMap fun i => (List.range (if tgen then n else i + 1)).flatMap fun j =>
    if big (h (i, j)) then [(h (i, j), (i : Int) + 1, (j : Int) + 1, 0, 0)] else []

/-- A line with a number and no indices. -/
def bare (v : K) : Rec K := (v, 0, 0, 0, 0)

/-- fcidump.py:518-555: the body.  `none`: spin-unrestricted integrals without the flag `general`: `fold_eri(vab, 4)`
(fcidump.py:506-516) has no `return`, so `vab` is `None` and `vab.ndim` raises. -/
def writeBody (big : K → Bool) (D : Data K) : Option (List (Rec K)) :=
  match D.ints with
  | .unrestricted ha hb gaa gab gbb =>
    if D.general then
      some (writeEri D.nSites big gaa ++ [bare 0] ++ (writeEri D.nSites big gbb ++ [bare 0]) ++ (writeEri D.nSites big gab ++ [bare 0]) ++
        (writeH1e D.nSites big ha D.tgeneral ++ [bare 0]) ++ (writeH1e D.nSites big hb D.tgeneral ++ [bare 0]) ++ [bare D.constE])
    else none
  | .restricted h g =>
    some ((if D.general then writeEri D.nSites big g else writeEri8 D.nSites big (foldEri8 D.nSites g)) ++
      writeH1e D.nSites big h D.tgeneral ++ [bare D.constE])

/-- fcidump.py:351-379 `write`: the header; `pg` is `PointGroup[self.pg]`, `list.index` raises when the element is missing. -/
def write (pg : List Nat) (big : K → Bool) (D : Data K) : Option (File K) :=
  (if D.orbSym.length > 0 then
      D.orbSym.mapM fun x => if x ∈ pg then some (pg.findIdx (· = x)) else none
    else some (List.replicate D.nSites 1)).bind fun orbsym =>
  (if D.ipg ∈ pg then some (pg.findIdx (· = D.ipg)) else none).bind fun isym =>
  (writeBody big D).map fun body =>
    ⟨D.nSites, D.nElec, D.twos, orbsym, isym, match D.ints with | .restricted .. => false | .unrestricted .. => true,
      D.general, D.tgeneral, body⟩

/-- Python index into a dimension of size `n`. -/
def pyIndex (n : Nat) (i : Int) : Option Nat :=
  if 0 ≤ i ∧ i < n then some i.toNat else if i < 0 ∧ 0 ≤ i + n then some (i + n).toNat else none

/-- The 0-based indices of a line. -/
def ixOf (n : Nat) (r : Int × Int × Int × Int) : Option Idx4 :=
  (pyIndex n (r.1 - 1)).bind fun i => (pyIndex n (r.2.1 - 1)).bind fun j => (pyIndex n (r.2.2.1 - 1)).bind fun k =>
    (pyIndex n (r.2.2.2 - 1)).map fun l => (i, j, k, l)

/-- fcidump.py:301-309 and 335-343: assignments for the symmetric index tuples sharing a value, in order. -/
def images8 : Idx4 → List Idx4
  | (i, j, k, l) => [(i, j, k, l), (j, i, k, l), (j, i, l, k), (i, j, l, k), (k, l, i, j), (k, l, j, i), (l, k, j, i), (l, k, i, j)]

/-- fcidump.py:335-338, for the mixed-spin integrals. -/
def images4 : Idx4 → List Idx4
  | (i, j, k, l) => [(i, j, k, l), (j, i, k, l), (j, i, l, k), (i, j, l, k)]

/-- Several assignments of one value. -/
def putAll {ι : Type} [DecidableEq ι] (g : ι → K) (ixs : List ι) (v : K) : ι → K := ixs.foldl (fun g ix => put g ix v) g

/-- fcidump.py:295-309: one line of a restricted file. -/
def readLine (n : Nat) (general : Bool) (st : K × T2 K × T4 K) (r : Rec K) : Option (K × T2 K × T4 K) :=
  let (d, i, j, k, l) := r
  if i + j + k + l = 0 then some (d, st.2.1, st.2.2)
  else if k + l = 0 then
    (pyIndex n (i - 1)).bind fun a => (pyIndex n (j - 1)).map fun b => (st.1, put (put st.2.1 (a, b) d) (b, a) d, st.2.2)
  else
    (ixOf n (i, j, k, l)).map fun ix => (st.1, st.2.1, putAll st.2.2 (if general then [ix] else images8 ix) d)

/-- fcidump.py:323-343: one line of an unrestricted file; the state starts with the counter `ip`. -/
def readLineU (n : Nat) (general tgeneral : Bool) (st : Nat × K × (T2 K × T2 K) × T4 K × T4 K × T4 K) (r : Rec K) :
    Option (Nat × K × (T2 K × T2 K) × T4 K × T4 K × T4 K) :=
  let (d, i, j, k, l) := r
  let (ip, c, (ha, hb), gaa, gab, gbb) := st
  if i + j + k + l = 0 then some (ip + 1, if ip + 1 = 6 then d else c, (ha, hb), gaa, gab, gbb)
  else if k + l = 0 then
    (pyIndex n (i - 1)).bind fun a => (pyIndex n (j - 1)).bind fun b =>
      let upd := fun h : T2 K => if tgeneral then put h (a, b) d else put (put h (a, b) d) (b, a) d
      if ip = 3 then some (ip, c, (upd ha, hb), gaa, gab, gbb)
      else if ip = 4 then some (ip, c, (ha, upd hb), gaa, gab, gbb)
      else none
  else
    (ixOf n (i, j, k, l)).bind fun ix =>
      if ip = 0 then some (ip, c, (ha, hb), putAll gaa (if general then [ix] else images8 ix) d, gab, gbb)
      else if ip = 1 then some (ip, c, (ha, hb), gaa, gab, putAll gbb (if general then [ix] else images8 ix) d)
      else if ip = 2 then some (ip, c, (ha, hb), gaa, putAll gab (if general then [ix] else images4 ix) d, gbb)
      else none

/-- fcidump.py:233-349 `read`, for `mu = 0`; `const0` is the constant the object had before.  `none`: an exception. -/
def read (pg : List Nat) (const0 : K) (f : File K) : Option (Data K) :=
  (pg[f.isym]?).bind fun ipg =>
  (f.orbsym.mapM fun i => pg[i]?).bind fun orbSym =>
  if f.iuhf then
    (f.body.foldlM (readLineU f.norb f.igeneral f.itgeneral) (0, const0, (fun _ => 0, fun _ => 0), fun _ => 0, fun _ => 0, fun _ => 0)).map
      fun st => ⟨f.norb, f.nelec, f.ms2, ipg, orbSym, f.igeneral, f.itgeneral, st.2.1,
        .unrestricted st.2.2.1.1 st.2.2.1.2 st.2.2.2.1 st.2.2.2.2.1 st.2.2.2.2.2⟩
  else
    (f.body.foldlM (readLine f.norb f.igeneral) (const0, fun _ => 0, fun _ => 0)).map
      fun st => ⟨f.norb, f.nelec, f.ms2, ipg, orbSym, f.igeneral, f.itgeneral, st.1, .restricted st.2.1 st.2.2⟩

/-- The text of a file loses digits: every number is replaced by what is read back. -/
def printed (rnd : K → K) (f : File K) : File K := { f with body := f.body.map fun r => (rnd r.1, r.2) }

end

/-! ### The text of a line -/

/-- `"%d"` of a nonnegative integer: decimal digits, most significant first. -/
def decimal (n : Nat) : List Char :=
  if n < 10 then [Char.ofNat (48 + n)] else decimal (n / 10) ++ [Char.ofNat (48 + n % 10)]

/-- `"%4d"`: padded on the left with blanks to width 4 (longer numbers are not cut). -/
def pad (w : Nat) (s : List Char) : List Char := List.replicate (w - s.length) ' ' ++ s

/-- fcidump.py:376 `'%20.16f%4d%4d%4d%4d\n'`, where `num` is the text of the number. -/
def formatLine (num : List Char) (i j k l : Nat) : List Char :=
  pad 20 num ++ pad 4 (decimal i) ++ pad 4 (decimal j) ++ pad 4 (decimal k) ++ pad 4 (decimal l)

/-- The loop of `s.split()` with the word read so far. -/
def splitAux (cur : List Char) : List Char → List (List Char)
  | [] => if cur = [] then [] else [cur]
  | c :: t => if c = ' ' then (if cur = [] then splitAux [] t else cur :: splitAux [] t) else splitAux (cur ++ [c]) t

/-- Python `s.split()`: maximal runs without blanks. -/
def splitBlank (s : List Char) : List (List Char) := splitAux [] s

/-- Python `int(s)` for a string of digits. -/
def parseNat (s : List Char) : Option Nat :=
  if s = [] then none else s.foldlM (fun n c => if 48 ≤ c.toNat ∧ c.toNat ≤ 57 then some (10 * n + (c.toNat - 48)) else none) 0

/-- fcidump.py:277-290: `ll.split()` must have five parts (or six, for complex numbers): number, four indices. -/
def parseLine (s : List Char) : Option (List Char × Nat × Nat × Nat × Nat) :=
  match splitBlank s with
  | [num, i, j, k, l] => (parseNat i).bind fun i => (parseNat j).bind fun j => (parseNat k).bind fun k => (parseNat l).map fun l =>
      (num, i, j, k, l)
  | _ => none

end Verif.Fcidump
