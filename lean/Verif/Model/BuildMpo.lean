import Verif.Model.Expr
import Verif.Model.Dict
import Verif.Model.Sparse
import Mathlib.Algebra.Group.Defs

/-!
Model of the construction of a matrix product operator from an operator expression: `SymbolicSparseTensor.right_svd`
(`/repo/pyblock3/symbolic/symbolic.py`) and the loop of `Hamiltonian.build_mpo` (`/repo/pyblock3/hamiltonian.py`), before the symbols are replaced
by matrices.

`np.linalg.svd` is a parameter `svd`; `big x` is `x > cutoff`; `small x` is `abs(x) <= 1E-12`; `c` takes singular values to coefficients.  The choice
between real and complex arrays is not modelled.
-/

namespace Verif
namespace BuildMpo

/-- Dictionaries of operators have symbols with factor 1 as keys; these are compared by name and site (expr.py:154-159). -/
abbrev Key (N : Type) := N × List Int

variable {N L K V : Type}

/-- The key `abs(op)`. -/
def key (e : OpElement N L K) : Key N := (e.name, e.site)

/-- A `SymbolicSparseTensor` whose matrix is a column: names of the rows (`lop`), one symbol or the number 0 per row (`mat`), and what the symbols stand
for (`ops`). -/
structure Column (N L K : Type) where
  lop : List (OpElement N L K)
  mat : List (Option (OpElement N L K))
  ops : Dict (Key N) (OpVal N L K)

/-- A `SymbolicSparseTensor` whose matrix is a `SymbolicMatrix`: entries with their positions, in the order in which they were written. -/
structure SiteMatrix (N L K : Type) where
  nRows : Nat
  nCols : Nat
  entries : List ((Nat × Nat) × OpElement N L K)
  ops : Dict (Key N) (OpVal N L K)
  lop : List (OpElement N L K)
  rop : List (OpElement N L K)

/-- symbolic.py:378-415: what is collected for one pair of labels: the dictionaries of left and right parts as lists of their keys (the value of a key is
its position) and the list of coefficients. -/
structure Group (N L K : Type) where
  ql : L
  qr : L
  mpl : List (Nat × List (OpElement N L K))
  mpr : List (List (OpElement N L K))
  vals : List (Nat × Nat × K)

/-- Equality of tuples of symbols. -/
def sameOps [DecidableEq N] [DecidableEq K] (a b : List (OpElement N L K)) : Bool :=
  decide (a.length = b.length) && (a.zip b).all fun p => p.1.same p.2

/-- symbolic.py:403-412: position of a key in a dictionary whose values count up, with insertion if it is new. -/
def findOrAdd {α : Type} (p : α → Bool) (x : α) (l : List α) : Nat × List α :=
  match l.findIdx? p with
  | some i => (i, l)
  | none => (l.length, l ++ [x])

section
variable [DecidableEq N] [DecidableEq K]

/-- symbolic.py:402-415: a coefficient is entered in its group. -/
def Group.insert (g : Group N L K) (ip : Nat) (l r : List (OpElement N L K)) (f : K) : Group N L K :=
  let a := findOrAdd (fun y : Nat × List (OpElement N L K) => decide (y.1 = ip) && sameOps y.2 l) (ip, l) g.mpl
  let b := findOrAdd (fun y => sameOps y r) r g.mpr
  { g with mpl := a.2, mpr := b.2, vals := g.vals ++ [(a.1, b.1, f)] }

/-- symbolic.py:395-415: the group of the labels is looked up, or made. -/
def addTerm [DecidableEq L] : List (Group N L K) → L → L → Nat → List (OpElement N L K) → List (OpElement N L K) → K → List (Group N L K)
  | [], ql, qr, ip, l, r, f => [Group.insert ⟨ql, qr, [], [], []⟩ ip l r f]
  | g :: gs, ql, qr, ip, l, r, f => if g.ql = ql ∧ g.qr = qr then g.insert ip l r f :: gs else g :: addTerm gs ql qr ip l r f

/-- symbolic.py:385-390: the symbols up to the first one beyond site `idx`.  A symbol without site, other than the identity, raises. -/
def splitOps (idx : Int) (iop : OpElement N L K) : List (OpElement N L K) → Option (List (OpElement N L K) × List (OpElement N L K))
  | [] => some ([], [])
  | op :: rest =>
    if op.same iop then (splitOps idx iop rest).map fun x => (op :: x.1, x.2)
    else match op.site with
      | [] => none
      | s :: _ => if s ≤ idx then (splitOps idx iop rest).map fun x => (op :: x.1, x.2) else some ([], op :: rest)

/-- symbolic.py:391-392: an empty part becomes the identity. -/
def orIdent (iop : OpElement N L K) (l : List (OpElement N L K)) : List (OpElement N L K) := if l = [] then [iop] else l

end

section
variable [CommRing K] [DecidableEq K] [DecidableEq N]

/-- symbolic.py:375-381: the terms of a row: the expression times the factor of the symbol.  (A sum times 0 is the number 0, which has no `strings`.) -/
def termsOf (small : K → Bool) (f : K) : OpVal N L K → Option (List (Option (OpString N L K)))
  | .sum l => if f = 0 then none else some (l.map fun x => x.bind fun s => OpVal.strNum small s f)
  | .str s => some [OpVal.strNum small s f]
  | .elem e => some [OpVal.strNum small (OpString.mk' [e]) f]
  | .num _ => none

variable [AddCommGroup L] [DecidableEq L]

/-- symbolic.py:382-415: one term. -/
def collectTerm (idx : Int) (iop : OpElement N L K) (ip : Nat) (qll : L) (gs : List (Group N L K)) : Option (OpString N L K) → Option (List (Group N L K))
  | none => some gs
  | some term =>
    match splitOps idx iop term.ops with
    | none => none
    | some (l, r) =>
      let l := orIdent iop l
      let r := orIdent iop r
      let ql := -qll + (l.map (·.label)).sum
      let qr := (r.map (·.label)).sum
      if ql + qr = iop.label then some (addTerm gs ql qr ip l r term.factor) else none

/-- symbolic.py:370-415: one row. -/
def collectRow (small : K → Bool) (idx : Int) (iop : OpElement N L K) (col : Column N L K) (gs : List (Group N L K)) (ip : Nat) : Option (List (Group N L K)) :=
  match col.mat[ip]? with
  | some (some op) =>
    match col.lop[ip]?, Dict.get? col.ops (key op) with
    | some lop, some expr => (termsOf small op.factor expr).bind fun ts => ts.foldlM (collectTerm idx iop ip lop.label) gs
    | _, _ => none
  | some none => some gs
  | none => none

/-- symbolic.py:370-415: all rows. -/
def collectAll (small : K → Bool) (idx : Int) (iop : OpElement N L K) (col : Column N L K) : Option (List (Group N L K)) :=
  (List.range col.mat.length).foldlM (collectRow small idx iop col) []

/-- symbolic.py:421-423: the coefficients of a group as a matrix. -/
def Group.matrix (g : Group N L K) : Arr K :=
  ⟨[g.mpl.length, g.mpr.length], fun ix => ((g.vals.filter fun v => decide ([v.1, v.2.1] = ix)).map fun v => v.2.2).sum⟩

/-- symbolic.py:425: the positions of the values above the cutoff. -/
def Group.mask (svd : Arr K → Arr K × Arr V × Arr K) (big : V → Bool) (g : Group N L K) : List Nat :=
  (List.range ((svd g.matrix).2.1.shape.headD 0)).filter fun t => big ((svd g.matrix).2.1.get [t])

/-- One element of a product of arrays of objects (symbolic.py:447-448): the products are added from left to right. -/
def objDot : List (OpVal N L K) → Option (OpVal N L K)
  | [] => some (.num 0)
  | x :: xs => xs.foldlM OpVal.add x

/-- symbolic.py:426, 441-444, 447: element `ip` of column `t` of `lxmat @ ll`. -/
def Group.leftVal (small : K → Bool) (c : V → K) (svd : Arr K → Arr K × Arr V × Arr K) (g : Group N L K) (ip t : Nat) : Option (OpVal N L K) :=
  objDot (g.mpl.zipIdx.map fun p =>
    if p.1.1 = ip then OpVal.ofOpt (OpVal.strNum small (OpString.mk' p.1.2) (c ((svd g.matrix).2.1.get [t]) * (svd g.matrix).1.get [p.2, t])) else .num 0)

/-- symbolic.py:426, 442, 445-446, 448: element `t` of `rr @ rxmat`. -/
def Group.rightVal (small : K → Bool) (svd : Arr K → Arr K × Arr V × Arr K) (g : Group N L K) (t : Nat) : Option (OpVal N L K) :=
  objDot (g.mpr.zipIdx.map fun p => OpVal.ofOpt (OpVal.strNum small (OpString.mk' p.1) ((svd g.matrix).2.2.get [t, p.2])))

/-- symbolic.py:461-471, 472-482: a value becomes an entry: nothing for zero, the symbol itself for a string of one symbol, otherwise a new symbol `X`
with the number of the counter.  Returns the entry, the counter and the dictionary. -/
def place (x : N) (n : Nat) (ops : Dict (Key N) (OpVal N L K)) (q : L) (val : OpVal N L K) :
    Option (Option (OpElement N L K) × Nat × Dict (Key N) (OpVal N L K)) :=
  let new := some (some ⟨x, [(n : Int)], 1, q⟩, n + 1, Dict.set ops (x, [(n : Int)]) val)
  match val with
  | .num a => if a = 0 then some (none, n, ops) else new
  | .str s =>
    match s.ops with
    | [e] =>
      match OpVal.elemNum e s.factor with
      | .elem e => some (some e, n, Dict.set ops (key e) (.elem e.abs))
      | _ => none
    | _ => new
  | _ => new

/-- symbolic.py:455-471, 472-482: values become entries, one after the other. -/
def placeAll (x : N) : Nat → Dict (Key N) (OpVal N L K) → List (L × OpVal N L K) → Option (List (Option (OpElement N L K)) × Dict (Key N) (OpVal N L K))
  | _, ops, [] => some ([], ops)
  | n, ops, job :: jobs =>
    match place x n ops job.1 job.2 with
    | none => none
    | some (e, n, ops) => (placeAll x n ops jobs).map fun r => (e :: r.1, r.2)

/-- symbolic.py:436-440: each group with the number of its first column, and its kept values with their numbers. -/
def columns (svd : Arr K → Arr K × Arr V × Arr K) (big : V → Bool) : Nat → List (Group N L K) → List (Group N L K × List (Nat × Nat))
  | _, [] => []
  | im, g :: gs => (g, (g.mask svd big).zipIdx im) :: columns svd big (im + (g.mask svd big).length) gs

/-- symbolic.py:366-496 `right_svd` (of a tensor whose matrix is a column).  `names` are `OpNames.X`, `XL`, `XR`. -/
def rightSvd (names : N × N × N) (small : K → Bool) (c : V → K) (svd : Arr K → Arr K × Arr V × Arr K) (big : V → Bool) (iop : OpElement N L K) (idx : Int)
    (col : Column N L K) : Option (SiteMatrix N L K × Column N L K) :=
  match collectAll small idx iop col with
  | none => none
  | some gs =>
    let cs := columns svd big 0 gs
    let leftJobs := cs.flatMap fun g => (List.range col.mat.length).flatMap fun ip => g.2.map fun t => (g.1, ip, t)
    let rightJobs := cs.flatMap fun g => g.2.map fun t => (g.1, t)
    let lefts := leftJobs.mapM fun j => (j.1.leftVal small c svd j.2.1 j.2.2.1).map fun v => (j.1.ql + ((col.lop[j.2.1]?).map (·.label)).getD 0, v)
    let rights := rightJobs.mapM fun j => (j.1.rightVal small svd j.2.1).map fun v => (j.1.qr, v)
    match lefts, rights with
    | some lefts, some rights =>
      match placeAll names.1 0 [] lefts, placeAll names.1 0 [] rights with
      | some (es, lops), some (fs, rops) =>
        some (⟨col.mat.length, rightJobs.length, (leftJobs.zip es).filterMap fun p => p.2.map fun e => ((p.1.2.1, p.1.2.2.2), e), lops, col.lop,
            rightJobs.map fun j => ⟨names.2.2, [(j.2.2 : Int)], 1, j.1.ql⟩⟩,
          ⟨rightJobs.map fun j => ⟨names.2.1, [(j.2.2 : Int)], 1, j.1.qr⟩, fs, rops⟩)
      | _, _ => none
    | _, _ => none

/-- hamiltonian.py:245-249: the loop over the sites; the last tensor stays a column. -/
def split (names : N × N × N) (small : K → Bool) (c : V → K) (svd : Arr K → Arr K × Arr V × Arr K) (big : V → Bool) (iop : OpElement N L K) :
    List Nat → Column N L K → Option (List (SiteMatrix N L K) × Column N L K)
  | [], col => some ([], col)
  | i :: is, col =>
    match rightSvd names small c svd big iop i col with
    | none => none
    | some (m, col) => (split names small c svd big iop is col).map fun r => (m :: r.1, r.2)

/-- hamiltonian.py:232-249: the terms are sorted, put in one tensor, and split over the sites.  `hop` is the symbol for the whole expression. -/
def build (names : N × N × N) (small : K → Bool) (c : V → K) (svd : Arr K → Arr K × Arr V × Arr K) (big : V → Bool) (iop hop : OpElement N L K) (nSites : Nat)
    (terms : List (Option (OpString N L K))) : Option (List (SiteMatrix N L K) × Column N L K) :=
  split names small c svd big iop (List.range (nSites - 1))
    ⟨[hop], [some hop], [(key hop, .sum ((OpSum.sort true terms).map some))]⟩

end
end BuildMpo
end Verif
