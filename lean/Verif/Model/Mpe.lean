import Verif.Model.Dict
import Mathlib.Logic.Function.Basic

/-!
Model of the partition objects `MPE` and `CachedMPE`, `/repo/pyblock3/algebra/mpe.py`.

The tensors of the states (`T`), of the operator (`W`) and the environments (`V`) are arbitrary types; the contraction of an environment
with one site and the canonicalisation of two neighbouring sites are arbitrary functions.  Sites are natural numbers.  The left environment
called `left_envs[i]` in the code covers the sites up to `i`; here it has the number `i + 1`, the number of sites it covers, so that
`left 0` is the identity at the left end.  The right environment `right_envs[i]` covers the sites from `i` on and keeps its number.
A missing entry and an entry `None` are both `none`.  Parallel execution (`mpi`) is left out.
-/

namespace Verif
namespace Mpe

/-- The parts of a partition object that do not change: number of sites, `do_canon`, whether bra and ket are the same object, operator
tensors, boundary environments (`idents[0]`, `idents[1]`), the contraction of an environment with the operator, bra and ket tensors of a
site (mpe.py:133-160 and 162-189), and the canonicalisation of two neighbouring tensors (mpe.py:123-131). -/
structure Cfg (T W V : Type) where
  n : Nat
  canon : Bool
  same : Bool
  mpo : Nat → W
  identL : V
  identR : V
  rotL : V → W → T → T → V
  rotR : V → W → T → T → V
  canonL : T → T → T × T
  canonR : T → T → T × T

/-- The parts that change.  When bra and ket are the same object only `ket` is used. -/
structure Sys (T V : Type) where
  ket : Nat → T
  bra : Nat → T
  left : Nat → Option V
  right : Nat → Option V

section
variable {T W V : Type}

/-- The tensors of the bra. -/
def braOf (c : Cfg T W V) (s : Sys T V) : Nat → T := if c.same then s.ket else s.bra

/-- mpe.py:123-126 `_left_canonicalize_site`: sites `i` and `i + 1` are replaced. -/
def canonLeftAt (c : Cfg T W V) (i : Nat) (f : Nat → T) : Nat → T :=
  Function.update (Function.update f i (c.canonL (f i) (f (i + 1))).1) (i + 1) (c.canonL (f i) (f (i + 1))).2

/-- mpe.py:128-131 `_right_canonicalize_site`: sites `i - 1` and `i` are replaced. -/
def canonRightAt (c : Cfg T W V) (i : Nat) (f : Nat → T) : Nat → T :=
  Function.update (Function.update f i (c.canonR (f (i - 1)) (f i)).2) (i - 1) (c.canonR (f (i - 1)) (f i)).1

/-- mpe.py:143-146: the canonicalisation before a left environment is extended by site `i`. -/
def prepLeft (c : Cfg T W V) (i : Nat) (s : Sys T V) : Sys T V :=
  if c.canon then { s with ket := canonLeftAt c i s.ket, bra := if c.same then s.bra else canonLeftAt c i s.bra } else s

/-- mpe.py:172-175: the canonicalisation before a right environment is extended by site `i`. -/
def prepRight (c : Cfg T W V) (i : Nat) (s : Sys T V) : Sys T V :=
  if c.canon then { s with ket := canonRightAt c i s.ket, bra := if c.same then s.bra else canonRightAt c i s.bra } else s

/-- mpe.py:222-225, one turn of the first loop of `build_envs`, for the environment that covers `k` sites.  `none`: the previous environment
is missing. -/
def buildLeft1 (c : Cfg T W V) (k : Nat) (s : Sys T V) : Option (Sys T V) :=
  match s.left k with
  | some _ => some s
  | none =>
    match k with
    | 0 => some { s with left := Function.update s.left 0 (some c.identL) }
    | i + 1 =>
      (s.left i).map fun prev =>
        let s' := prepLeft c i s
        { s' with left := Function.update s'.left (i + 1) (some (c.rotL prev (c.mpo i) (braOf c s' i) (s'.ket i))) }

/-- mpe.py:226-229, one turn of the second loop of `build_envs`, for the environment of the sites from `i` on. -/
def buildRight1 (c : Cfg T W V) (i : Nat) (s : Sys T V) : Option (Sys T V) :=
  match s.right i with
  | some _ => some s
  | none =>
    if i = c.n then some { s with right := Function.update s.right c.n (some c.identR) } else
      (s.right (i + 1)).map fun prev =>
        let s' := prepRight c i s
        { s' with right := Function.update s'.right i (some (c.rotR prev (c.mpo i) (braOf c s' i) (s'.ket i))) }

/-- mpe.py:218-229 `build_envs(l, r)`: left environments of `0, ..., l` sites, then right environments `n, n - 1, ..., r`. -/
def buildEnvs (c : Cfg T W V) (l r : Nat) (s : Sys T V) : Option (Sys T V) :=
  ((List.range (l + 1)).foldlM (fun s k => buildLeft1 c k s) s).bind fun s =>
    (List.range' r (c.n + 1 - r)).reverse.foldlM (fun s i => buildRight1 c i s) s

/-- `f[l:r] = ts` for a list of `r - l` tensors. -/
def setRange (f : Nat → T) (l r : Nat) (ts : List T) : Nat → T := fun i =>
  if l ≤ i ∧ i < r then ts.getD (i - l) (f i) else f i

/-- mpe.py:283-292: the replacement of the tensors of the sites `l, ..., r - 1` and the removal of environments, after `build_envs`.
`bras` is `none` when the new bra is the new ket. -/
def embed (c : Cfg T W V) (l r : Nat) (kets : List T) (bras : Option (List T)) (s : Sys T V) : Sys T V :=
  let ket := setRange s.ket l r kets
  let newBra := bras.getD ((List.range' l (r - l)).map ket)
  { ket := if c.same then setRange ket l r newBra else ket
    bra := if c.same then s.bra else setRange s.bra l r newBra
    left := fun k => if l < k ∧ k ≤ c.n + 1 then none else s.left k
    right := fun i => if i < r then none else s.right i }

/-- mpe.py:281-292 `_embedded`, i.e. `mpe[l:r] = me`. -/
def setWindow (c : Cfg T W V) (l r : Nat) (kets : List T) (bras : Option (List T)) (s : Sys T V) : Option (Sys T V) :=
  (buildEnvs c l r s).map (embed c l r kets bras)

/-- mpe.py:86-98, 271-279 and 231-254: the environments that `mpe[l:r]` combines with the operator tensors of the sites `l, ..., r - 1`, and
the ket and bra tensors it returns for these sites.  It works on a copy, so the object itself does not change; in the copy bra and ket are
different objects. -/
def getWindow (c : Cfg T W V) (l r : Nat) (s : Sys T V) : Option (V × V × List T × List T) :=
  (buildEnvs { c with same := false } l r { s with bra := braOf c s }).bind fun s =>
    (s.left l).bind fun a => (s.right r).map fun b =>
      (a, b, (List.range' l (r - l)).map s.ket, (List.range' l (r - l)).map s.bra)

/-- mpe.py:55-61: a new object has no environments. -/
def new (ket bra : Nat → T) : Sys T V := ⟨ket, bra, fun _ => none, fun _ => none⟩

end

/-! ### Storage on disk -/

/-- mpe.py:451: `cached`, a list of `[name, data, on disk]` with the oldest first; and the files. -/
structure Store (F X : Type) where
  cached : List (F × X × Bool)
  disk : Dict F X

section
variable {F X : Type} [DecidableEq F]

/-- mpe.py:484-489 and 496-501: append an entry; when the list is too long drop the oldest entry, after writing it to its file if needed. -/
def Store.push (maxsize : Nat) (e : F × X × Bool) (s : Store F X) : Store F X :=
  let cached := s.cached ++ [e]
  if maxsize < cached.length then
    match cached with
    | [] => ⟨[], s.disk⟩
    | c :: rest => ⟨rest, if c.2.2 then s.disk else Dict.set s.disk c.1 c.2.1⟩
  else ⟨cached, s.disk⟩

/-- mpe.py:479-490 `_load_data`.  `none`: the file does not exist. -/
def Store.load (maxsize : Nat) (fn : F) (s : Store F X) : Option (X × Store F X) :=
  match s.cached.find? fun c => c.1 = fn with
  | some c => some (c.2.1, s)
  | none => (Dict.get? s.disk fn).map fun x => (x, s.push maxsize (fn, x, true))

/-- mpe.py:492-501 `_save_data`.  Line 494 assigns to a slice of a list that is not kept, so nothing happens when the name is in `cached`. -/
def Store.save (maxsize : Nat) (fn : F) (x : X) (s : Store F X) : Store F X :=
  match s.cached.find? fun c => c.1 = fn with
  | some _ => s
  | none => s.push maxsize (fn, x, false)

/-- An operation on the store. -/
inductive Op (F X : Type) where
  | save (fn : F) (x : X)
  | load (fn : F)

/-- Run a list of operations; collects the loaded values. -/
def Store.run (maxsize : Nat) : List (Op F X) → Store F X → Option (List X × Store F X)
  | [], s => some ([], s)
  | .save fn x :: ops, s => Store.run maxsize ops (s.save maxsize fn x)
  | .load fn :: ops, s => (s.load maxsize fn).bind fun r => (Store.run maxsize ops r.2).map fun t => (r.1 :: t.1, t.2)

/-- A new object: nothing cached; no files. -/
def Store.empty : Store F X := ⟨[], []⟩

end

/-! ### Environments on disk -/

/-- An entry of `left_envs`, `right_envs` of a `CachedMPE`: an identity kept in memory or the name of a file (mpe.py:473-477). -/
inductive Handle where
  | ident
  | file (left : Bool) (i : Nat)
  deriving DecidableEq

/-- The parts of a `CachedMPE` that change. -/
structure CSys (T V : Type) where
  ket : Nat → T
  bra : Nat → T
  left : Nat → Option Handle
  right : Nat → Option Handle
  store : Store (Bool × Nat) V

section
variable {T W V : Type}

/-- The data behind a handle (mpe.py:508-509, 520-521, 531-534). -/
def fetch (maxsize : Nat) (ident : V) (h : Handle) (st : Store (Bool × Nat) V) : Option (V × Store (Bool × Nat) V) :=
  match h with
  | .ident => some (ident, st)
  | .file b i => st.load maxsize (b, i)

/-- mpe.py:222-225 with 503-513. -/
def cbuildLeft1 (c : Cfg T W V) (m : Nat) (k : Nat) (s : CSys T V) : Option (CSys T V) :=
  match s.left k with
  | some _ => some s
  | none =>
    match k with
    | 0 => some { s with left := Function.update s.left 0 (some .ident) }
    | i + 1 =>
      (s.left i).bind fun prev => (fetch m c.identL prev s.store).map fun r =>
        let s' := prepLeft c i ⟨s.ket, s.bra, fun _ => none, fun _ => none⟩
        { s with
          ket := s'.ket, bra := s'.bra, left := Function.update s.left (i + 1) (some (.file true i))
          store := r.2.save m (true, i) (c.rotL r.1 (c.mpo i) (braOf c s' i) (s'.ket i)) }

/-- mpe.py:226-229 with 515-525. -/
def cbuildRight1 (c : Cfg T W V) (m : Nat) (i : Nat) (s : CSys T V) : Option (CSys T V) :=
  match s.right i with
  | some _ => some s
  | none =>
    if i = c.n then some { s with right := Function.update s.right c.n (some .ident) } else
      (s.right (i + 1)).bind fun prev => (fetch m c.identR prev s.store).map fun r =>
        let s' := prepRight c i ⟨s.ket, s.bra, fun _ => none, fun _ => none⟩
        { s with
          ket := s'.ket, bra := s'.bra, right := Function.update s.right i (some (.file false i))
          store := r.2.save m (false, i) (c.rotR r.1 (c.mpo i) (braOf c s' i) (s'.ket i)) }

/-- mpe.py:218-229 for a `CachedMPE`. -/
def cbuildEnvs (c : Cfg T W V) (m l r : Nat) (s : CSys T V) : Option (CSys T V) :=
  ((List.range (l + 1)).foldlM (fun s k => cbuildLeft1 c m k s) s).bind fun s =>
    (List.range' r (c.n + 1 - r)).reverse.foldlM (fun s i => cbuildRight1 c m i s) s

/-- mpe.py:281-292 for a `CachedMPE`. -/
def csetWindow (c : Cfg T W V) (m l r : Nat) (kets : List T) (bras : Option (List T)) (s : CSys T V) : Option (CSys T V) :=
  (cbuildEnvs c m l r s).map fun s =>
    let e : Sys T V := embed c l r kets bras ⟨s.ket, s.bra, fun _ => none, fun _ => none⟩
    { s with
      ket := e.ket, bra := e.bra
      left := fun k => if l < k ∧ k ≤ c.n + 1 then none else s.left k
      right := fun i => if i < r then none else s.right i }

/-- mpe.py:271-279 with 527-538, after `build_envs(l, r)`: the environments read by `mpe[l:r]`, on a copy of the object (the copy has its own
list `cached`, the files are shared). -/
def cread (c : Cfg T W V) (m l r : Nat) (s : CSys T V) : Option ((V × V) × CSys T V) :=
  (s.left l).bind fun hl => (s.right r).bind fun hr =>
  (fetch m c.identL hl s.store).bind fun a => (fetch m c.identR hr a.2).map fun b =>
    ((a.1, b.1), { s with store := ⟨s.store.cached, b.2.disk⟩ })

end
end Mpe
end Verif
