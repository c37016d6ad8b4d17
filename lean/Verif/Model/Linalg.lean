import Mathlib.Algebra.Module.LinearMap.Defs
import Mathlib.Algebra.Field.Defs

/-!
Model of the iterative solvers, `/repo/pyblock3/algebra/linalg.py` and `/repo/pyblock3/algebra/integrate.py`.

Vectors are elements of a module `V` over the numbers `K`; `a @ v` is a linear map.  `dot u v` is
`np.dot(u.conj(), v)`.  In-place updates (`+=`, `p[:] = ...`) act on objects the solver owns or on the vectors handed in; the
model returns the final values.  MPI is off (`mpi=False`).  Printing is not modelled.
-/

namespace Verif

/-- integrate.py:25-30 `rk4_apply`.  `0.5` is `1/2`. -/
def rk4Apply {K V : Type} [Field K] [AddCommGroup V] [Module K V] (a : V →ₗ[K] V) (b : V) : V :=
  let k1 := a b
  let k2 := a ((1 / 2 : K) • k1 + b)
  let k3 := a ((1 / 2 : K) • k2 + b)
  let k4 := a (k3 + b)
  b + (1 / 6 : K) • k1 + (1 / 3 : K) • k2 + (1 / 3 : K) • k3 + (1 / 6 : K) • k4

section
variable {K V : Type} [Field K] [AddCommGroup V] [Module K V]

/-- State of the loop of `conjugate_gradient`: `x`, `r`, `p`, `old_error`. -/
structure CGState (K V : Type) where
  x : V
  r : V
  p : V
  oldError : K

/-- linalg.py:256-261: new `x`, new `r`, and `z`, `error`. -/
def cgUpdate (a : V →ₗ[K] V) (dot : V → V → K) (pre : V → V) (st : CGState K V) : V × V × V × K :=
  let hp := a st.p
  let alpha := st.oldError / dot st.p hp
  let x := st.x + alpha • st.p
  let r := st.r - alpha • hp
  let z := pre r
  (x, r, z, dot z r)

/-- linalg.py:254-270: the loop.  `n` iterations are left, `xiter` are done.  Returns `x`, `func` and the number of
iterations done.  `small e` is `np.sqrt(np.abs(e)) < conv_thrd`. -/
def cgLoop (a : V →ₗ[K] V) (dot : V → V → K) (pre : V → V) (small : K → Bool) (b : V) :
    Nat → Nat → CGState K V → Option K → V × Option K × Nat
  | 0, xiter, st, func => (st.x, func, xiter)
  | n + 1, xiter, st, _ =>
    let (x, r, z, error) := cgUpdate a dot pre st
    let func := dot x b
    if small error then (x, some func, xiter + 1)
    else
      let beta := error / st.oldError
      cgLoop a dot pre small b n (xiter + 1) { x := x, r := r, p := beta • st.p + z, oldError := error } (some func)

/-- linalg.py:242-273 `conjugate_gradient`: returns `func`, `x` and a counter, or `none` for the `RuntimeError`.
`pre` is `_precondition` (lines 96-102) with the diagonal of `a`; any function here. -/
def conjugateGradient (a : V →ₗ[K] V) (dot : V → V → K) (pre : V → V) (small : K → Bool) (maxIter : Nat) (x b : V) :
    Option (K × V × Nat) :=
  let r := - (a x) + b
  let p := pre r
  let error := dot p r
  if small error then some (dot x b, x, 1)
  else
    let (x', func, xiter) := cgLoop a dot pre small b maxIter 0 { x := x, r := r, p := p, oldError := error } none
    if xiter = maxIter then none
    else func.map fun f => (f, x', xiter + 1)

/-- What `davidson` uses besides the matrix: inner product, complex conjugation, division by the norm (`none` for norm 0), `np.linalg.eigh`
of the `m × m` matrix (eigenvalues, eigenvectors), the preconditioner (`none` when `a` has no diagonal) applied to `q`, `b[ck]`,
`ld[ck]`, and the test `np.sqrt(qq) < conv_thrd`. -/
structure DavidsonEnv (K V : Type) where
  dot : V → V → K
  conj : K → K
  normalize : V → Option V
  eigh : Nat → (Nat → Nat → K) → (Nat → K) × (Nat → Nat → K)
  precondition : Option (V → V → K → V)
  small : K → Bool

/-- State of the Davidson loop: `b`, `sigma` (the unset entries are zero vectors), `ck`, `m`, `msig`, `ld`. -/
structure DavidsonState (K V : Type) where
  b : List V
  sigma : List V
  ck : Nat
  m : Nat
  msig : Nat
  ld : Nat → K

/-- linalg.py:147-150: orthonormalise the initial guesses; `done` are the finished ones. -/
def davidsonInit (E : DavidsonEnv K V) : List V → List V → Option (List V)
  | done, [] => some done
  | done, v :: rest =>
    (E.normalize (done.foldl (fun w u => w + (- E.dot u w) • u) v)).bind fun u => davidsonInit E (done ++ [u]) rest

/-- linalg.py:163-165: images of the new trial vectors. -/
def davidsonSigma (a : V →ₗ[K] V) (b sigma : List V) (msig m : Nat) : List V :=
  (List.range' msig (m - msig)).foldl (fun s i => s.set i (a (b.getD i 0))) sigma

/-- linalg.py:167-171: the projected matrix, filled from its lower triangle. -/
def davidsonMatrix (E : DavidsonEnv K V) (b sigma : List V) (i j : Nat) : K :=
  if j ≤ i then E.dot (b.getD i 0) (sigma.getD j 0) else E.conj (E.dot (b.getD j 0) (sigma.getD i 0))

/-- linalg.py:174-180 (for `b`) and 182-189 (for `sigma`): replace the first `m` vectors by their combinations. -/
def davidsonRotate (m : Nat) (alpha : Nat → Nat → K) (b : List V) : List V :=
  b.zipIdx.map fun p =>
    let v := p.1
    let j := p.2
    if j < m then (List.range m).foldl (fun w i => if i ≠ j then w + alpha i j • b.getD i 0 else w) (alpha j j • v)
    else v

/-- The residual of root `i`: lines 191-192 and 198-199. -/
def davidsonResidual (st : DavidsonState K V) (i : Nat) : V := st.sigma.getD i 0 + (- st.ld i) • st.b.getD i 0

/-- linalg.py:190-196: look for a root counted as converged whose residual is too large. -/
def davidsonCheck (E : DavidsonEnv K V) (st : DavidsonState K V) : Nat :=
  ((List.range st.ck).find? fun i =>
    !E.small (E.dot (davidsonResidual st i) (davidsonResidual st i))).getD st.ck

/-- linalg.py:163-199: images, projected eigenproblem, rotation, check of converged roots. -/
def davidsonRitz (a : V →ₗ[K] V) (E : DavidsonEnv K V) (st : DavidsonState K V) : DavidsonState K V :=
  let sigma := davidsonSigma a st.b st.sigma st.msig st.m
  let r := E.eigh st.m (davidsonMatrix E st.b sigma)
  let st1 : DavidsonState K V :=
    { b := davidsonRotate st.m r.2 st.b, sigma := davidsonRotate st.m r.2 sigma, ck := st.ck, m := st.m, msig := max st.msig st.m
      ld := r.1 }
  { st1 with ck := davidsonCheck E st1 }

/-- linalg.py:204-205, 215-227: precondition the residual, deflate, orthogonalise, append.  `none`: `IndexError` when the
sub-space size after deflation exceeds the number of vectors, or division by a zero norm. -/
def davidsonExpand (E : DavidsonEnv K V) (minSize maxSize : Nat) (st : DavidsonState K V) : Option (DavidsonState K V) :=
  let q0 := davidsonResidual st st.ck
  let q := match E.precondition with
    | none => q0
    | some f => f q0 (st.b.getD st.ck 0) (st.ld st.ck)
  let m := if maxSize ≤ st.m then minSize else st.m
  let msig := if maxSize ≤ st.m then minSize else st.msig
  if st.b.length < m then none
  else
    let q := (List.range m).foldl (fun q j => q + (- E.dot (st.b.getD j 0) q) • st.b.getD j 0) q
    (E.normalize q).map fun q =>
      let b := if st.b.length ≤ m then st.b ++ [0] else st.b
      let sigma := if st.b.length ≤ m then st.sigma ++ [0] else st.sigma
      { st with b := b.set m q, sigma := sigma, m := m + 1, msig := msig }

/-- linalg.py:158-232: the loop with `n` iterations left.  Result: final state, iterations done, and whether the warning
"Only ... converged!" was issued. -/
def davidsonLoop (a : V →ₗ[K] V) (E : DavidsonEnv K V) (k minSize maxSize : Nat) :
    Nat → Nat → DavidsonState K V → Option (DavidsonState K V × Nat × Bool)
  | 0, xiter, st => some (st, xiter, false)
  | n + 1, xiter, st =>
    let st := davidsonRitz a E st
    let res := davidsonResidual st st.ck
    if E.small (E.dot res res) then
      let st := { st with ck := st.ck + 1 }
      if st.ck = k then some (st, xiter + 1, false)
      else if n = 0 then some ({ st with ck := k }, xiter + 1, true)
      else davidsonLoop a E k minSize maxSize n (xiter + 1) st
    else
      match davidsonExpand E minSize maxSize st with
      | none => none
      | some st =>
        if n = 0 then some ({ st with ck := k }, xiter + 1, true)
        else davidsonLoop a E k minSize maxSize n (xiter + 1) st

/-- linalg.py:105-239 `davidson`: eigenvalues, vectors, number of iterations, and whether the warning was issued.
`none`: the failing assertion, an `IndexError` (for `k = 0` on line 152), `max_iter = 0` (`ld` unbound), or a division by a zero
norm (the code goes on with `nan`; if this happens in the last permitted iteration the `nan` vector is not among the returned ones,
so `none` is pessimistic there). -/
def davidson (a : V →ₗ[K] V) (E : DavidsonEnv K V) (b : List V) (k maxIter minSize maxSize : Nat) :
    Option (List K × List V × Nat × Bool) :=
  if b.length ≠ k ∨ k = 0 ∨ maxIter = 0 then none
  else
    let minSize := if minSize < k then k else minSize
    (davidsonInit E [] b).bind fun b => (davidsonLoop a E k minSize maxSize maxIter 0
      { b := b, sigma := List.replicate k 0, ck := 0, m := k, msig := 0, ld := fun _ => 0 }).map
      fun p => ((List.range p.1.ck).map p.1.ld, p.1.b.take p.1.ck, p.2)

end
end Verif
