import Verif.Model.Linalg

/-!
Model of a time step of the time-dependent DMRG: `MPE.rk4`, `/repo/pyblock3/algebra/mpe.py:386-415`, and the loop of ten sub-steps,
`/repo/pyblock3/algorithms/tddmrg.py:77-86`.  The product of the local operator with a vector is a linear map `h`.  The part of the state that the local operator cannot
reach (`brem`, which is carried along unchanged) is left out: it is zero when the blocks of the state are among those of the operator.
-/

namespace Verif
section
variable {K V : Type} [Field K] [AddCommGroup V] [Module K V]

/-- mpe.py:394-404: the four vectors `b`, `r1`, `r2`, `r3`. -/
def mpeRk4 (h : V →ₗ[K] V) (dt : K) (b : V) : V × V × V × V :=
  let k1 := dt • h b
  let k2 := dt • h ((1 / 2 : K) • k1 + b)
  let k3 := dt • h ((1 / 2 : K) • k2 + b)
  let k4 := dt • h (k3 + b)
  let r1 := b + (31 / 162 : K) • k1 + (14 / 162 : K) • k2 + (14 / 162 : K) • k3 + (-5 / 162 : K) • k4
  let r2 := b + (16 / 81 : K) • k1 + (20 / 81 : K) • k2 + (20 / 81 : K) • k3 + (-2 / 81 : K) • k4
  let r3 := b + (1 / 6 : K) • k1 + (1 / 3 : K) • k2 + (1 / 3 : K) • k3 + (1 / 6 : K) • k4
  (b, r1, r2, r3)

/-- tddmrg.py:77-86: the sub-steps with `dt / n` (the code has `n = 10`), each from the last vector of the one before. -/
def tdSubSteps (h : V →ₗ[K] V) (dt : K) (n : Nat) (b : V) : V :=
  (List.range n).foldl (fun v _ => (mpeRk4 h (dt / (n : K)) v).2.2.2) b

end
end Verif
