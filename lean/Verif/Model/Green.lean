import Verif.Model.Linalg
import Mathlib.Tactic.Abel

/-!
Model of the local step of the Green's function solver: `GreensFunctionFunctor`, `/repo/pyblock3/algebra/flat_functor.py:222-258`, and `MPE.solve_gf`,
`/repo/pyblock3/algebra/mpe.py:417-440`.  The product of the local operator with a vector (`FlatSparseFunctor.__matmul__`) is a linear map `h`; tensors are vectors of
the same space, so `prepare_vector` and `finalize_vector` do nothing.
-/

namespace Verif
section
variable {K V : Type} [Field K] [DecidableEq K] [AddCommGroup V] [Module K V]

/-- flat_functor.py:235-244 `GreensFunctionFunctor.__matmul__`. -/
def greenMatmul (h : V →ₗ[K] V) (omega eta : K) (other : V) : V :=
  let btmp := h other
  let btmp := if omega ≠ 0 then btmp + omega • other else btmp
  let c := h btmp
  let c := if omega ≠ 0 then c + omega • btmp else c
  if eta ≠ 0 then c + (eta * eta) • other else c

/-- flat_functor.py:246-251 `GreensFunctionFunctor.real_part`. -/
def greenRealPart (h : V →ₗ[K] V) (omega eta : K) (other : V) : V :=
  let r := h other
  let r := if omega ≠ 0 then r + omega • other else r
  (1 / (- eta)) • r

/-- The functor as a linear map. -/
def greenMap (h : V →ₗ[K] V) (omega eta : K) : V →ₗ[K] V where
  toFun := greenMatmul h omega eta
  map_add' x y := by
    simp only [greenMatmul]
    split_ifs <;> simp only [map_add, map_smul, smul_add] <;> abel
  map_smul' c x := by
    simp only [greenMatmul, RingHom.id_apply]
    split_ifs <;> simp only [map_add, map_smul, smul_add, smul_comm c]

/-- mpe.py:417-440 `solve_gf`: real and imaginary part of the value, the solution `x`, its real part `r`, and the number of iterations.  `pre` is the division by
`GreensFunctionFunctor.diag`; any function here.  `none`: `conjugate_gradient` raises. -/
def solveGf (dot : V → V → K) (pre : V → V) (small : K → Bool) (maxIter : Nat) (h : V →ₗ[K] V) (omega eta : K) (x0 ket : V) :
    Option (K × K × V × V × Nat) :=
  let b := (- eta) • ket
  (conjugateGradient (greenMap h omega eta) dot pre small maxIter x0 b).map fun p =>
    let x := p.2.1
    let r := greenRealPart h omega eta x
    (dot r b / (- eta), p.1 / (- eta), x, r, p.2.2)

end
end Verif
