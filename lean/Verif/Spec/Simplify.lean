import Verif.Model.Simplify
import Mathlib.Algebra.Ring.Defs
import Mathlib.Algebra.BigOperators.Group.List.Defs

/-!
Specification for the simplification of symbolic matrix product operators: chains of symbolic matrices that fit together, their product, and bonds without idle states.
-/

namespace Verif
namespace Symbolic
variable {O α : Type}

/-- The matrix is a row (column) vector. -/
def Tensor.IsRow (t : Tensor O α) : Prop := ∃ d, t.mat = .row d
def Tensor.IsCol (t : Tensor O α) : Prop := ∃ d, t.mat = .col d

/-- The matrix has the shape of the bonds. -/
def Tensor.Fits (t : Tensor O α) : Prop := match t.mat with
  | .row d => d.length = t.rop.length ∧ t.lop.length = 1
  | .col d => d.length = t.lop.length ∧ t.rop.length = 1
  | .full nr nc es => nr = t.lop.length ∧ nc = t.rop.length ∧ ∀ e ∈ es, e.1.1 < nr ∧ e.1.2 < nc

/-- The tensors fit together: `L` says when an operator of the right bond of a tensor and one of the left bond of the next tensor are the two sides of one state. -/
structure Good (L : O → O → Prop) (ts : List (Tensor O α)) : Prop where
  fits : ∀ t ∈ ts, t.Fits
  row : ∀ (i : Nat) (t : Tensor O α), ts[i]? = some t → t.IsRow → i = 0
  col : ∀ (i : Nat) (t : Tensor O α), ts[i]? = some t → t.IsCol → i + 1 = ts.length
  link : ∀ (i : Nat) (a b : Tensor O α), ts[i]? = some a → ts[i + 1]? = some b → List.Forall₂ L a.rop b.lop

/-- Row `j` of the product of the matrices from site `i` on; `w i x` is the value of the entry `x` on site `i`. -/
def chain {R : Type} [Semiring R] (w : Nat → α → R) : Nat → List (Tensor O α) → Nat → R
  | _, [], _ => 1
  | i, t :: ts, j => ((t.cells.filter fun c => c.1 = j).map fun c => w i c.2.2 * chain w (i + 1) ts c.2.1).sum

/-- Every state of the right (left) bond has an entry that is not 0. -/
def Tensor.ColFull (t : Tensor O α) : Prop := ∀ k < t.rop.length, ∃ c ∈ t.cells, c.2.1 = k
def Tensor.RowFull (t : Tensor O α) : Prop := ∀ j < t.lop.length, ∃ c ∈ t.cells, c.1 = j

end Symbolic
end Verif
