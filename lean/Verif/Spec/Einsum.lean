import Verif.Spec.Tensor
import Mathlib.Logic.Function.Basic
import Mathlib.Data.List.Dedup
import Mathlib.Algebra.Ring.Defs

/-! Specification of Einstein summation. -/

namespace Verif
variable {α Q K : Type} [DecidableEq α] [DecidableEq Q]

/-- Sum of `f` over all values of the given letters; the other letters keep their values in `σ`. -/
def sumOver [AddCommMonoid K] (leg : α → BondInfo Q) : List α → ((α → Q × Nat) → K) → (α → Q × Nat) → K
  | [], f, σ => f σ
  | c :: cs, f, σ => ((legBasis (leg c)).map fun z => sumOver leg cs f (Function.update σ c z)).sum

/-- The letters that are summed: those of the operands that are not in the result. -/
def summed (ops : List (List α)) (result : List α) : List α := ops.flatten.dedup.filter fun c => c ∉ result

/-- The Einstein sum: values `σ` of the letters of the result are given; the product of the entries of the operands is summed over
all values of the other letters. -/
def einstein [Semiring K] (leg : α → BondInfo Q) (ops : List (List α)) (result : List α) (Ts : List (SpT Q K)) (σ : α → Q × Nat) : K :=
  sumOver leg (summed ops result) (fun τ => ((ops.zip Ts).map fun p => entry p.2 (p.1.map τ)).prod) σ

/-- Each letter stands in exactly two places, and these are in different operands or in an operand and the result. -/
def TwicePlaced (ops : List (List α)) (result : List α) : Prop :=
  result.Nodup ∧ (∀ s ∈ ops, s.Nodup) ∧ ∀ c ∈ ops.flatten ++ result, (ops.flatten ++ result).count c = 2

instance (ops : List (List α)) (result : List α) : Decidable (TwicePlaced ops result) := by unfold TwicePlaced; infer_instance

end Verif
