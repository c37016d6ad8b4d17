import Verif.Model.Decomp
import Verif.Spec.Trunc
import Mathlib.Data.Real.Star
import Mathlib.Algebra.BigOperators.Fin

/-! Specification of the splitting of the tensor of two sites. -/

namespace Verif
namespace Decomp
variable {Q : Type} [DecidableEq Q]

/-- The legs of the tensor of two sites: edge, bond, two sites, bond, edge; the labels of the edges are zero. -/
structure Window [AddCommGroup Q] (e a p q b f : BondInfo Q) : Prop where
  good : ∀ x ∈ [e, a, p, q, b, f], GoodBond x
  edgeL : ∀ x ∈ e, x.1 = 0
  edgeR : ∀ x ∈ f, x.1 = 0

/-- A state on these legs, with a definite charge. -/
structure TwoSite [AddCommGroup Q] (e a p q b f : BondInfo Q) (dq : Q) (W : SpT Q ℝ) : Prop where
  conf : Conforms ([e, a, p] ++ [q, b, f]) W
  uniq : UniqueLabels W
  charge : Conserves [true, true, true, true, false, true] dq W

/-- The product of the two new tensors, summed over the new bond. -/
def joined (m : BondInfo Q) (L R : SpT Q ℝ) (x y : List (Q × Nat)) : ℝ := ((legBasis m).map fun z => entry L (x ++ [z]) * entry R (z :: y)).sum

/-- Square norm of a state. -/
def normSq (legsL legsR : List (BondInfo Q)) (W : SpT Q ℝ) : ℝ := ((legIndices legsL).map fun x => ((legIndices legsR).map fun y => entry W (x ++ y) ^ 2).sum).sum

/-- Square distance of a state from the product of two tensors. -/
def distSq (legsL legsR : List (BondInfo Q)) (m : BondInfo Q) (W L R : SpT Q ℝ) : ℝ :=
  ((legIndices legsL).map fun x => ((legIndices legsR).map fun y => (entry W (x ++ y) - joined m L R x y) ^ 2).sum).sum

/-- `n` orthonormal vectors on some legs. -/
def OrthonormalOn (legs : List (BondInfo Q)) (n : Nat) (v : Fin n → List (Q × Nat) → ℝ) : Prop :=
  ∀ i j, ((legIndices legs).map fun x => v i x * v j x).sum = if i = j then 1 else 0

/-- Square distance of a state from its projection to vectors on the left legs. -/
def leftRest (legsL legsR : List (BondInfo Q)) (W : SpT Q ℝ) {n : Nat} (v : Fin n → List (Q × Nat) → ℝ) : ℝ :=
  ((legIndices legsL).map fun x => ((legIndices legsR).map fun y =>
    (entry W (x ++ y) - ∑ j, v j x * ((legIndices legsL).map fun x' => v j x' * entry W (x' ++ y)).sum) ^ 2).sum).sum

/-- Square distance of a state from its projection to vectors on the right legs. -/
def rightRest (legsL legsR : List (BondInfo Q)) (W : SpT Q ℝ) {n : Nat} (v : Fin n → List (Q × Nat) → ℝ) : ℝ :=
  ((legIndices legsL).map fun x => ((legIndices legsR).map fun y =>
    (entry W (x ++ y) - ∑ j, v j y * ((legIndices legsR).map fun y' => v j y' * entry W (x ++ y')).sum) ^ 2).sum).sum

/-- Sum over the states with their weights. -/
def weighted (wfns : List (SpT Q ℝ)) (ws : List ℝ) (g : SpT Q ℝ → ℝ) : ℝ := ((wfns.zip ws).map fun p => p.2 * g p.1).sum

/-- The weights: as given, or equal ones. -/
noncomputable def usedWeights (weights : Option (List ℝ)) (n : Nat) : List ℝ := weights.getD (List.replicate n (1 / (n : ℝ)))

/-- The states are split into a common tensor `L` of the left site and a tensor `R W` of the right site each. -/
structure LeftSplit [AddCommGroup Q] (e a p q b f : BondInfo Q) (dq : Q) (wfns : List (SpT Q ℝ)) (ws : List ℝ) (m : BondInfo Q) (L : SpT Q ℝ)
    (R : SpT Q ℝ → SpT Q ℝ) (error : ℝ) : Prop where
  bond : GoodBond m
  left : Conforms ([e, a, p] ++ [m]) L ∧ UniqueLabels L ∧ Conserves [false, true, true, false] 0 L
  right : ∀ W ∈ wfns, Conforms (m :: [q, b, f]) (R W) ∧ UniqueLabels (R W) ∧ Conserves [true, true, false, true] dq (R W)
  /-- The tensor of the left site is an isometry. -/
  iso : LeftIsometric [e, a, p] m L
  /-- The product of the two tensors is the projection of the state to the space of the left tensor. -/
  rest : ∀ W ∈ wfns, ∀ y, y.length = 3 → ∀ z ∈ legBasis m, entry (R W) (z :: y) = ((legIndices [e, a, p]).map fun x => entry L (x ++ [z]) * entry W (x ++ y)).sum
  /-- The reported error is the weighted square distance of the states from the products. -/
  loss : weighted wfns ws (fun W => distSq [e, a, p] [q, b, f] m W L (R W)) = error
  /-- No projection to a space of the left legs that is not larger loses less. -/
  best : ∀ n (v : Fin n → List (Q × Nat) → ℝ), OrthonormalOn [e, a, p] n v → n ≤ (legBasis m).length → error ≤ weighted wfns ws (fun W => leftRest [e, a, p] [q, b, f] W v)

/-- The states are split into a tensor `L W` of the left site each and a common tensor `R` of the right site. -/
structure RightSplit [AddCommGroup Q] (e a p q b f : BondInfo Q) (dq : Q) (wfns : List (SpT Q ℝ)) (ws : List ℝ) (m : BondInfo Q) (L : SpT Q ℝ → SpT Q ℝ)
    (R : SpT Q ℝ) (error : ℝ) : Prop where
  bond : GoodBond m
  left : ∀ W ∈ wfns, Conforms ([e, a, p] ++ [m]) (L W) ∧ UniqueLabels (L W) ∧ Conserves [true, true, true, false] dq (L W)
  right : Conforms (m :: [q, b, f]) R ∧ UniqueLabels R ∧ Conserves [true, true, false, false] 0 R
  /-- The tensor of the right site is an isometry. -/
  iso : RightIsometric m [q, b, f] R
  /-- The product of the two tensors is the projection of the state to the space of the right tensor. -/
  rest : ∀ W ∈ wfns, ∀ x, x.length = 3 → ∀ z ∈ legBasis m, entry (L W) (x ++ [z]) = ((legIndices [q, b, f]).map fun y => entry R (z :: y) * entry W (x ++ y)).sum
  /-- The reported error is the weighted square distance of the states from the products. -/
  loss : weighted wfns ws (fun W => distSq [e, a, p] [q, b, f] m W (L W) R) = error
  /-- No projection to a space of the right legs that is not larger loses less. -/
  best : ∀ n (v : Fin n → List (Q × Nat) → ℝ), OrthonormalOn [q, b, f] n v → n ≤ (legBasis m).length → error ≤ weighted wfns ws (fun W => rightRest [e, a, p] [q, b, f] W v)

end Decomp
end Verif
