import Verif.Model.Sparse
import Verif.Spec.Basic
import Mathlib.Algebra.BigOperators.Group.List.Basic

/-!
Specification of block-sparse tensors: what dense tensor a list of blocks stands for.

A leg of a tensor is a vector space with one sector per quantum label.  A basis vector of the leg is a
pair (label, position inside the sector).  A tensor has one number for each choice of a basis vector on
each leg.
-/

namespace Verif

/-- `qs` picks one label from each bond and `shs` are the corresponding multiplicities. -/
inductive IsCombination {Q : Type} [DecidableEq Q] : List (BondInfo Q) → List Q → List Nat → Prop
  | nil : IsCombination [] [] []
  | cons {b bs q qs s shs} : Dict.get? b q = some s → IsCombination bs qs shs →
      IsCombination (b :: bs) (q :: qs) (s :: shs)

instance decIsCombination {Q : Type} [DecidableEq Q] : (legs : List (BondInfo Q)) → (qs : List Q) →
    (sh : List Nat) → Decidable (IsCombination legs qs sh)
  | [], [], [] => isTrue .nil
  | [], _ :: _, _ => isFalse nofun
  | [], [], _ :: _ => isFalse nofun
  | _ :: _, [], _ => isFalse nofun
  | _ :: _, _ :: _, [] => isFalse nofun
  | b :: bs, q :: qs, s :: sh =>
    if h : Dict.get? b q = some s then
      match decIsCombination bs qs sh with
      | isTrue h' => isTrue (.cons h h')
      | isFalse h' => isFalse fun hc => by cases hc with | cons _ h2 => exact h' h2
    else isFalse fun hc => by cases hc with | cons h1 _ => exact h h1

/-- Basis vectors of a leg: each label with each position below its multiplicity. -/
def legBasis {Q : Type} (b : BondInfo Q) : List (Q × Nat) :=
  b.flatMap fun p => (List.range p.2).map fun i => (p.1, i)

/-- All choices of one basis vector from each leg. -/
def legIndices {Q : Type} (legs : List (BondInfo Q)) : List (List (Q × Nat)) :=
  cart (legs.map legBasis)

section
variable {Q K : Type} [DecidableEq Q]

/-- Contribution of one block to the entry at the multi-index `x`. -/
def blockEntry [Zero K] (b : List Q × Arr K) (x : List (Q × Nat)) : K :=
  if b.1 = x.map Prod.fst ∧ inBox b.2.shape (x.map Prod.snd) = true then b.2.get (x.map Prod.snd) else 0

/-- The entry of the dense tensor at `x`; positions not covered by a block are zero.  (Blocks with
equal labels would add up; the theorems state when labels are distinct.) -/
def entry [Zero K] [Add K] (T : SpT Q K) (x : List (Q × Nat)) : K :=
  (T.map fun b => blockEntry b x).sum

/-- The legs that are not contracted, in increasing order. -/
def freeAxes (n : Nat) (idx : List Nat) : List Nat := (List.range n).filter fun i => i ∉ idx

/-- A Python axis `x` names leg `i` of a tensor with `n` legs: `x = i`, or `x = i - n` when negative. -/
def NamesAxis (n : Nat) (x : Int) (i : Nat) : Prop := i < n ∧ (x = (i : Int) ∨ x = (i : Int) - (n : Int))

/-- `y` is the multi-index with `c` on the legs `idx` and `f` on the remaining legs. -/
def HasIndices (idx : List Nat) (c f y : List (Q × Nat)) [Zero Q] : Prop :=
  y.length = c.length + f.length ∧ pick idx y = c ∧ pick (freeAxes y.length idx) y = f

/-- The tensor lives on the given legs: each block has the dimensions of its sectors. -/
def Conforms (legs : List (BondInfo Q)) (T : SpT Q K) : Prop :=
  ∀ b ∈ T, IsCombination legs b.1 b.2.shape

instance (legs : List (BondInfo Q)) (T : SpT Q K) : Decidable (Conforms legs T) :=
  inferInstanceAs (Decidable (∀ b ∈ T, _))

/-- No two blocks carry the same labels. -/
def UniqueLabels (T : SpT Q K) : Prop := (T.map Prod.fst).Nodup

instance (T : SpT Q K) : Decidable (UniqueLabels T) := inferInstanceAs (Decidable (List.Nodup _))

/-- Every block conserves the charge: signed sum of its labels is `dq`. -/
def Conserves [AddCommGroup Q] (pattern : List Bool) (dq : Q) (T : SpT Q K) : Prop :=
  ∀ b ∈ T, signedSum pattern b.1 = dq

instance [AddCommGroup Q] (pattern : List Bool) (dq : Q) (T : SpT Q K) :
    Decidable (Conserves pattern dq T) := inferInstanceAs (Decidable (∀ b ∈ T, _))

end
end Verif
