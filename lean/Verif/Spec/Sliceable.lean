import Verif.Spec.Mps

/-! Specification of the numbering of basis states by their labels. -/

namespace Verif
section
variable {Q : Type} [DecidableEq Q]

/-- A linear order of the labels. -/
structure LabelOrder (le : Q → Q → Bool) : Prop where
  total : ∀ a b, le a b = true ∨ le b a = true
  trans : ∀ a b c, le a b = true → le b c = true → le a c = true
  antisymm : ∀ a b, le a b = true → le b a = true → a = b

/-- The number `x` stands for the label `q` among the labels `ls`: it counts the labels before `q`, or it is that count minus the number of labels. -/
def Numbers (le : Q → Q → Bool) (ls : List Q) (x : Int) (q : Q) : Prop :=
  q ∈ ls ∧ NamesAxis ls.length x (ls.filter fun p => decide (p ≠ q) && le p q).length

/-- The physical legs of the sites, their labels, and a choice of one label on each leg, given with its number. -/
def Chosen (le : Q → Q → Bool) (labels : List (List (List Q))) (choice : List (List (Int × Q))) : Prop :=
  List.Forall₂ (fun ls c => List.Forall₂ (fun l x => Numbers le l x.1 x.2) ls c) labels choice

/-- The numbers of a choice, as one list for all sites. -/
def detOf (choice : List (List (Int × Q))) : List Int := choice.flatten.map Prod.fst

/-- The basis vectors of a choice: the first one of each chosen sector. -/
def stateOf (choice : List (List (Int × Q))) : List (List (Q × Nat)) := choice.map fun c => c.map fun x => (x.2, 0)

/-- The labels that the blocks of a tensor have on its `n` legs after the first. -/
def UsedLabels {K : Type} [Zero Q] (T : SpT Q K) (n : Nat) (ls : List (List Q)) : Prop :=
  ls.length = n ∧ ∀ k, k < n → (ls.getD k []).Nodup ∧ ∀ q, q ∈ ls.getD k [] ↔ OccursOn T (k + 1) q

end
end Verif
