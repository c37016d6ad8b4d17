import Verif.Spec.Mps
import Verif.Thm.OpT

/-!
Specification of matrix product operators: which matrix elements a chain of operator site tensors stands for.
-/

namespace Verif
section
variable {Q K : Type} [DecidableEq Q] [AddCommGroup Q] [CommRing K]

/-- The element of an operator site tensor when `s` tells whether the number of fermions on the sites to its left is odd: the odd part
anticommutes with them. -/
def opEntry (W : OpT Q K) (s : Bool) (x : List (Q × Nat)) : K := entry W.even x + paritySign K s * entry W.odd x

/-- Matrix element of a chain of operator site tensors.  `inner` are the bonds between the sites, `x` and `y` the basis vectors on the outer
bonds, `us` and `ds` the basis vectors of the row and the column legs of each site; `s` is the parity of the fermions to the left of the first
site.  The parity that a site sees is that of the column state on the sites before it. -/
def opAmpl (isF : Q → Bool) : List (OpT Q K) → List (BondInfo Q) → Bool → Q × Nat → List (List (Q × Nat)) → List (List (Q × Nat)) → Q × Nat → K
  | [W], [], s, x, [u], [d], y => opEntry W s (x :: u ++ d ++ [y])
  | W :: ws, b :: bs, s, x, u :: us, d :: ds, y =>
    ((legBasis b).map fun z => opEntry W s (x :: u ++ d ++ [z]) * opAmpl isF ws bs (xor s (fermParity isF (d.map Prod.fst))) z us ds y).sum
  | _, _, _, _, _, _, _ => 0

/-- Every block has an even number of fermionic labels. -/
def EvenBlocks (isF : Q → Bool) (T : SpT Q K) : Prop := ∀ b ∈ T, fermParity isF b.1 = false

/-- The number of fermionic labels is even in all blocks, or odd in all blocks. -/
def SameParity (isF : Q → Bool) (T : SpT Q K) : Prop := ∃ p, ∀ b ∈ T, fermParity isF b.1 = p

/-- Every block is bosonic, except that the blocks of the last tensor may all be fermionic: the label of the right edge need not count a fermion that an operator
has added or removed. -/
structure EvenInside (isF : Q → Bool) (ts : List (SpT Q K)) : Prop where
  inner : ∀ T ∈ ts.dropLast, EvenBlocks isF T
  all : ∀ T ∈ ts, SameParity isF T

/-- The labels of the physical legs: all but the first and the last. -/
def physLabels (q : List Q) : List Q := (q.drop 1).dropLast

/-- An operator site tensor between the bonds `l` and `r` with row legs `ups` and column legs `downs`.  Blocks of the odd part change the
fermion parity of the site, blocks of the even part keep it. -/
structure OpSite (isF : Q → Bool) (l : BondInfo Q) (ups downs : List (BondInfo Q)) (r : BondInfo Q) (W : OpT Q K) : Prop where
  odd : Conforms (l :: ups ++ downs ++ [r]) W.odd
  even : Conforms (l :: ups ++ downs ++ [r]) W.even
  oddUnique : UniqueLabels W.odd
  evenUnique : UniqueLabels W.even
  oddParity : ∀ b ∈ W.odd, fermParity isF (physLabels b.1) = true
  evenParity : ∀ b ∈ W.even, fermParity isF (physLabels b.1) = false

/-- The operator site tensors live on the given bonds (one more than sites) and physical legs (rows and columns of each site). -/
def OpOnBonds (isF : Q → Bool) : List (BondInfo Q) → List (List (BondInfo Q) × List (BondInfo Q)) → List (OpT Q K) → Prop
  | [_], [], [] => True
  | l :: r :: bonds, ph :: phys, W :: ws => OpSite isF l ph.1 ph.2 r W ∧ OpOnBonds isF (r :: bonds) phys ws
  | _, _, _ => False

/-- An operator (`ws`, on the edges `wl`, `wr` and inner bonds `X`) can act on a state (`bs`, on the edges `l`, `r` and inner bonds `Y`): the column
legs of the operator are the legs of the state and the blocks of the state are bosonic up to the right edge. -/
structure Applicable (isF : Q → Bool) (wl wr l r : BondInfo Q) (X Y : List (BondInfo Q)) (phys : List (List (BondInfo Q) × List (BondInfo Q)))
    (ws : List (OpT Q K)) (bs : List (SpT Q K)) : Prop where
  op : OpOnBonds isF (wl :: X ++ [wr]) phys ws
  state : OnBonds (l :: Y ++ [r]) (phys.map Prod.snd) bs
  good : ∀ c ∈ wl :: wr :: l :: r :: X ++ Y, GoodBond c
  legs : ∀ ph ∈ phys, ph.1 ≠ [] ∧ ph.2 ≠ [] ∧ ∀ c ∈ ph.1 ++ ph.2, GoodBond c
  parity : EvenInside isF bs

/-- Amplitude of the operator applied to the state: the sum over the basis of the column legs. -/
def applied (isF : Q → Bool) (X Y : List (BondInfo Q)) (phys : List (List (BondInfo Q) × List (BondInfo Q))) (ws : List (OpT Q K)) (bs : List (SpT Q K))
    (w x : Q × Nat) (us : List (List (Q × Nat))) (w' x' : Q × Nat) : K :=
  ((cart (phys.map fun ph => legIndices ph.2)).map fun ds => opAmpl isF ws X (isF x.1) w us ds w' * ampl bs Y x ds x').sum

/-- All blocks of an operator tensor. -/
def OpT.both (W : OpT Q K) : SpT Q K := W.odd ++ W.even

/-- Both parts of an operator tensor have the given legs and distinct labels. -/
structure OpBlocks (legs : List (BondInfo Q)) (W : OpT Q K) : Prop where
  odd : Conforms legs W.odd
  even : Conforms legs W.even
  oddUnique : UniqueLabels W.odd
  evenUnique : UniqueLabels W.even

/-- The legs of both parts of the sites of a chain. -/
def OpOn : List (BondInfo Q) → List (List (BondInfo Q) × List (BondInfo Q)) → List (OpT Q K) → Prop
  | [_], [], [] => True
  | l :: r :: bonds, ph :: phys, W :: ws => OpBlocks (l :: ph.1 ++ ph.2 ++ [r]) W ∧ OpOn (r :: bonds) phys ws
  | _, _, _ => False

/-- The two operators live on the same edges and physical legs, and the outer edges of `b` use no label that `a` does not use there. -/
structure OpAddable (l r : BondInfo Q) (X Y : List (BondInfo Q)) (phys : List (List (BondInfo Q) × List (BondInfo Q))) (a b : List (OpT Q K)) : Prop where
  onA : OpOn (l :: X ++ [r]) phys a
  onB : OpOn (l :: Y ++ [r]) phys b
  good : ∀ c ∈ l :: r :: X ++ Y, GoodBond c
  legs : ∀ ph ∈ phys, ∀ c ∈ ph.1 ++ ph.2, GoodBond c
  left : ∀ q, OccursOn ((b.map OpT.both).headD []) 0 q → OccursOn ((a.map OpT.both).headD []) 0 q
  right : ∀ q, OccursOn ((b.map OpT.both).getLastD []) (((phys.map fun ph => ph.1 ++ ph.2).getLastD []).length + 1) q →
    OccursOn ((a.map OpT.both).getLastD []) (((phys.map fun ph => ph.1 ++ ph.2).getLastD []).length + 1) q

/-- Row and column basis vectors with one component for each leg. -/
inductive Sized : List (List (BondInfo Q) × List (BondInfo Q)) → List (List (Q × Nat)) → List (List (Q × Nat)) → Prop
  | nil : Sized [] [] []
  | cons {ph phys u us d ds} : u.length = ph.1.length → d.length = ph.2.length → Sized phys us ds → Sized (ph :: phys) (u :: us) (d :: ds)

/-- Two operators can be multiplied: `as` on the edges `wl`, `wr` and inner bonds `X`, `bs` on the edges `l`, `r` and inner bonds `Y`; `phys` has the
row, middle and column legs of each site.  The blocks of the second operator are bosonic up to the right edge. -/
structure Multipliable (isF : Q → Bool) (wl wr l r : BondInfo Q) (X Y : List (BondInfo Q))
    (phys : List (List (BondInfo Q) × List (BondInfo Q) × List (BondInfo Q))) (as bs : List (OpT Q K)) : Prop where
  opA : OpOnBonds isF (wl :: X ++ [wr]) (phys.map fun ph => (ph.1, ph.2.1)) as
  opB : OpOnBonds isF (l :: Y ++ [r]) (phys.map fun ph => (ph.2.1, ph.2.2)) bs
  good : ∀ c ∈ wl :: wr :: l :: r :: X ++ Y, GoodBond c
  legs : ∀ ph ∈ phys, ph.2.1 ≠ [] ∧ ph.1.length = ph.2.1.length ∧ ph.2.2.length = ph.2.1.length ∧ ∀ c ∈ ph.1 ++ ph.2.1 ++ ph.2.2, GoodBond c
  parity : EvenInside isF (bs.map OpT.both)

/-- Matrix element of the operator product: the sum over the basis of the middle legs.  The first operator sees the fermions on the left edge of
the second. -/
def multiplied (isF : Q → Bool) (X Y : List (BondInfo Q)) (phys : List (List (BondInfo Q) × List (BondInfo Q) × List (BondInfo Q)))
    (as bs : List (OpT Q K)) (s : Bool) (w x : Q × Nat) (us ds : List (List (Q × Nat))) (w' x' : Q × Nat) : K :=
  ((cart (phys.map fun ph => legIndices ph.2.1)).map fun ms => opAmpl isF as X (xor s (isF x.1)) w us ms w' * opAmpl isF bs Y s x ms ds x').sum

end
end Verif
