import Verif.Proof.OpCanon

/-! The two parts of an operator tensor as one tensor: the number of the part goes into the second label. -/

set_option linter.unusedSectionVars false

namespace Verif
namespace Tag
section
variable {Q K : Type} [DecidableEq Q] [AddCommGroup Q]

def labels2 (t : Bool) : List Q → List (Int × Q)
  | [] => []
  | q :: qs => inj q :: labels t qs

def block2 (x : Bool × (List Q × Arr K)) : List (Int × Q) × Arr K := (labels2 x.1 x.2.1, x.2.2)

theorem labels2_eq {t t' : Bool} {qs : List Q} {q' : Q} {qs' : List Q} (h : qs' ≠ []) :
    labels2 t qs = inj q' :: labels t' qs' ↔ t = t' ∧ qs = q' :: qs' := by
  cases qs with
  | nil => simp [labels2]
  | cons q qs =>
    simp only [labels2, List.cons.injEq, inj_inj, labels_eq h]
    tauto

theorem entry_tag2 [AddCommMonoid K] (S : List (Bool × (List Q × Arr K))) (t : Bool) (z : Q × Nat) (x : List (Q × Nat)) (hx : x ≠ []) :
    entry (S.map block2) (injz z :: index t x) = entry ((S.filter fun s => s.1 = t).map Prod.snd) (z :: x) := by
  have hx' : x.map Prod.fst ≠ [] := by simpa using hx
  induction S with
  | nil => rfl
  | cons s S ih =>
    unfold entry at ih ⊢
    have h1 : blockEntry (block2 s) (injz z :: index t x) = if s.1 = t then blockEntry s.2 (z :: x) else 0 := by
      unfold blockEntry
      have e1 : (injz z :: index t x).map Prod.fst = inj z.1 :: labels t (x.map Prod.fst) := by rw [List.map_cons, index_fst]; rfl
      have e2 : (injz z :: index t x).map Prod.snd = (z :: x).map Prod.snd := by rw [List.map_cons, index_snd]; rfl
      rw [e1, e2]
      have e3 : (block2 s).1 = inj z.1 :: labels t (x.map Prod.fst) ↔ s.1 = t ∧ s.2.1 = (z :: x).map Prod.fst := labels2_eq hx'
      simp only [e3]
      by_cases a : s.1 = t <;> simp [a, block2]
    rw [List.map_cons, List.map_cons, List.sum_cons, h1, ih]
    by_cases a : s.1 = t <;> simp [a]

theorem isCombination_tag2 {l k : BondInfo Q} {legs : List (BondInfo Q)} {t : Bool} {qs : List Q} {sh : List Nat} :
    IsCombination (bond l :: both k :: legs.map bond) (labels2 t qs) sh ↔ IsCombination (l :: k :: legs) qs sh := by
  cases qs with
  | nil => constructor <;> intro h <;> cases h
  | cons q qs =>
    cases sh with
    | nil => constructor <;> intro h <;> cases h
    | cons n sh =>
      constructor
      · intro h
        cases h with
        | cons h1 h2 => exact .cons (by rw [← get_bond]; exact h1) (isCombination_tag.1 h2)
      · intro h
        cases h with
        | cons h1 h2 => exact .cons (by rw [get_bond]; exact h1) (isCombination_tag.2 h2)

theorem zip_tag2 (l : List (Bool × (List Q × Arr K))) (ps : List (Arr K)) :
    ((l.map block2).map Prod.fst).zip ps = (List.zipWith (fun x p => (x.1, (x.2.1, p))) l ps).map block2 := by
  induction l generalizing ps with
  | nil => rfl
  | cons x l ih =>
    cases ps with
    | nil => rfl
    | cons p ps =>
      simp only [List.map_cons, List.zip_cons_cons, List.zipWith_cons_cons, ih]
      rfl

theorem canon_tag2 [Zero K] (qr : Arr K → Arr K × Arr K) (A : OpT Q K) (h : ∀ x ∈ A.taggedBlocks, 2 ≤ x.2.1.length) :
    SpT.rightCanonicalize qr (A.taggedBlocks.map block2) =
      ((OpT.rightCanonicalize qr A).1.map fun b => (b.1.map inj, b.2), (OpT.colFactors qr A.colGroups).map block2) := by
  have hg := groupBy_map (fun x : Bool × (List Q × Arr K) => x.2.1.getD 0 0) (fun b : List (Int × Q) × Arr K => b.1.getD 0 0) block2 inj
    (fun _ _ => inj_inj) A.taggedBlocks (fun x hx => by
      have := h x hx
      obtain ⟨t, qs, a⟩ := x
      cases qs with
      | nil => simp at this
      | cons q qs => rfl)
  have hs : ∀ l : List (Bool × (List Q × Arr K)), (l.map block2).map Prod.snd = l.map fun x => x.2.2 := by
    intro l; rw [List.map_map]; rfl
  unfold SpT.rightCanonicalize
  rw [hg]
  refine Prod.ext ?_ ?_
  · show List.map _ _ = _
    unfold OpT.rightCanonicalize OpT.colGroups
    dsimp only
    rw [List.map_map, List.map_map]
    refine List.map_congr_left fun g _ => ?_
    show ([inj g.1, inj g.1], (qr (stackRightT ((g.2.map block2).map Prod.snd))).2.transpose [1, 0]) = _
    rw [hs]
    rfl
  · show List.flatMap _ _ = _
    unfold OpT.colFactors OpT.colGroups
    rw [List.flatMap_map, List.map_flatMap]
    refine congrArg (fun f => List.flatMap f _) (funext fun g => ?_)
    dsimp only
    rw [hs, zip_tag2]

end
end Tag
end Verif
