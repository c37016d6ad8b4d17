import Verif.Model.OpCanon
import Verif.Thm.Canon

/-! The two parts of an operator tensor as one tensor: the number of the part goes into the first label. -/

set_option linter.unusedSectionVars false

namespace Verif
namespace Tag
section
variable {Q K : Type} [DecidableEq Q] [AddCommGroup Q]

def inj (q : Q) : Int × Q := (0, q)
def num (t : Bool) : Int := if t then 1 else 0

def labels (t : Bool) : List Q → List (Int × Q)
  | [] => []
  | q :: qs => (num t, q) :: qs.map inj

def injz (z : Q × Nat) : (Int × Q) × Nat := (inj z.1, z.2)

def index (t : Bool) : List (Q × Nat) → List ((Int × Q) × Nat)
  | [] => []
  | z :: x => ((num t, z.1), z.2) :: x.map injz

def block (x : Bool × (List Q × Arr K)) : List (Int × Q) × Arr K := (labels x.1 x.2.1, x.2.2)

def bond (b : BondInfo Q) : BondInfo (Int × Q) := b.map fun p => (inj p.1, p.2)
def both (b : BondInfo Q) : BondInfo (Int × Q) := b.map (fun p => ((1, p.1), p.2)) ++ b.map (fun p => ((0, p.1), p.2))

theorem inj_inj {q q' : Q} : inj q = inj q' ↔ q = q' := by simp [inj]

theorem num_inj {t t' : Bool} : num t = num t' ↔ t = t' := by cases t <;> cases t' <;> simp [num]

theorem map_inj {l l' : List Q} : l.map inj = l'.map inj ↔ l = l' :=
  ⟨fun h => List.map_injective_iff.2 (fun _ _ h => inj_inj.1 h) h, fun h => by rw [h]⟩

theorem index_fst (t : Bool) (x : List (Q × Nat)) : (index t x).map Prod.fst = labels t (x.map Prod.fst) := by
  cases x <;> simp [index, labels, injz, Function.comp_def]

theorem index_snd (t : Bool) (x : List (Q × Nat)) : (index t x).map Prod.snd = x.map Prod.snd := by
  cases x <;> simp [index, injz, Function.comp_def]

theorem labels_eq {t t' : Bool} {qs qs' : List Q} (h : qs' ≠ []) : labels t qs = labels t' qs' ↔ t = t' ∧ qs = qs' := by
  cases qs' with
  | nil => exact absurd rfl h
  | cons q' qs' =>
    cases qs with
    | nil => simp [labels]
    | cons q qs =>
      simp only [labels, List.cons.injEq, Prod.mk.injEq, num_inj, map_inj]
      tauto

theorem index_append (t : Bool) {x : List (Q × Nat)} (h : x ≠ []) (z : Q × Nat) : index t (x ++ [z]) = index t x ++ [injz z] := by
  cases x with
  | nil => exact absurd rfl h
  | cons a x => simp [index]

/-- Entries of one part. -/
theorem entry_tag [AddCommMonoid K] (S : List (Bool × (List Q × Arr K))) (t : Bool) (x : List (Q × Nat)) (hx : x ≠ []) :
    entry (S.map block) (index t x) = entry ((S.filter fun s => s.1 = t).map Prod.snd) x := by
  have hx' : x.map Prod.fst ≠ [] := by simpa using hx
  induction S with
  | nil => rfl
  | cons s S ih =>
    unfold entry at ih ⊢
    rw [List.map_cons, List.map_cons, List.sum_cons, ih]
    have hb : blockEntry (block s) (index t x) = if s.1 = t then blockEntry s.2 x else 0 := by
      unfold blockEntry block
      rw [index_fst, index_snd]
      simp only [labels_eq hx']
      by_cases e : s.1 = t <;> simp [e]
    rw [hb]
    by_cases e : s.1 = t
    · rw [if_pos e, List.filter_cons_of_pos (by simpa using e)]
      rfl
    · rw [if_neg e, zero_add, List.filter_cons_of_neg (by simpa using e)]

theorem get_bond (b : BondInfo Q) (q : Q) : Dict.get? (bond b) (inj q) = Dict.get? b q := by
  induction b with
  | nil => rfl
  | cons p b ih =>
    show Dict.get? ((inj p.1, p.2) :: bond b) (inj q) = _
    simp only [Dict.get?, inj_inj, ih]

theorem get_both (b : BondInfo Q) (t : Bool) (q : Q) : Dict.get? (both b) (num t, q) = Dict.get? b q := by
  have h1 : ∀ (c : BondInfo Q) (i j : Int) (d : BondInfo (Int × Q)), i ≠ j →
      Dict.get? (c.map (fun p => ((i, p.1), p.2)) ++ d) (j, q) = Dict.get? d (j, q) := by
    intro c i j d hij
    induction c with
    | nil => rfl
    | cons p c ih => simp only [List.map_cons, List.cons_append, Dict.get?, ih]; rw [if_neg (by simp [hij])]
  have h2 : ∀ (c : BondInfo Q) (i : Int) (d : BondInfo (Int × Q)), (Dict.get? d (i, q) = none) →
      Dict.get? (c.map (fun p => ((i, p.1), p.2)) ++ d) (i, q) = Dict.get? c q := by
    intro c i d hd
    induction c with
    | nil => exact hd
    | cons p c ih => simp only [List.map_cons, List.cons_append, Dict.get?, ih, Prod.mk.injEq, true_and]
  unfold both num
  cases t
  · simp only [Bool.false_eq_true, if_false]
    rw [h1 _ _ _ _ (by decide)]
    have := h2 b 0 [] rfl
    simpa using this
  · simp only [if_true]
    refine h2 b 1 _ ?_
    have := h1 b 0 1 [] (by decide)
    simpa using this

theorem isCombination_bond {legs : List (BondInfo Q)} {qs : List Q} {sh : List Nat} :
    IsCombination (legs.map bond) (qs.map inj) sh ↔ IsCombination legs qs sh := by
  induction legs generalizing qs sh with
  | nil =>
    cases qs with
    | nil => constructor <;> intro h <;> cases h <;> exact .nil
    | cons q qs => constructor <;> intro h <;> cases h
  | cons b legs ih =>
    cases qs with
    | nil => constructor <;> intro h <;> cases h
    | cons q qs =>
      cases sh with
      | nil => constructor <;> intro h <;> cases h
      | cons s sh =>
        constructor
        · intro h
          cases h with
          | cons h1 h2 => exact .cons (by rw [← get_bond]; exact h1) (ih.1 h2)
        · intro h
          cases h with
          | cons h1 h2 => exact .cons (by rw [get_bond]; exact h1) (ih.2 h2)

theorem isCombination_tag {l : BondInfo Q} {legs : List (BondInfo Q)} {t : Bool} {qs : List Q} {sh : List Nat} :
    IsCombination (both l :: legs.map bond) (labels t qs) sh ↔ IsCombination (l :: legs) qs sh := by
  cases qs with
  | nil => constructor <;> intro h <;> cases h
  | cons q qs =>
    cases sh with
    | nil => constructor <;> intro h <;> cases h
    | cons s sh =>
      constructor
      · intro h
        cases h with
        | cons h1 h2 => exact .cons (by rw [← get_both l t]; exact h1) (isCombination_bond.1 h2)
      · intro h
        cases h with
        | cons h1 h2 => exact .cons (by rw [get_both]; exact h1) (isCombination_bond.2 h2)

theorem good_bond {b : BondInfo Q} : GoodBond (bond b) ↔ GoodBond b := by
  unfold GoodBond Dict.WF bond
  rw [List.map_map]
  have : (Prod.fst ∘ fun p : Q × Nat => (inj p.1, p.2)) = inj ∘ Prod.fst := rfl
  rw [this, ← List.map_map, List.nodup_map_iff (fun _ _ h => inj_inj.1 h)]
  refine and_congr_right fun _ => ⟨fun h p hp => h _ (List.mem_map.2 ⟨p, hp, rfl⟩), fun h x hx => ?_⟩
  obtain ⟨p, hp, rfl⟩ := List.mem_map.1 hx
  exact h p hp

theorem good_both {b : BondInfo Q} (h : GoodBond b) : GoodBond (both b) := by
  obtain ⟨h1, h2⟩ := h
  constructor
  · unfold Dict.WF both
    rw [List.map_append, List.map_map, List.map_map]
    have e : ∀ i : Int, (Prod.fst ∘ fun p : Q × Nat => ((i, p.1), p.2)) = (fun q => (i, q)) ∘ Prod.fst := fun i => rfl
    rw [e, e, ← List.map_map, ← List.map_map]
    refine List.Nodup.append (h1.map fun _ _ h => by simpa using h) (h1.map fun _ _ h => by simpa using h) ?_
    intro x hx hx'
    obtain ⟨q, _, rfl⟩ := List.mem_map.1 hx
    obtain ⟨q', _, e⟩ := List.mem_map.1 hx'
    simp at e
  · intro x hx
    rcases List.mem_append.1 hx with hx | hx <;> obtain ⟨p, hp, rfl⟩ := List.mem_map.1 hx <;> exact h2 p hp

theorem legBasis_bond (b : BondInfo Q) : legBasis (bond b) = (legBasis b).map injz := by
  unfold legBasis bond
  rw [List.flatMap_map, List.map_flatMap]
  simp [injz, Function.comp_def]

theorem legIndices_bond (legs : List (BondInfo Q)) : legIndices (legs.map bond) = (legIndices legs).map fun x => x.map injz := by
  unfold legIndices
  induction legs with
  | nil => rfl
  | cons b legs ih =>
    rw [List.map_cons, List.map_cons, List.map_cons, cart, cart, ih, legBasis_bond, List.flatMap_map, List.map_flatMap]
    simp only [List.map_map]
    rfl

theorem legIndices_tag (l : BondInfo Q) (legs : List (BondInfo Q)) :
    legIndices (both l :: legs.map bond) = (legIndices (l :: legs)).map (index true) ++ (legIndices (l :: legs)).map (index false) := by
  have hb : legBasis (both l) = (legBasis l).map (fun z => ((1, z.1), z.2)) ++ (legBasis l).map (fun z => ((0, z.1), z.2)) := by
    unfold legBasis both
    rw [List.flatMap_append, List.flatMap_map, List.flatMap_map, List.map_flatMap, List.map_flatMap]
    simp [Function.comp_def]
  have h1 : legIndices (both l :: legs.map bond) = (legBasis (both l)).flatMap fun z => (legIndices (legs.map bond)).map fun xs => z :: xs := rfl
  have h2 : legIndices (l :: legs) = (legBasis l).flatMap fun z => (legIndices legs).map fun xs => z :: xs := rfl
  rw [h1, h2, hb, legIndices_bond, List.flatMap_append]
  simp only [List.flatMap_map, List.map_flatMap, List.map_map]
  rfl

theorem groupBy_map {β γ : Type} {Q' : Type} [DecidableEq Q'] (key : β → Q) (key' : γ → Q') (φ : β → γ) (ι : Q → Q') (hι : ∀ q q', ι q = ι q' ↔ q = q')
    (l : List β) (h : ∀ x ∈ l, key' (φ x) = ι (key x)) :
    groupBy key' (l.map φ) = (groupBy key l).map fun g => (ι g.1, g.2.map φ) := by
  unfold groupBy
  have hget : ∀ (m : Dict Q (List β)) q, Dict.get? (m.map fun g => (ι g.1, g.2.map φ)) (ι q) = (Dict.get? m q).map (List.map φ) := by
    intro m q
    induction m with
    | nil => rfl
    | cons g m ih =>
      simp only [List.map_cons, Dict.get?, hι, ih]
      split <;> rfl
  have hset : ∀ (m : Dict Q (List β)) q v, Dict.set (m.map fun g => (ι g.1, g.2.map φ)) (ι q) (v.map φ) = (Dict.set m q v).map fun g => (ι g.1, g.2.map φ) := by
    intro m q v
    induction m with
    | nil => rfl
    | cons g m ih =>
      simp only [List.map_cons, Dict.set, hι, ih]
      split <;> rfl
  suffices hs : ∀ (m : Dict Q (List β)), (l.map φ).foldl (fun m b => Dict.set m (key' b) ((Dict.get? m (key' b)).getD [] ++ [b])) (m.map fun g => (ι g.1, g.2.map φ)) =
      (l.foldl (fun m b => Dict.set m (key b) ((Dict.get? m (key b)).getD [] ++ [b])) m).map fun g => (ι g.1, g.2.map φ) from hs []
  induction l with
  | nil => intro m; rfl
  | cons b l ih =>
    intro m
    rw [List.map_cons, List.foldl_cons, List.foldl_cons, ← ih (fun x hx => h x (by simp [hx]))]
    congr 1
    rw [h b (by simp), hget, ← hset]
    congr 1
    cases Dict.get? m (key b) <;> simp

theorem zip_tag (l : List (Bool × (List Q × Arr K))) (ps : List (Arr K)) :
    ((l.map block).map Prod.fst).zip ps = (List.zipWith (fun x p => (x.1, (x.2.1, p))) l ps).map block := by
  induction l generalizing ps with
  | nil => rfl
  | cons x l ih =>
    cases ps with
    | nil => rfl
    | cons p ps =>
      simp only [List.map_cons, List.zip_cons_cons, List.zipWith_cons_cons, ih]
      rfl

theorem labels_last {t : Bool} {qs : List Q} (h : 2 ≤ qs.length) : (labels t qs).getLastD 0 = inj (qs.getLastD 0) := by
  rcases qs with _ | ⟨q, _ | ⟨q', qs⟩⟩
  · simp at h
  · simp at h
  · show (((num t, q) :: (q' :: qs).map inj).getLastD 0) = inj ((q :: q' :: qs).getLastD 0)
    have hne : q' :: qs ≠ [] := by simp
    generalize q' :: qs = r at hne
    obtain ⟨i, a, rfl⟩ : ∃ i a, r = i ++ [a] := ⟨r.dropLast, r.getLast hne, (List.dropLast_append_getLast hne).symm⟩
    rw [List.map_append, ← List.cons_append, ← List.cons_append, List.map_singleton, List.getLastD_eq_getLast?, List.getLastD_eq_getLast?,
      List.getLast?_concat, List.getLast?_concat]
    rfl

theorem canon_tag [Zero K] (qr : Arr K → Arr K × Arr K) (A : OpT Q K) (h : ∀ x ∈ A.taggedBlocks, 2 ≤ x.2.1.length) :
    SpT.leftCanonicalize qr (A.taggedBlocks.map block) =
      ((OpT.rowFactors qr A.rowGroups).map block, (OpT.leftCanonicalize qr A).2.map fun b => (b.1.map inj, b.2)) := by
  have hg := groupBy_map (fun x : Bool × (List Q × Arr K) => x.2.1.getLastD 0) (fun b : List (Int × Q) × Arr K => b.1.getLastD 0) block inj
    (fun _ _ => inj_inj) A.taggedBlocks (fun x hx => labels_last (h x hx))
  have hs : ∀ l : List (Bool × (List Q × Arr K)), (l.map block).map Prod.snd = l.map fun x => x.2.2 := by
    intro l; rw [List.map_map]; rfl
  unfold SpT.leftCanonicalize
  rw [hg]
  refine Prod.ext ?_ ?_
  · show List.flatMap _ _ = _
    unfold OpT.rowFactors OpT.rowGroups
    rw [List.flatMap_map, List.map_flatMap]
    refine congrArg (fun f => List.flatMap f _) (funext fun g => ?_)
    dsimp only
    rw [hs, zip_tag]
  · show List.map _ _ = _
    unfold OpT.leftCanonicalize OpT.rowGroups
    dsimp only
    rw [List.map_map, List.map_map]
    refine List.map_congr_left fun g _ => ?_
    show ([inj g.1, inj g.1], (qr (stackLeft ((g.2.map block).map Prod.snd))).2) = _
    rw [hs]
    rfl

theorem entry_inj [AddCommMonoid K] (R : SpT Q K) (x : List (Q × Nat)) : entry (R.map fun b => (b.1.map inj, b.2)) (x.map injz) = entry R x := by
  unfold entry
  rw [List.map_map]
  congr 1
  refine List.map_congr_left fun b _ => ?_
  show blockEntry (b.1.map inj, b.2) (x.map injz) = blockEntry b x
  unfold blockEntry
  have e1 : (x.map injz).map Prod.fst = (x.map Prod.fst).map inj := by rw [List.map_map, List.map_map]; rfl
  have e2 : (x.map injz).map Prod.snd = x.map Prod.snd := by rw [List.map_map]; rfl
  rw [e1, e2]
  simp only [map_inj]

end
end Tag
end Verif
