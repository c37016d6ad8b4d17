import Verif.Proof.FusePair
import Verif.Proof.MpsInfos
import Verif.Model.MpsProd

/-! Chains of tensors with two bonds on each side, and merging the two bonds. -/

set_option linter.unusedSectionVars false

namespace Verif
section
variable {Q K : Type} [DecidableEq Q] [AddCommGroup Q] [CommRing K]

/-- The basis vectors belong to the legs. -/
def InLegs (legs : List (BondInfo Q)) (x : List (Q × Nat)) : Prop := List.Forall₂ (fun l z => z.2 < Counter.count l z.1) legs x

theorem IsCombination.inLegs {legs : List (BondInfo Q)} {qs : List Q} {sh : List Nat} (h : IsCombination legs qs sh) {x : List (Q × Nat)}
    (hq : qs = x.map Prod.fst) (hb : inBox sh (x.map Prod.snd) = true) : InLegs legs x := by
  induction h generalizing x with
  | nil =>
    rcases x with _ | ⟨a, x⟩
    · exact .nil
    · simp at hq
  | cons h1 h2 ih =>
    rcases x with _ | ⟨a, x⟩
    · simp at hq
    · simp only [List.map_cons, List.cons.injEq] at hq
      simp only [List.map_cons, inBox, Bool.and_eq_true, decide_eq_true_eq] at hb
      refine .cons ?_ (ih hq.2 hb.2)
      rw [← hq.1, count_of_get h1]
      exact hb.1

theorem entry_support {legs : List (BondInfo Q)} {T : SpT Q K} (hT : Conforms legs T) {x : List (Q × Nat)} (h : entry T x ≠ 0) :
    (∃ b ∈ T, b.1 = x.map Prod.fst) ∧ InLegs legs x := by
  have : ∃ b ∈ T, blockEntry b x ≠ 0 := by
    by_contra hn
    push Not at hn
    exact h (sum_map_zero' _ _ hn)
  obtain ⟨b, hb, hne⟩ := this
  unfold blockEntry at hne
  split at hne
  · rename_i hc
    exact ⟨⟨b, hb, hc.1⟩, (hT b hb).inLegs hc.1 hc.2⟩
  · exact absurd rfl hne

theorem sum_support {α : Type} [DecidableEq α] {l m : List α} (hl : l.Nodup) (hm : m.Nodup) (f : α → K) (h : ∀ z, f z ≠ 0 → z ∈ l ∧ z ∈ m) :
    (l.map f).sum = (m.map f).sum := by
  rw [← List.sum_toFinset f hl, ← List.sum_toFinset f hm]
  refine Finset.sum_congr_of_eq_on_inter ?_ ?_ ?_
  · intro a ha hn
    by_contra hne
    exact hn (List.mem_toFinset.2 (h a hne).2)
  · intro a ha hn
    by_contra hne
    exact hn (List.mem_toFinset.2 (h a hne).1)
  · intro a _ _; rfl

/-- The bonds found on a tensor: for each leg, the labels that occur with their dimensions. -/
structure InfoSpec (legs : List (BondInfo Q)) (T : SpT Q K) (I : List (BondInfo Q)) : Prop where
  length : I.length = legs.length
  good : ∀ k, k < legs.length → GoodBond (I.getD k [])
  get : ∀ k, k < legs.length → ∀ q s, Dict.get? (I.getD k []) q = some s ↔ Dict.get? (legs.getD k []) q = some s ∧ OccursOn T k q

theorem infoSpec_site {legs : List (BondInfo Q)} {T : SpT Q K} (hT : Conforms legs T) (hne : T ≠ []) (hg : ∀ l ∈ legs, GoodBond l) :
    ∃ I, SpT.infos T = some I ∧ InfoSpec legs T I := by
  refine ⟨_, infos_eq hT hne, ?_, ?_, ?_⟩
  · simp
  · intro k hk
    have e : ((List.range legs.length).map fun k => occ k T).getD k [] = occ k T := by simp [hk]
    rw [e]
    obtain ⟨h1, h2⟩ := occ_spec hk hT
    refine ⟨h1, fun x hx => ?_⟩
    have := ((h2 x.1 x.2).1 (Dict.get?_of_mem h1 hx)).1
    refine (hg (legs.getD k []) ?_).2 _ (Dict.mem_of_get? this)
    rw [List.getD_eq_getElem?_getD, List.getElem?_eq_getElem hk]
    exact List.getElem_mem _
  · intro k hk
    have e : ((List.range legs.length).map fun k => occ k T).getD k [] = occ k T := by simp [hk]
    rw [e]
    exact (occ_spec hk hT).2

theorem occursOn_append {T S : SpT Q K} {k : Nat} {q : Q} : OccursOn (T ++ S) k q ↔ OccursOn T k q ∨ OccursOn S k q := by
  unfold OccursOn
  simp only [List.mem_append]
  constructor
  · rintro ⟨b, hb | hb, h⟩
    · exact Or.inl ⟨b, hb, h⟩
    · exact Or.inr ⟨b, hb, h⟩
  · rintro (⟨b, hb, h⟩ | ⟨b, hb, h⟩)
    · exact ⟨b, Or.inl hb, h⟩
    · exact ⟨b, Or.inr hb, h⟩

theorem get?_iff_count {b : BondInfo Q} (h : GoodBond b) {q : Q} {s : Nat} : Dict.get? b q = some s ↔ 0 < s ∧ Counter.count b q = s := by
  constructor
  · intro hg
    exact ⟨h.count_pos hg, count_of_get hg⟩
  · rintro ⟨hs, hc⟩
    rw [← hc]
    exact get_of_count (by omega)

/-- The union of the bonds found on two tensors with the same legs. -/
theorem union_get {l : BondInfo Q} {a b : BondInfo Q} {P P' : Q → Prop} (ga : GoodBond a) (gb : GoodBond b)
    (ha : ∀ q s, Dict.get? a q = some s ↔ Dict.get? l q = some s ∧ P q) (hb : ∀ q s, Dict.get? b q = some s ↔ Dict.get? l q = some s ∧ P' q)
    (q : Q) (s : Nat) : Dict.get? (BondInfo.union a b) q = some s ↔ Dict.get? l q = some s ∧ (P q ∨ P' q) := by
  rw [get?_iff_count (good_union a b), C06_union a b ga.1 gb.1]
  have ca : ∀ n, Counter.count a q = n → 0 < n → Dict.get? l q = some n ∧ P q := fun n h h0 => (ha q n).1 ((get?_iff_count ga).2 ⟨h0, h⟩)
  have cb : ∀ n, Counter.count b q = n → 0 < n → Dict.get? l q = some n ∧ P' q := fun n h h0 => (hb q n).1 ((get?_iff_count gb).2 ⟨h0, h⟩)
  constructor
  · rintro ⟨hs, hm⟩
    rcases Nat.le_total (Counter.count a q) (Counter.count b q) with h | h
    · rw [max_eq_right h] at hm
      exact ⟨(cb s hm hs).1, Or.inr (cb s hm hs).2⟩
    · rw [max_eq_left h] at hm
      exact ⟨(ca s hm hs).1, Or.inl (ca s hm hs).2⟩
  · rintro ⟨hl, hp⟩
    have key : ∀ n, Counter.count a q = n → n = 0 ∨ n = s := fun n hn => by
      rcases Nat.eq_zero_or_pos n with h0 | h0
      · exact Or.inl h0
      · have := (ca n hn h0).1
        rw [hl] at this
        exact Or.inr (Option.some.inj this).symm
    have key' : ∀ n, Counter.count b q = n → n = 0 ∨ n = s := fun n hn => by
      rcases Nat.eq_zero_or_pos n with h0 | h0
      · exact Or.inl h0
      · have := (cb n hn h0).1
        rw [hl] at this
        exact Or.inr (Option.some.inj this).symm
    rcases hp with hp | hp
    · obtain ⟨h0, h1⟩ := (get?_iff_count ga).1 ((ha q s).2 ⟨hl, hp⟩)
      rcases key' _ rfl with h2 | h2 <;> rw [h1, h2] <;> exact ⟨h0, by simp⟩
    · obtain ⟨h0, h1⟩ := (get?_iff_count gb).1 ((hb q s).2 ⟨hl, hp⟩)
      rcases key _ rfl with h2 | h2 <;> rw [h1, h2] <;> exact ⟨h0, by simp⟩

/-- Tensors with two bonds on each side. -/
def OnPairs : List (BondInfo Q × BondInfo Q) → List (List (BondInfo Q)) → List (SpT Q K) → Prop
  | [_], [], [] => True
  | l :: r :: bonds, ph :: phys, T :: ts => Conforms ([l.1, l.2] ++ ph ++ [r.1, r.2]) T ∧ OnPairs (r :: bonds) phys ts
  | _, _, _ => False

/-- The bonds found on each tensor. -/
def InfoSpecs : List (BondInfo Q × BondInfo Q) → List (List (BondInfo Q)) → List (SpT Q K) → List (List (BondInfo Q)) → Prop
  | [_], [], [], [] => True
  | l :: r :: bonds, ph :: phys, T :: ts, I :: is => InfoSpec ([l.1, l.2] ++ ph ++ [r.1, r.2]) T I ∧ InfoSpecs (r :: bonds) phys ts is
  | _, _, _, _ => False

section legs4
variable {α : Type} (a b c d e : α) (ph : List α)
theorem legs4_0 : ([a, b] ++ ph ++ [c, d]).getD 0 e = a := rfl
theorem legs4_1 : ([a, b] ++ ph ++ [c, d]).getD 1 e = b := rfl
theorem legs4_2 : ([a, b] ++ ph ++ [c, d]).getD (ph.length + 2) e = c := by
  have := getD_mid0 ([a, b] ++ ph) [] c d e
  simpa [Nat.add_comm] using this
theorem legs4_3 : ([a, b] ++ ph ++ [c, d]).getD (ph.length + 3) e = d := by
  have := getD_mid1 ([a, b] ++ ph) [] c d e
  simpa [Nat.add_comm, Nat.add_assoc] using this
theorem legs4_length : ([a, b] ++ ph ++ [c, d]).length = ph.length + 4 := by simp
end legs4

/-- A combination on four bonds and physical legs. -/
theorem comb4 {a b c d : BondInfo Q} {ph : List (BondInfo Q)} {qs : List Q} {sh : List Nat} (h : IsCombination ([a, b] ++ ph ++ [c, d]) qs sh) :
    ∃ qa qb q qc qd sa sb s sc sd, qs = [qa, qb] ++ q ++ [qc, qd] ∧ sh = [sa, sb] ++ s ++ [sc, sd] ∧ Dict.get? a qa = some sa ∧
      Dict.get? b qb = some sb ∧ IsCombination ph q s ∧ Dict.get? c qc = some sc ∧ Dict.get? d qd = some sd := by
  have split : ∀ (l1 l2 : List (BondInfo Q)) (qs : List Q) (sh : List Nat), IsCombination (l1 ++ l2) qs sh →
      ∃ q1 q2 s1 s2, qs = q1 ++ q2 ∧ sh = s1 ++ s2 ∧ IsCombination l1 q1 s1 ∧ IsCombination l2 q2 s2 := by
    intro l1
    induction l1 with
    | nil => intro l2 qs sh h; exact ⟨[], qs, [], sh, rfl, rfl, .nil, h⟩
    | cons x l1 ih =>
      intro l2 qs sh h
      cases h with
      | cons h1 h2 =>
        obtain ⟨q1, q2, s1, s2, rfl, rfl, h3, h4⟩ := ih _ _ _ h2
        exact ⟨_ :: q1, q2, _ :: s1, s2, rfl, rfl, .cons h1 h3, h4⟩
  obtain ⟨q1, q2, s1, s2, rfl, rfl, h1, h2⟩ := split _ _ _ _ h
  obtain ⟨q3, q4, s3, s4, rfl, rfl, h3, h4⟩ := split _ _ _ _ h1
  obtain ⟨qa, qb, sa, sb, rfl, rfl, ha, hb⟩ := comb_pair.1 h3
  obtain ⟨qc, qd, sc, sd, rfl, rfl, hc, hd⟩ := comb_pair.1 h2
  exact ⟨qa, qb, q4, qc, qd, sa, sb, s4, sc, sd, rfl, rfl, ha, hb, h4, hc, hd⟩

theorem Conforms.ends4 {a b c d a' b' c' d' : BondInfo Q} {ph : List (BondInfo Q)} {T : SpT Q K} (hT : Conforms ([a, b] ++ ph ++ [c, d]) T)
    (ha : ∀ q s, OccursOn T 0 q → Dict.get? a q = some s → Dict.get? a' q = some s)
    (hb : ∀ q s, OccursOn T 1 q → Dict.get? b q = some s → Dict.get? b' q = some s)
    (hc : ∀ q s, OccursOn T (ph.length + 2) q → Dict.get? c q = some s → Dict.get? c' q = some s)
    (hd : ∀ q s, OccursOn T (ph.length + 3) q → Dict.get? d q = some s → Dict.get? d' q = some s) :
    Conforms ([a', b'] ++ ph ++ [c', d']) T := by
  intro blk hblk
  obtain ⟨qa, qb, q, qc, qd, sa, sb, s, sc, sd, h1, h2, ga, gb, gp, gc, gd⟩ := comb4 (hT blk hblk)
  have hq : q.length = ph.length := gp.lengths.1
  rw [h1, h2]
  refine IsCombination.append (IsCombination.append (.cons (ha _ _ ⟨blk, hblk, ?_⟩ ga) (.cons (hb _ _ ⟨blk, hblk, ?_⟩ gb) .nil)) gp)
    (.cons (hc _ _ ⟨blk, hblk, ?_⟩ gc) (.cons (hd _ _ ⟨blk, hblk, ?_⟩ gd) .nil))
  · rw [h1]; rfl
  · rw [h1]; rfl
  · rw [h1, ← hq]; exact legs4_2 ..
  · rw [h1, ← hq]; exact legs4_3 ..

/-- The tables of the product bonds: there are bonds (those found on the tensors) on which the tensors live and which the tables fuse. -/
inductive Tables : List (BondFusingInfo Q) → List (BondInfo Q × BondInfo Q) → Prop
  | nil : Tables [] []
  | cons {fi b fis bs} : PairTable fi b.1 b.2 → Tables fis bs → Tables (fi :: fis) (b :: bs)

theorem union_nonempty {T T' : SpT Q K} {l a b : BondInfo Q} {k : Nat} (hne : T ≠ []) (hT : ∀ blk ∈ T, ∃ s, Dict.get? l (blk.1.getD k 0) = some s)
    (h : ∀ q s, Dict.get? (BondInfo.union a b) q = some s ↔ Dict.get? l q = some s ∧ (OccursOn T k q ∨ OccursOn T' 0 q)) :
    BondInfo.union a b ≠ [] := by
  rcases T with _ | ⟨blk, T⟩
  · exact absurd rfl hne
  obtain ⟨s, hs⟩ := hT blk (by simp)
  have := (h (blk.1.getD k 0) s).2 ⟨hs, Or.inl ⟨blk, by simp, rfl⟩⟩
  intro h0
  rw [h0] at this
  simp at this

end
end Verif
