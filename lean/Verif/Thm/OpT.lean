import Verif.Model.OpT
import Verif.Thm.Sparse
import Verif.Thm.Fermion
import Verif.Thm.Hamiltonian
import Mathlib.Tactic.Ring
import Mathlib.Tactic.LinearCombination

/-!
Property C49: placing fermionic operators side by side is the graded tensor product.
-/

set_option linter.unusedSectionVars false
set_option linter.unusedSimpArgs false

namespace Verif
variable {Q K : Type} [DecidableEq Q] [AddCommGroup Q] [CommRing K]

/-! ### Specification -/

/-- Parity of the number of fermionic labels. -/
def fermParity (isF : Q → Bool) (qs : List Q) : Bool := decide (qs.countP isF % 2 = 1)

/-- Sign of a parity. -/
def paritySign (K : Type) [One K] [Neg K] (p : Bool) : K := if p then -1 else 1

/-- `A` is an operator on the sites whose bonds are `sites`: legs are the row indices, then the column indices.  Blocks of the
odd part change the fermion parity, blocks of the even part keep it. -/
structure OperatorOn (isF : Q → Bool) (sites : List (BondInfo Q)) (A : OpT Q K) : Prop where
  odd : Conforms (sites ++ sites) A.odd
  even : Conforms (sites ++ sites) A.even
  oddParity : ∀ b ∈ A.odd, fermParity isF b.1 = true
  evenParity : ∀ b ∈ A.even, fermParity isF b.1 = false

/-! ### The in-place negation -/

theorem add_eq_append (A B : SpT Q K) (h : UniqueLabels (A ++ B)) : A.add B = A ++ B := by
  have hA : UniqueLabels A := by
    unfold UniqueLabels at h ⊢
    rw [List.map_append] at h
    exact (List.nodup_append.1 h).1
  have e : A.foldl (fun m a => Dict.set m a.1 a.2) [] = A := by
    simpa using foldl_set_append (m := []) A hA
  unfold SpT.add
  rw [e]
  clear e hA
  induction B generalizing A with
  | nil => simp
  | cons b t ih =>
    obtain ⟨k, v⟩ := b
    have hk : k ∉ A.map Prod.fst := by
      unfold UniqueLabels at h
      rw [List.map_append, List.nodup_append] at h
      intro hm
      exact h.2.2 k hm k (by simp) rfl
    simp only [List.foldl_cons]
    have hg : Dict.get? A k = none := (Dict.get?_eq_none_iff _ _).2 hk
    unfold SpT.accumulate
    rw [hg]
    simp only
    rw [Dict.set_of_not_mem A v hk]
    have := ih (A ++ [(k, v)]) (by simpa using h)
    unfold SpT.accumulate at this
    rw [this]
    simp

theorem has_iff {α β : Type} [DecidableEq α] (d : Dict α β) (k : α) : Dict.has d k = true ↔ k ∈ d.map Prod.fst := by
  unfold Dict.has
  rw [Option.isSome_iff_ne_none, ne_eq, Dict.get?_eq_none_iff, not_not]

theorem entry_signed (A : SpT Q K) (g : List Q → Bool) (x : List (Q × Nat)) :
    entry (A.map fun b => if g b.1 then (b.1, b.2.neg) else b) x = paritySign K (g (x.map Prod.fst)) * entry A x := by
  unfold entry
  rw [List.map_map, ← sum_map_mul_left']
  apply sum_map_congr'
  intro b _
  simp only [Function.comp]
  by_cases hx : b.1 = x.map Prod.fst
  · rw [← hx]
    by_cases hg : g b.1 = true
    · rw [if_pos hg, hg, blockEntry_neg]
      simp [paritySign]
    · rw [if_neg hg]
      simp [paritySign, hg]
  · have h0 : blockEntry b x = 0 := by simp [blockEntry, hx]
    rw [h0, mul_zero]
    split_ifs
    · rw [blockEntry_neg, h0, neg_zero]
    · exact h0

/-- When no label occurs on both sides, the in-place negation reaches the sum. -/
theorem entry_addAliased (A B : SpT Q K) (hu : UniqueLabels (A ++ B)) (negA negB : List Q → Bool) (x : List (Q × Nat)) :
    entry (OpT.addAliased A B negA negB) x =
      paritySign K (negA (x.map Prod.fst)) * entry A x + paritySign K (negB (x.map Prod.fst)) * entry B x := by
  unfold OpT.addAliased
  rw [add_eq_append A B hu, List.map_append, entry_append]
  have hd : ∀ q, q ∈ A.map Prod.fst → q ∈ B.map Prod.fst → False := by
    intro q h1 h2
    unfold UniqueLabels at hu
    rw [List.map_append, List.nodup_append] at hu
    exact hu.2.2 q h1 q h2 rfl
  rw [← entry_signed A negA, ← entry_signed B negB]
  congr 1
  · congr 1
    apply List.map_congr_left
    intro b hb
    have h1 : Dict.has A b.1 = true := (has_iff _ _).2 (List.mem_map.2 ⟨b, hb, rfl⟩)
    have h2 : Dict.has B b.1 = false := by
      rw [Bool.eq_false_iff]; intro h; exact hd b.1 ((has_iff _ _).1 h1) ((has_iff _ _).1 h)
    simp [h1, h2]
  · congr 1
    apply List.map_congr_left
    intro b hb
    have h1 : Dict.has B b.1 = true := (has_iff _ _).2 (List.mem_map.2 ⟨b, hb, rfl⟩)
    have h2 : Dict.has A b.1 = false := by
      rw [Bool.eq_false_iff]; intro h; exact hd b.1 ((has_iff _ _).1 h) ((has_iff _ _).1 h1)
    simp [h1, h2]

theorem addAliased_labels (A B : SpT Q K) (hu : UniqueLabels (A ++ B)) (negA negB : List Q → Bool) (b : List Q × Arr K)
    (hb : b ∈ OpT.addAliased A B negA negB) :
    ∃ c, (c ∈ A ∨ c ∈ B) ∧ c.1 = b.1 ∧ c.2.shape = b.2.shape := by
  unfold OpT.addAliased at hb
  rw [add_eq_append A B hu] at hb
  obtain ⟨c, hc, rfl⟩ := List.mem_map.1 hb
  refine ⟨c, List.mem_append.1 hc, ?_⟩
  split_ifs <;> exact ⟨rfl, rfl⟩

/-- Labels of a contraction come from a block of each operand. -/
theorem tensordot_labels (A B R : SpT Q K) (axesA axesB : List Int) (h : SpT.tensordot A B axesA axesB = some R) (r : List Q × Arr K)
    (hr : r ∈ R) :
    ∃ a ∈ A, ∃ b ∈ B,
      r.1 = pick (SpT.outAxes A.ndim (axesA.map (SpT.normAxis A.ndim))) a.1 ++
        pick (SpT.outAxes B.ndim (axesB.map (SpT.normAxis B.ndim))) b.1 ∧
      pick (axesB.map (SpT.normAxis B.ndim)) b.1 = pick (axesA.map (SpT.normAxis A.ndim)) a.1 := by
  unfold SpT.tensordot at h
  simp only at h
  split_ifs at h
  simp only [Option.some.injEq] at h
  subst h
  rw [tensordotCore_eq] at hr
  have hm := mem_accumulate_labels _ _ _ hr
  simp only [List.map_nil, List.not_mem_nil, false_or] at hm
  unfold contributions at hm
  rw [List.mem_map] at hm
  obtain ⟨d, hd, hde⟩ := hm
  rw [List.mem_flatMap] at hd
  obtain ⟨a, hma, hd⟩ := hd
  obtain ⟨b, hmb, rfl⟩ := List.mem_map.1 hd
  rw [List.mem_filter] at hmb
  exact ⟨a, hma, b, hmb.1, hde.symm, by simpa using hmb.2⟩

/-! ### Parities -/

theorem fermParity_append (isF : Q → Bool) (a b : List Q) :
    fermParity isF (a ++ b) = xor (fermParity isF a) (fermParity isF b) := by
  unfold fermParity
  rw [List.countP_append]
  rcases Nat.mod_two_eq_zero_or_one (a.countP isF) with h1 | h1 <;>
  rcases Nat.mod_two_eq_zero_or_one (b.countP isF) with h2 | h2 <;>
  simp [Nat.add_mod, h1, h2]

theorem foldl_xor (l : List Bool) (a : Bool) : l.foldl xor a = xor a (l.foldl xor false) := by
  induction l generalizing a with
  | nil => simp
  | cons b t ih => simp only [List.foldl_cons]; rw [ih (xor a b), ih (xor false b)]; simp

theorem fermParity_eq_foldl (isF : Q → Bool) (qs : List Q) : (qs.map isF).foldl xor false = fermParity isF qs := by
  induction qs with
  | nil => rfl
  | cons q t ih =>
    rw [List.map_cons, List.foldl_cons, foldl_xor, ih]
    have := fermParity_append isF [q] t
    simp only [List.cons_append, List.nil_append] at this
    rw [this]
    cases h : isF q <;> simp [fermParity, h]

theorem factor_eq (isF : Q → Bool) (idx : List Nat) (q : List Q) : OpT.factor isF idx q = fermParity isF (pick idx q) := by
  rw [← fermParity_eq_foldl]
  unfold OpT.factor pick
  rw [List.map_map]
  rfl

theorem paritySign_xor (a b : Bool) : paritySign K (xor a b) = paritySign K a * paritySign K b := by
  cases a <;> cases b <;> simp [paritySign]


theorem fermParity_perm (isF : Q → Bool) {a b : List Q} (h : a.Perm b) : fermParity isF a = fermParity isF b := by
  unfold fermParity
  rw [h.countP_eq]

theorem pick_perm {α : Type} [Zero α] {σ : List Nat} {xs : List α} (h : σ.Perm (List.range xs.length)) : (pick σ xs).Perm xs := by
  have h1 := h.map fun i => xs.getD i 0
  have h2 : (List.range xs.length).map (fun i => xs.getD i 0) = xs := pick_range xs
  rw [h2] at h1
  exact h1

/-! ### Outer product -/

theorem freeAxes_nil (n : Nat) : freeAxes n [] = List.range n := by simp [freeAxes]

theorem sp_outer (lA lB : List (BondInfo Q)) (A B : SpT Q K) (hA : Conforms lA A) (hB : Conforms lB B) :
    ∃ R, SpT.tensordot A B [] [] = some R ∧ Conforms (lA ++ lB) R ∧ UniqueLabels R ∧
      (∀ fa fb, fa.length = lA.length → fb.length = lB.length → entry R (fa ++ fb) = entry A fa * entry B fb) ∧
      ∀ r ∈ R, ∃ a ∈ A, ∃ b ∈ B, r.1 = a.1 ++ b.1 := by
  obtain ⟨R, h1, h2, h3, h4⟩ := C12_tensordot A B [] [] lA lB [] [] [] hA hB .nil .nil (by simp) (by simp) (by simp) (by simp)
    (by simp)
  have g : ∀ l : List (BondInfo Q), (List.range l.length).map (fun i => l.getD i []) = l := by
    intro l
    apply List.ext_getElem (by simp)
    intro i _ h
    simp [List.getElem?_eq_getElem h]
  simp only [freeAxes_nil, g, List.length_range] at h2 h4
  refine ⟨R, h1, h2, h3, ?_, ?_⟩
  · intro fa fb hfa hfb
    rw [h4 fa fb hfa hfb (fun _ => fa) (fun _ => fb)]
    · simp [legIndices, cart]
    · intro c hc
      have : c = [] := by simpa [legIndices, cart] using hc
      subst this
      exact ⟨by simp, rfl, by rw [freeAxes_nil]; exact pick_range fa⟩
    · intro c hc
      have : c = [] := by simpa [legIndices, cart] using hc
      subst this
      exact ⟨by simp, rfl, by rw [freeAxes_nil]; exact pick_range fb⟩
  · intro r hr
    obtain ⟨a, ha, b, hb, e, _⟩ := tensordot_labels A B R [] [] h1 r hr
    refine ⟨a, ha, b, hb, ?_⟩
    have o : ∀ n, SpT.outAxes n [] = List.range n := by intro n; simp [SpT.outAxes]
    simp only [List.map_nil, o] at e
    have nA : A.ndim = a.1.length := by
      rw [ndim_eq hA (List.ne_nil_of_mem ha), (hA a ha).lengths.1]
    have nB : B.ndim = b.1.length := by
      rw [ndim_eq hB (List.ne_nil_of_mem hb), (hB b hb).lengths.1]
    rw [e, nA, nB, pick_range, pick_range]

/-- Order of the legs after `shdot`. -/
def shAxes (na nb : Nat) : List Nat :=
  List.range na ++ List.range' (na + na) nb ++ List.range' na na ++ List.range' (na + na + nb) nb

theorem shAxes_perm (na nb : Nat) : (shAxes na nb).Perm (List.range (na + na + (nb + nb))) := by
  unfold shAxes
  have e : List.range (na + na + (nb + nb)) =
      List.range na ++ (List.range' na na ++ (List.range' (na + na) nb ++ List.range' (na + na + nb) nb)) := by
    rw [List.range_eq_range', List.range_eq_range']
    rw [← List.range'_append_1, ← List.range'_append_1, ← List.range'_append_1]
    simp [List.append_assoc]
  rw [e]
  simp only [List.append_assoc]
  apply List.Perm.append_left
  rw [← List.append_assoc, ← List.append_assoc]
  apply List.Perm.append_right
  exact List.perm_append_comm

theorem pick_range' {α : Type} [Zero α] (a b c : List α) : pick (List.range' a.length b.length) (a ++ b ++ c) = b := by
  unfold pick
  apply List.ext_getElem (by simp)
  intro i h1 h2
  simp only [List.getElem_map, List.getElem_range', one_mul]
  rw [List.getD_eq_getElem?_getD, List.append_assoc, List.getElem?_append_right (by omega)]
  rw [List.getElem?_append_left (by omega)]
  simp [List.getElem?_eq_getElem h2]

theorem pick_shAxes {α : Type} [Zero α] (ua da ub db : List α) (h1 : da.length = ua.length) (h2 : db.length = ub.length) :
    pick (shAxes ua.length ub.length) ((ua ++ da) ++ (ub ++ db)) = (ua ++ ub) ++ (da ++ db) := by
  unfold shAxes
  rw [pick_append, pick_append, pick_append]
  have e1 : pick (List.range ua.length) ((ua ++ da) ++ (ub ++ db)) = ua := by
    rw [List.range_eq_range']
    have := pick_range' [] ua (da ++ (ub ++ db))
    simpa using this
  have e2 : pick (List.range' (ua.length + ua.length) ub.length) ((ua ++ da) ++ (ub ++ db)) = ub := by
    have := pick_range' (ua ++ da) ub db
    simpa [h1] using this
  have e3 : pick (List.range' ua.length ua.length) ((ua ++ da) ++ (ub ++ db)) = da := by
    have := pick_range' ua da (ub ++ db)
    simpa [h1] using this
  have e4 : pick (List.range' (ua.length + ua.length + ub.length) ub.length) ((ua ++ da) ++ (ub ++ db)) = db := by
    have := pick_range' (ua ++ da ++ ub) db []
    simpa [h1, h2, Nat.add_assoc] using this
  rw [e1, e2, e3, e4]
  simp

theorem OperatorOn.ndim {isF : Q → Bool} {s : List (BondInfo Q)} {A : OpT Q K} (h : OperatorOn isF s A) :
    A = ⟨[], []⟩ ∨ A.ndim = s.length + s.length := by
  have e : ∀ T : SpT Q K, Conforms (s ++ s) T → T = [] ∨ T.ndim = s.length + s.length := by
    intro T hT
    by_cases h0 : T = []
    · exact Or.inl h0
    · exact Or.inr (by simpa using ndim_eq hT h0)
  obtain ⟨o, ev⟩ := A
  unfold OpT.ndim
  rcases e _ h.odd with h1 | h1 <;> rcases e _ h.even with h2 | h2
  · left; simp only at h1 h2; rw [h1, h2]
  · right; simp only at h1 h2 ⊢; rw [h1, h2]; simp [SpT.ndim]
  · right; simp only at h1 h2 ⊢; rw [h1, h2]; simp [SpT.ndim]
  · right; simp only at h1 h2 ⊢; rw [h1, h2]; simp


theorem unique_append {A B : SpT Q K} (hA : UniqueLabels A) (hB : UniqueLabels B) (p : List Q → Bool)
    (h1 : ∀ b ∈ A, p b.1 = true) (h2 : ∀ b ∈ B, p b.1 = false) : UniqueLabels (A ++ B) := by
  unfold UniqueLabels at *
  rw [List.map_append, List.nodup_append]
  refine ⟨hA, hB, ?_⟩
  intro q hq q' hq' e
  obtain ⟨a, ha, rfl⟩ := List.mem_map.1 hq
  obtain ⟨b, hb, rfl⟩ := List.mem_map.1 hq'
  have := h1 a ha
  rw [e, h2 b hb] at this
  exact absurd this (by simp)

theorem unique_append' {A B : SpT Q K} (hA : UniqueLabels A) (hB : UniqueLabels B) (p : List Q → Bool)
    (h1 : ∀ b ∈ A, p b.1 = false) (h2 : ∀ b ∈ B, p b.1 = true) : UniqueLabels (A ++ B) :=
  unique_append hA hB (fun q => !p q) (fun b hb => by simp [h1 b hb]) (fun b hb => by simp [h2 b hb])

theorem conforms_addAliased {legs : List (BondInfo Q)} {A B : SpT Q K} (hu : UniqueLabels (A ++ B)) (hA : Conforms legs A)
    (hB : Conforms legs B) (f g : List Q → Bool) : Conforms legs (OpT.addAliased A B f g) := by
  intro b hb
  obtain ⟨c, hc, e1, e2⟩ := addAliased_labels A B hu f g b hb
  rw [← e1, ← e2]
  rcases hc with hc | hc
  · exact hA c hc
  · exact hB c hc

theorem operatorOn_empty (isF : Q → Bool) (s : List (BondInfo Q)) : OperatorOn isF s (⟨[], []⟩ : OpT Q K) :=
  ⟨by intro b hb; simp at hb, by intro b hb; simp at hb, by intro b hb; simp at hb, by intro b hb; simp at hb⟩

/-- C49: `shdot` places two operators side by side.  Matrix elements are products, with the sign for moving the odd part of the
right operator past the column state of the left sites. -/
theorem C49_side_by_side (isF : Q → Bool) (sA sB : List (BondInfo Q)) (A B : OpT Q K) (hA : OperatorOn isF sA A)
    (hB : OperatorOn isF sB B) :
    ∃ R, OpT.shdot isF A B = some R ∧ OperatorOn isF (sA ++ sB) R ∧
      ∀ ua ub da db : List (Q × Nat), ua.length = sA.length → da.length = sA.length → ub.length = sB.length →
        db.length = sB.length →
        entry R.odd ((ua ++ ub) ++ (da ++ db)) = entry A.odd (ua ++ da) * entry B.even (ub ++ db) +
          paritySign K (fermParity isF (da.map Prod.fst)) * (entry A.even (ua ++ da) * entry B.odd (ub ++ db)) ∧
        entry R.even ((ua ++ ub) ++ (da ++ db)) = entry A.even (ua ++ da) * entry B.even (ub ++ db) +
          paritySign K (fermParity isF (da.map Prod.fst)) * (entry A.odd (ua ++ da) * entry B.odd (ub ++ db)) := by
  obtain ⟨oa, a1, a2, a3, a4, a5⟩ := sp_outer _ _ A.odd B.even hA.odd hB.even
  obtain ⟨ob, b1, b2, b3, b4, b5⟩ := sp_outer _ _ A.even B.odd hA.even hB.odd
  obtain ⟨ea, c1, c2, c3, c4, c5⟩ := sp_outer _ _ A.odd B.odd hA.odd hB.odd
  obtain ⟨eb, d1, d2, d3, d4, d5⟩ := sp_outer _ _ A.even B.even hA.even hB.even
  have hev : A.ndim % 2 = 0 := by
    rcases hA.ndim with h | h
    · rw [h]; simp [OpT.ndim, SpT.ndim]
    · rw [h]; omega
  have hevB : B.ndim % 2 = 0 := by
    rcases hB.ndim with h | h
    · rw [h]; simp [OpT.ndim, SpT.ndim]
    · rw [h]; omega
  have hodd : ¬ A.ndim % 2 = 1 := by omega
  have hsh : OpT.shdot isF A B = some (OpT.transpose (shAxes (A.ndim / 2) (B.ndim / 2))
      ⟨OpT.addAliased oa ob (fun _ => false) (OpT.factor isF (List.range' (A.ndim / 2) (A.ndim / 2))),
        OpT.addAliased ea eb (OpT.factor isF (List.range' (A.ndim / 2) (A.ndim / 2))) (fun _ => false)⟩) := by
    unfold OpT.shdot OpT.tensordot
    simp only [List.map_nil, a1, b1, c1, d1, Option.bind_some, and_self, if_true]
    rw [if_neg hodd]
    simp only [Option.map_some, hev, hevB, and_self, if_true]
    rfl
  by_cases hemp : A = ⟨[], []⟩ ∨ B = ⟨[], []⟩
  · have hoa : oa = [] := by
      rw [List.eq_nil_iff_forall_not_mem]
      intro r hr
      obtain ⟨a, ha, b, hb, _⟩ := a5 r hr
      rcases hemp with h | h
      · rw [h] at ha; simp at ha
      · rw [h] at hb; simp at hb
    have hob : ob = [] := by
      rw [List.eq_nil_iff_forall_not_mem]
      intro r hr
      obtain ⟨a, ha, b, hb, _⟩ := b5 r hr
      rcases hemp with h | h
      · rw [h] at ha; simp at ha
      · rw [h] at hb; simp at hb
    have hea : ea = [] := by
      rw [List.eq_nil_iff_forall_not_mem]
      intro r hr
      obtain ⟨a, ha, b, hb, _⟩ := c5 r hr
      rcases hemp with h | h
      · rw [h] at ha; simp at ha
      · rw [h] at hb; simp at hb
    have heb : eb = [] := by
      rw [List.eq_nil_iff_forall_not_mem]
      intro r hr
      obtain ⟨a, ha, b, hb, _⟩ := d5 r hr
      rcases hemp with h | h
      · rw [h] at ha; simp at ha
      · rw [h] at hb; simp at hb
    rw [hoa, hob, hea, heb] at hsh
    refine ⟨⟨[], []⟩, hsh, operatorOn_empty _ _, ?_⟩
    intro ua ub da db _ _ _ _
    rcases hemp with h | h <;> rw [h] <;> simp [entry_nil]
  · push_neg at hemp
    have nA : A.ndim = sA.length + sA.length := (hA.ndim).resolve_left hemp.1
    have nB : B.ndim = sB.length + sB.length := (hB.ndim).resolve_left hemp.2
    have hdA : A.ndim / 2 = sA.length := by omega
    have hdB : B.ndim / 2 = sB.length := by omega
    rw [hdA, hdB] at hsh
    -- labels of the operands have the full length
    have lA : ∀ a, a ∈ A.odd ∨ a ∈ A.even → a.1.length = sA.length + sA.length := by
      intro a ha
      rcases ha with ha | ha
      · simpa using (hA.odd a ha).lengths.1
      · simpa using (hA.even a ha).lengths.1
    have lB : ∀ a, a ∈ B.odd ∨ a ∈ B.even → a.1.length = sB.length + sB.length := by
      intro a ha
      rcases ha with ha | ha
      · simpa using (hB.odd a ha).lengths.1
      · simpa using (hB.even a ha).lengths.1
    let p : List Q → Bool := fun q => fermParity isF (q.take (sA.length + sA.length))
    have uo : UniqueLabels (oa ++ ob) := by
      apply unique_append a3 b3 p
      · intro r hr
        obtain ⟨a, ha, b, hb, e⟩ := a5 r hr
        simp only [p, e]
        rw [List.take_left' (lA a (Or.inl ha))]
        exact hA.oddParity a ha
      · intro r hr
        obtain ⟨a, ha, b, hb, e⟩ := b5 r hr
        simp only [p, e]
        rw [List.take_left' (lA a (Or.inr ha))]
        exact hA.evenParity a ha
    have ue : UniqueLabels (ea ++ eb) := by
      apply unique_append c3 d3 p
      · intro r hr
        obtain ⟨a, ha, b, hb, e⟩ := c5 r hr
        simp only [p, e]
        rw [List.take_left' (lA a (Or.inl ha))]
        exact hA.oddParity a ha
      · intro r hr
        obtain ⟨a, ha, b, hb, e⟩ := d5 r hr
        simp only [p, e]
        rw [List.take_left' (lA a (Or.inr ha))]
        exact hA.evenParity a ha
    set f := OpT.factor isF (List.range' sA.length sA.length) with hf
    have cO := conforms_addAliased uo a2 b2 (fun _ => false) f
    have cE := conforms_addAliased ue c2 d2 f (fun _ => false)
    have hperm := shAxes_perm sA.length sB.length
    have hlen : ((sA ++ sA) ++ (sB ++ sB)).length = sA.length + sA.length + (sB.length + sB.length) := by simp [Nat.add_assoc]
    rw [← hlen] at hperm
    have hpl : (shAxes sA.length sB.length).map (fun i => ((sA ++ sA) ++ (sB ++ sB)).getD i []) = (sA ++ sB) ++ (sA ++ sB) := by
      let _ : Zero (BondInfo Q) := ⟨[]⟩
      exact pick_shAxes sA sA sB sB rfl rfl
    refine ⟨_, hsh, ⟨?_, ?_, ?_, ?_⟩, ?_⟩
    · have := C14_conforms _ _ cO _ hperm
      rw [hpl] at this
      exact this
    · have := C14_conforms _ _ cE _ hperm
      rw [hpl] at this
      exact this
    · intro r hr
      obtain ⟨r', hr', rfl⟩ := List.mem_map.1 hr
      obtain ⟨c, hc, e1, e2⟩ := addAliased_labels _ _ uo (fun _ => false) f r' hr'
      have hcl : (shAxes sA.length sB.length).Perm (List.range r'.1.length) := by
        rw [(cO r' hr').lengths.1]; exact hperm
      change fermParity isF (pick (shAxes sA.length sB.length) r'.1) = true
      rw [fermParity_perm isF (pick_perm hcl), ← e1]
      rcases hc with hc | hc
      · obtain ⟨a, ha, b, hb, e⟩ := a5 c hc
        rw [e, fermParity_append, hA.oddParity a ha, hB.evenParity b hb]; rfl
      · obtain ⟨a, ha, b, hb, e⟩ := b5 c hc
        rw [e, fermParity_append, hA.evenParity a ha, hB.oddParity b hb]; rfl
    · intro r hr
      obtain ⟨r', hr', rfl⟩ := List.mem_map.1 hr
      obtain ⟨c, hc, e1, e2⟩ := addAliased_labels _ _ ue f (fun _ => false) r' hr'
      have hcl : (shAxes sA.length sB.length).Perm (List.range r'.1.length) := by
        rw [(cE r' hr').lengths.1]; exact hperm
      change fermParity isF (pick (shAxes sA.length sB.length) r'.1) = false
      rw [fermParity_perm isF (pick_perm hcl), ← e1]
      rcases hc with hc | hc
      · obtain ⟨a, ha, b, hb, e⟩ := c5 c hc
        rw [e, fermParity_append, hA.oddParity a ha, hB.oddParity b hb]; rfl
      · obtain ⟨a, ha, b, hb, e⟩ := d5 c hc
        rw [e, fermParity_append, hA.evenParity a ha, hB.evenParity b hb]; rfl
    · intro ua ub da db hua hda hub hdb
      have hx : ((ua ++ da) ++ (ub ++ db)).length = ((sA ++ sA) ++ (sB ++ sB)).length := by simp [hua, hda, hub, hdb]
      have hpk := pick_shAxes ua da ub db (by rw [hda, hua]) (by rw [hdb, hub])
      rw [hua, hub] at hpk
      have eO := C14_entry _ _ cO _ hperm ((ua ++ da) ++ (ub ++ db)) hx
      have eE := C14_entry _ _ cE _ hperm ((ua ++ da) ++ (ub ++ db)) hx
      change entry _ (pick _ _) = _ at eO eE
      rw [hpk] at eO eE
      have hfx : f (((ua ++ da) ++ (ub ++ db)).map Prod.fst) = fermParity isF (da.map Prod.fst) := by
        rw [hf, factor_eq]
        congr 1
        have := pick_range' (ua.map Prod.fst) (da.map Prod.fst) ((ub ++ db).map Prod.fst)
        simpa [hua, hda] using this
      have e0 : paritySign K false = 1 := rfl
      refine ⟨?_, ?_⟩
      · change entry (SpT.transpose _ _) _ = _
        rw [eO, entry_addAliased _ _ uo, hfx, a4 _ _ (by simp [hua, hda]) (by simp [hub, hdb]),
          b4 _ _ (by simp [hua, hda]) (by simp [hub, hdb]), e0, one_mul]
      · change entry (SpT.transpose _ _) _ = _
        rw [eE, entry_addAliased _ _ ue, hfx, c4 _ _ (by simp [hua, hda]) (by simp [hub, hdb]),
          d4 _ _ (by simp [hua, hda]) (by simp [hub, hdb]), e0, one_mul, add_comm]


/-! ### Composition of operators on the same sites -/

/-- The axes of a composition: columns of the left operator with rows of the right one. -/
def columnAxes (n : Nat) : List Int := (List.range' n n).map Int.ofNat
def rowAxes (n : Nat) : List Int := (List.range n).map Int.ofNat

theorem range_double (n : Nat) : List.range (n + n) = List.range n ++ List.range' n n := by
  rw [List.range_eq_range', List.range_eq_range', ← List.range'_append_1]
  simp

theorem freeAxes_columns (n : Nat) : freeAxes (n + n) (List.range' n n) = List.range n := by
  unfold freeAxes
  rw [range_double, List.filter_append]
  have h1 : (List.range n).filter (fun i => decide (i ∉ List.range' n n)) = List.range n := by
    rw [List.filter_eq_self]
    intro i hi
    simp at hi ⊢
    omega
  have h2 : (List.range' n n).filter (fun i => decide (i ∉ List.range' n n)) = [] := by
    rw [List.filter_eq_nil_iff]
    intro i hi
    simpa using hi
  rw [h1, h2, List.append_nil]

theorem freeAxes_rows (n : Nat) : freeAxes (n + n) (List.range n) = List.range' n n := by
  unfold freeAxes
  rw [range_double, List.filter_append]
  have h1 : (List.range n).filter (fun i => decide (i ∉ List.range n)) = [] := by
    rw [List.filter_eq_nil_iff]
    intro i hi
    simpa using hi
  have h2 : (List.range' n n).filter (fun i => decide (i ∉ List.range n)) = List.range' n n := by
    rw [List.filter_eq_self]
    intro i hi
    simp at hi ⊢
    omega
  rw [h1, h2, List.nil_append]

theorem namesAxes_ofNat {n : Nat} (l : List Nat) (h : ∀ i ∈ l, i < n) : List.Forall₂ (NamesAxis n) (l.map Int.ofNat) l := by
  induction l with
  | nil => exact .nil
  | cons a t ih => exact .cons ⟨h a (by simp), Or.inl rfl⟩ (ih fun i hi => h i (by simp [hi]))

theorem normAxes_ofNat (n : Nat) (l : List Nat) : (l.map Int.ofNat).map (SpT.normAxis n) = l := by
  rw [List.map_map]
  conv_rhs => rw [← List.map_id l]
  apply List.map_congr_left
  intro i _
  simp [SpT.normAxis]

theorem pick_first {α : Type} [Zero α] (a b : List α) : pick (List.range a.length) (a ++ b) = a := by
  have := pick_range' [] a b
  rw [List.range_eq_range']
  simpa using this

theorem pick_second {α : Type} [Zero α] (a b : List α) : pick (List.range' a.length b.length) (a ++ b) = b := by
  have := pick_range' a b []
  simpa using this

theorem sp_compose (s : List (BondInfo Q)) (hw : ∀ b ∈ s, Dict.WF b) (A B : SpT Q K) (hA : Conforms (s ++ s) A)
    (hB : Conforms (s ++ s) B) :
    ∃ R, SpT.tensordot A B (columnAxes s.length) (rowAxes s.length) = some R ∧ Conforms (s ++ s) R ∧ UniqueLabels R ∧
      (∀ u d, u.length = s.length → d.length = s.length →
        entry R (u ++ d) = ((legIndices s).map fun m => entry A (u ++ m) * entry B (m ++ d)).sum) ∧
      ∀ r ∈ R, ∃ qu qm qd : List Q, (∃ a ∈ A, a.1 = qu ++ qm) ∧ (∃ b ∈ B, b.1 = qm ++ qd) ∧ r.1 = qu ++ qd := by
  have hn : (s ++ s).length = s.length + s.length := by simp
  have g1 : (List.range s.length).map (fun i => (s ++ s).getD i []) = s := by
    let _ : Zero (BondInfo Q) := ⟨[]⟩
    exact pick_first s s
  have g2 : (List.range' s.length s.length).map (fun i => (s ++ s).getD i []) = s := by
    let _ : Zero (BondInfo Q) := ⟨[]⟩
    exact pick_second s s
  obtain ⟨R, h1, h2, h3, h4⟩ := C12_tensordot A B (columnAxes s.length) (rowAxes s.length) (s ++ s) (s ++ s) s
    (List.range' s.length s.length) (List.range s.length) hA hB
    (namesAxes_ofNat _ (by intro i hi; simp at hi ⊢; omega)) (namesAxes_ofNat _ (by intro i hi; simp at hi ⊢; omega))
    List.nodup_range' List.nodup_range g2 g1 hw
  simp only [hn, freeAxes_columns, freeAxes_rows, g1, g2, List.length_range, List.length_range'] at h2 h4
  refine ⟨R, h1, h2, h3, ?_, ?_⟩
  · intro u d hu hd
    apply h4 u d hu hd (fun m => u ++ m) (fun m => m ++ d)
    · intro m hm
      have hm := legIndices_length hm
      have hl : (u ++ m).length = s.length + s.length := by simp [hu, hm]
      refine ⟨by simp [Nat.add_comm], ?_, ?_⟩
      · have := pick_second u m
        rwa [hu, hm] at this
      · rw [hl, freeAxes_columns, ← hu]
        exact pick_first u m
    · intro m hm
      have hm := legIndices_length hm
      have hl : (m ++ d).length = s.length + s.length := by simp [hd, hm]
      refine ⟨by simp, ?_, ?_⟩
      · rw [← hm]; exact pick_first m d
      · rw [hl, freeAxes_rows]
        have := pick_second m d
        rwa [hm, hd] at this
  · intro r hr
    obtain ⟨a, ha, b, hb, e1, e2⟩ := tensordot_labels A B R _ _ h1 r hr
    have nA : A.ndim = s.length + s.length := by rw [ndim_eq hA (List.ne_nil_of_mem ha), hn]
    have nB : B.ndim = s.length + s.length := by rw [ndim_eq hB (List.ne_nil_of_mem hb), hn]
    have la : a.1.length = s.length + s.length := by rw [(hA a ha).lengths.1, hn]
    have lb : b.1.length = s.length + s.length := by rw [(hB b hb).lengths.1, hn]
    unfold columnAxes rowAxes at e1 e2
    rw [normAxes_ofNat, normAxes_ofNat] at e1 e2
    rw [nA, nB, ← freeAxes_eq, ← freeAxes_eq, freeAxes_columns, freeAxes_rows] at e1
    have sa : a.1 = a.1.take s.length ++ a.1.drop s.length := (List.take_append_drop _ _).symm
    have sb : b.1 = b.1.take s.length ++ b.1.drop s.length := (List.take_append_drop _ _).symm
    have l1 : (a.1.take s.length).length = s.length := by rw [List.length_take, la]; omega
    have l2 : (a.1.drop s.length).length = s.length := by rw [List.length_drop, la]; omega
    have l3 : (b.1.take s.length).length = s.length := by rw [List.length_take, lb]; omega
    have l4 : (b.1.drop s.length).length = s.length := by rw [List.length_drop, lb]; omega
    have p1 : pick (List.range s.length) a.1 = a.1.take s.length := by
      have := pick_first (a.1.take s.length) (a.1.drop s.length)
      rw [l1, List.take_append_drop] at this
      exact this
    have p2 : pick (List.range' s.length s.length) a.1 = a.1.drop s.length := by
      have := pick_second (a.1.take s.length) (a.1.drop s.length)
      rw [l1, l2, List.take_append_drop] at this
      exact this
    have p3 : pick (List.range s.length) b.1 = b.1.take s.length := by
      have := pick_first (b.1.take s.length) (b.1.drop s.length)
      rw [l3, List.take_append_drop] at this
      exact this
    have p4 : pick (List.range' s.length s.length) b.1 = b.1.drop s.length := by
      have := pick_second (b.1.take s.length) (b.1.drop s.length)
      rw [l3, l4, List.take_append_drop] at this
      exact this
    rw [p1, p4] at e1
    rw [p2, p3] at e2
    refine ⟨a.1.take s.length, a.1.drop s.length, b.1.drop s.length, ⟨a, ha, sa⟩, ⟨b, hb, ?_⟩, e1⟩
    rw [← e2]; exact sb

theorem addAliased_no' (A B : SpT Q K) (f g : List Q → Bool) (hf : ∀ q, f q = false) (hg : ∀ q, g q = false) :
    OpT.addAliased A B f g = A.add B := by
  unfold OpT.addAliased
  conv_rhs => rw [← List.map_id (A.add B)]
  apply List.map_congr_left
  intro b _
  simp [hf, hg]

theorem add_labels (A B : SpT Q K) (q : List Q) (h : q ∈ (A.add B).map Prod.fst) : q ∈ A.map Prod.fst ∨ q ∈ B.map Prod.fst := by
  have acc : ∀ (m : SpT Q K) (k : List Q) (v : Arr K), q ∈ (SpT.accumulate m k v).map Prod.fst → q = k ∨ q ∈ m.map Prod.fst := by
    intro m k v h
    unfold SpT.accumulate at h
    split at h <;> exact Dict.mem_map_fst_set.1 h
  have f1 : ∀ (l m : SpT Q K), q ∈ (l.foldl (fun m b => SpT.accumulate m b.1 b.2) m).map Prod.fst →
      q ∈ m.map Prod.fst ∨ q ∈ l.map Prod.fst := by
    intro l
    induction l with
    | nil => intro m h; exact Or.inl h
    | cons b t ih =>
      intro m h
      rcases ih _ h with h | h
      · rcases acc _ _ _ h with h | h
        · exact Or.inr (by simp [h])
        · exact Or.inl h
      · exact Or.inr (List.mem_cons_of_mem _ h)
  have f2 : ∀ (l m : SpT Q K), q ∈ (l.foldl (fun m b => Dict.set m b.1 b.2) m).map Prod.fst →
      q ∈ m.map Prod.fst ∨ q ∈ l.map Prod.fst := by
    intro l
    induction l with
    | nil => intro m h; exact Or.inl h
    | cons b t ih =>
      intro m h
      rcases ih _ h with h | h
      · rcases Dict.mem_map_fst_set.1 h with h | h
        · exact Or.inr (by simp [h])
        · exact Or.inl h
      · exact Or.inr (List.mem_cons_of_mem _ h)
  rcases f1 _ _ h with h | h
  · rcases f2 _ _ h with h | h
    · simp at h
    · exact Or.inl h
  · exact Or.inr h

/-- C49: contracting the columns of one operator with the rows of another is the composition of operators: there is no extra
sign. -/
theorem C49_composition (isF : Q → Bool) (s : List (BondInfo Q)) (hw : ∀ b ∈ s, Dict.WF b) (A B : OpT Q K)
    (hA : OperatorOn isF s A) (hB : OperatorOn isF s B) :
    ∃ R, OpT.tensordot isF A B (columnAxes s.length) (rowAxes s.length) = some R ∧ OperatorOn isF s R ∧
      ∀ u d, u.length = s.length → d.length = s.length →
        entry R.odd (u ++ d) = ((legIndices s).map fun m => entry A.odd (u ++ m) * entry B.even (m ++ d) +
          entry A.even (u ++ m) * entry B.odd (m ++ d)).sum ∧
        entry R.even (u ++ d) = ((legIndices s).map fun m => entry A.odd (u ++ m) * entry B.odd (m ++ d) +
          entry A.even (u ++ m) * entry B.even (m ++ d)).sum := by
  obtain ⟨oa, a1, a2, a3, a4, a5⟩ := sp_compose s hw A.odd B.even hA.odd hB.even
  obtain ⟨ob, b1, b2, b3, b4, b5⟩ := sp_compose s hw A.even B.odd hA.even hB.odd
  obtain ⟨ea, c1, c2, c3, c4, c5⟩ := sp_compose s hw A.odd B.odd hA.odd hB.odd
  obtain ⟨eb, d1, d2, d3, d4, d5⟩ := sp_compose s hw A.even B.even hA.even hB.even
  have hno : ∀ q : List Q, OpT.factor isF [] q = false := fun _ => rfl
  have hR : OpT.tensordot isF A B (columnAxes s.length) (rowAxes s.length) = some ⟨oa.add ob, ea.add eb⟩ := by
    unfold OpT.tensordot
    have n1 : (columnAxes s.length).map (SpT.normAxis A.ndim) = List.range' s.length s.length := normAxes_ofNat _ _
    have n2 : (rowAxes s.length).map (SpT.normAxis B.ndim) = List.range s.length := normAxes_ofNat _ _
    simp only [n1, n2]
    change ((A.odd.tensordot B.even (columnAxes s.length) (rowAxes s.length)).bind fun oddA =>
      (A.even.tensordot B.odd (columnAxes s.length) (rowAxes s.length)).bind fun oddB =>
      (A.odd.tensordot B.odd (columnAxes s.length) (rowAxes s.length)).bind fun evenA =>
      (A.even.tensordot B.even (columnAxes s.length) (rowAxes s.length)).bind fun evenB => _) = _
    simp only [a1, b1, c1, d1, Option.bind_some]
    by_cases h0 : s.length = 0
    · have hnd : A.ndim = 0 := by
        rcases hA.ndim with h | h
        · rw [h]; simp [OpT.ndim, SpT.ndim]
        · omega
      rw [if_pos (by simp [h0]), if_neg (by omega), hnd]
      simp only [Nat.zero_div, List.range'_zero]
      rw [addAliased_no' _ _ _ _ (fun _ => rfl) hno, addAliased_no' _ _ _ _ hno (fun _ => rfl)]
    · rw [if_neg (by simp [h0])]
      by_cases h1 : List.range' s.length s.length = [A.ndim - 1] ∧ List.range s.length = [0]
      · have hl : s.length = 1 := by simpa using congrArg List.length h1.2
        have hnd : A.ndim = 2 := by
          have := h1.1
          rw [hl] at this
          simp at this
          omega
        rw [if_pos h1, if_neg (by omega), hnd]
        simp only [Nat.sub_self, Nat.zero_div, List.range'_zero]
        rw [addAliased_no' _ _ _ _ (fun _ => rfl) hno, addAliased_no' _ _ _ _ hno (fun _ => rfl)]
      · rw [if_neg h1]
        have hmin : (List.range s.length).min?.getD 0 = 0 := by
          obtain ⟨k, hk⟩ : ∃ k, s.length = k + 1 := ⟨s.length - 1, by omega⟩
          have hm : (List.range s.length).min? = some 0 := by
            rw [List.min?_eq_some_iff]
            exact ⟨by simp [hk], fun b _ => Nat.zero_le b⟩
          rw [hm]; rfl
        simp only [hmin, List.range'_zero]
        rw [addAliased_no' _ _ _ _ hno (fun _ => rfl), addAliased_no' _ _ _ _ hno (fun _ => rfl)]
  obtain ⟨k1, u1, e1⟩ := C11_add _ oa ob a2 b2 a3
  obtain ⟨k2, u2, e2⟩ := C11_add _ ea eb c2 d2 c3
  have labels : ∀ (X Y : SpT Q K), ∀ r ∈ X.add Y, ∃ c, (c ∈ X ∨ c ∈ Y) ∧ c.1 = r.1 := by
    intro X Y r hr
    have h := add_labels X Y r.1 (List.mem_map.2 ⟨r, hr, rfl⟩)
    rcases h with h | h
    · obtain ⟨c, hc, e⟩ := List.mem_map.1 h
      exact ⟨c, Or.inl hc, e⟩
    · obtain ⟨c, hc, e⟩ := List.mem_map.1 h
      exact ⟨c, Or.inr hc, e⟩
  have par : ∀ (X Y R : SpT Q K) (px py : Bool), (∀ b ∈ X, fermParity isF b.1 = px) → (∀ b ∈ Y, fermParity isF b.1 = py) →
      (∀ r ∈ R, ∃ qu qm qd : List Q, (∃ a ∈ X, a.1 = qu ++ qm) ∧ (∃ b ∈ Y, b.1 = qm ++ qd) ∧ r.1 = qu ++ qd) →
      ∀ r ∈ R, fermParity isF r.1 = xor px py := by
    intro X Y R px py hX hY h r hr
    obtain ⟨qu, qm, qd, ⟨a, ha, ea⟩, ⟨b, hb, eb⟩, e⟩ := h r hr
    have p1 := hX a ha
    have p2 := hY b hb
    rw [ea, fermParity_append] at p1
    rw [eb, fermParity_append] at p2
    rw [e, fermParity_append, ← p1, ← p2]
    cases fermParity isF qu <;> cases fermParity isF qm <;> cases fermParity isF qd <;> rfl
  refine ⟨_, hR, ⟨k1, k2, ?_, ?_⟩, ?_⟩
  · intro r hr
    obtain ⟨c, hc, e⟩ := labels oa ob r hr
    rw [← e]
    rcases hc with hc | hc
    · exact par _ _ _ _ _ hA.oddParity hB.evenParity a5 c hc
    · exact par _ _ _ _ _ hA.evenParity hB.oddParity b5 c hc
  · intro r hr
    obtain ⟨c, hc, e⟩ := labels ea eb r hr
    rw [← e]
    rcases hc with hc | hc
    · exact par _ _ _ _ _ hA.oddParity hB.oddParity c5 c hc
    · exact par _ _ _ _ _ hA.evenParity hB.evenParity d5 c hc
  · intro u d hu hd
    simp only [e1, e2, a4 u d hu hd, b4 u d hu hd, c4 u d hu hd, d4 u d hu hd, sum_map_add']
    exact ⟨trivial, trivial⟩


/-! ### Laws -/

/-- The composition of operators on the sites `s`. -/
def compose (isF : Q → Bool) (s : List (BondInfo Q)) (A B : OpT Q K) : Option (OpT Q K) :=
  OpT.tensordot isF A B (columnAxes s.length) (rowAxes s.length)

/-- The operator is purely odd (`p`) or purely even. -/
def PureParity (p : Bool) (A : OpT Q K) : Prop := if p then A.even = [] else A.odd = []

/-- Two operators on the sites `s` have the same matrix elements in both parts. -/
def SameMatrix (s : List (BondInfo Q)) (A B : OpT Q K) : Prop :=
  ∀ u d, u ∈ legIndices s → d ∈ legIndices s →
    entry A.odd (u ++ d) = entry B.odd (u ++ d) ∧ entry A.even (u ++ d) = entry B.even (u ++ d)

theorem legIndices_append_sum (s t : List (BondInfo Q)) (f : List (Q × Nat) → K) :
    ((legIndices (s ++ t)).map f).sum = ((legIndices s).map fun a => ((legIndices t).map fun b => f (a ++ b)).sum).sum := by
  unfold legIndices
  induction s generalizing f with
  | nil => simp [cart]
  | cons b s ih =>
    simp only [List.cons_append, List.map_cons, cart, sum_flatMap', List.map_map]
    apply sum_map_congr'
    intro x _
    exact ih fun y => f (x :: y)

theorem mem_legIndices_append {s t : List (BondInfo Q)} {x : List (Q × Nat)} (h : x ∈ legIndices (s ++ t)) :
    ∃ a ∈ legIndices s, ∃ b ∈ legIndices t, x = a ++ b := by
  unfold legIndices at *
  induction s generalizing x with
  | nil => exact ⟨[], by simp [cart], x, h, rfl⟩
  | cons c s ih =>
    simp only [List.cons_append, List.map_cons, cart, List.mem_flatMap, List.mem_map] at h
    obtain ⟨y, hy, z, hz, rfl⟩ := h
    obtain ⟨a, ha, b, hb, rfl⟩ := ih hz
    exact ⟨y :: a, by simp only [List.map_cons, cart, List.mem_flatMap, List.mem_map]; exact ⟨y, hy, a, ha, rfl⟩, b, hb, rfl⟩

theorem paritySign_mul (p q : Bool) : paritySign K p * paritySign K q = paritySign K (xor p q) := by
  cases p <;> cases q <;> simp [paritySign]

theorem entry_odd_sign {isF : Q → Bool} {s : List (BondInfo Q)} {A : OpT Q K} (hA : OperatorOn isF s A) (u d : List (Q × Nat)) :
    paritySign K (fermParity isF (u.map Prod.fst)) * entry A.odd (u ++ d) =
      -(paritySign K (fermParity isF (d.map Prod.fst)) * entry A.odd (u ++ d)) := by
  by_cases h : ∃ b ∈ A.odd, b.1 = (u ++ d).map Prod.fst
  · obtain ⟨b, hb, e⟩ := h
    have := hA.oddParity b hb
    rw [e, List.map_append, fermParity_append] at this
    cases h1 : fermParity isF (u.map Prod.fst) <;> cases h2 : fermParity isF (d.map Prod.fst) <;> simp_all [paritySign]
  · rw [entry_of_not_mem (fun hm => h (by obtain ⟨b, hb, e⟩ := List.mem_map.1 hm; exact ⟨b, hb, e⟩))]
    simp

theorem entry_even_sign {isF : Q → Bool} {s : List (BondInfo Q)} {A : OpT Q K} (hA : OperatorOn isF s A) (u d : List (Q × Nat)) :
    paritySign K (fermParity isF (u.map Prod.fst)) * entry A.even (u ++ d) =
      paritySign K (fermParity isF (d.map Prod.fst)) * entry A.even (u ++ d) := by
  by_cases h : ∃ b ∈ A.even, b.1 = (u ++ d).map Prod.fst
  · obtain ⟨b, hb, e⟩ := h
    have := hA.evenParity b hb
    rw [e, List.map_append, fermParity_append] at this
    cases h1 : fermParity isF (u.map Prod.fst) <;> cases h2 : fermParity isF (d.map Prod.fst) <;> simp_all [paritySign]
  · rw [entry_of_not_mem (fun hm => h (by obtain ⟨b, hb, e⟩ := List.mem_map.1 hm; exact ⟨b, hb, e⟩))]
    simp

/-- C49: placing side by side is associative. -/
theorem C49_associative (isF : Q → Bool) (s t r : List (BondInfo Q)) (A B C : OpT Q K) (hA : OperatorOn isF s A)
    (hB : OperatorOn isF t B) (hC : OperatorOn isF r C) :
    ∃ L R, ((OpT.shdot isF A B).bind fun X => OpT.shdot isF X C) = some L ∧
      ((OpT.shdot isF B C).bind fun X => OpT.shdot isF A X) = some R ∧ SameMatrix (s ++ t ++ r) L R := by
  obtain ⟨X, hX, oX, eX⟩ := C49_side_by_side isF s t A B hA hB
  obtain ⟨Y, hY, oY, eY⟩ := C49_side_by_side isF t r B C hB hC
  obtain ⟨L, hL, oL, eL⟩ := C49_side_by_side isF (s ++ t) r X C oX hC
  obtain ⟨R, hR, oR, eR⟩ := C49_side_by_side isF s (t ++ r) A Y hA oY
  refine ⟨L, R, by rw [hX]; exact hL, by rw [hY]; exact hR, ?_⟩
  intro u d hu hd
  obtain ⟨u', hu', uc, huc, rfl⟩ := mem_legIndices_append hu
  obtain ⟨ua, hua, ub, hub, rfl⟩ := mem_legIndices_append hu'
  obtain ⟨d', hd', dc, hdc, rfl⟩ := mem_legIndices_append hd
  obtain ⟨da, hda, db, hdb, rfl⟩ := mem_legIndices_append hd'
  have l1 := legIndices_length hua
  have l2 := legIndices_length hub
  have l3 := legIndices_length huc
  have l4 := legIndices_length hda
  have l5 := legIndices_length hdb
  have l6 := legIndices_length hdc
  obtain ⟨x1, x2⟩ := eX ua ub da db l1 l4 l2 l5
  obtain ⟨y1, y2⟩ := eY ub uc db dc l2 l5 l3 l6
  obtain ⟨z1, z2⟩ := eL (ua ++ ub) uc (da ++ db) dc (by simp [l1, l2]) (by simp [l4, l5]) l3 l6
  obtain ⟨w1, w2⟩ := eR ua (ub ++ uc) da (db ++ dc) l1 l4 (by simp [l2, l3]) (by simp [l5, l6])
  rw [x1, x2, List.map_append, fermParity_append, ← paritySign_mul] at z1 z2
  rw [y1, y2] at w1 w2
  constructor
  · rw [z1, List.append_assoc ua, List.append_assoc da, w1]
    have : paritySign K (fermParity isF (da.map Prod.fst)) * paritySign K (fermParity isF (da.map Prod.fst)) = 1 := by
      rw [paritySign_mul]; simp [paritySign]
    linear_combination (paritySign K (fermParity isF (db.map Prod.fst)) * entry A.odd (ua ++ da) * entry B.odd (ub ++ db) *
      entry C.odd (uc ++ dc)) * this
  · rw [z2, List.append_assoc ua, List.append_assoc da, w2]
    have : paritySign K (fermParity isF (da.map Prod.fst)) * paritySign K (fermParity isF (da.map Prod.fst)) = 1 := by
      rw [paritySign_mul]; simp [paritySign]
    linear_combination (paritySign K (fermParity isF (db.map Prod.fst)) * entry A.even (ua ++ da) * entry B.odd (ub ++ db) *
      entry C.odd (uc ++ dc)) * this

/-- C49: the graded law.  Composing two pairs of operators placed side by side composes each pair, up to the sign of moving
the second operator of the first pair past the first operator of the second pair. -/
theorem C49_graded_law (isF : Q → Bool) (s t : List (BondInfo Q)) (hs : ∀ b ∈ s, Dict.WF b) (ht : ∀ b ∈ t, Dict.WF b)
    (A B C D : OpT Q K) (hA : OperatorOn isF s A) (hB : OperatorOn isF t B) (hC : OperatorOn isF s C) (hD : OperatorOn isF t D)
    (p q : Bool) (pB : PureParity p B) (pC : PureParity q C) :
    ∃ L R, ((OpT.shdot isF A B).bind fun X => (OpT.shdot isF C D).bind fun Y => compose isF (s ++ t) X Y) = some L ∧
      ((compose isF s A C).bind fun X => (compose isF t B D).bind fun Y => OpT.shdot isF X Y) = some R ∧
      SameMatrix (s ++ t) L (R.smul (paritySign K (p && q))) := by
  obtain ⟨X, hX, oX, eX⟩ := C49_side_by_side isF s t A B hA hB
  obtain ⟨Y, hY, oY, eY⟩ := C49_side_by_side isF s t C D hC hD
  obtain ⟨L, hL, oL, eL⟩ := C49_composition isF (s ++ t) (by
    intro b hb; rcases List.mem_append.1 hb with h | h; exacts [hs b h, ht b h]) X Y oX oY
  obtain ⟨V, hV, oV, eV⟩ := C49_composition isF s hs A C hA hC
  obtain ⟨W, hW, oW, eW⟩ := C49_composition isF t ht B D hB hD
  obtain ⟨R, hR, oR, eR⟩ := C49_side_by_side isF s t V W oV oW
  refine ⟨L, R, by rw [hX, hY]; exact hL, by unfold compose; rw [hV, hW]; exact hR, ?_⟩
  intro u d hu hd
  have hlu := legIndices_length hu
  have hld := legIndices_length hd
  obtain ⟨ua, hua, ub, hub, rfl⟩ := mem_legIndices_append hu
  obtain ⟨da, hda, db, hdb, rfl⟩ := mem_legIndices_append hd
  have l1 := legIndices_length hua
  have l2 := legIndices_length hub
  have l4 := legIndices_length hda
  have l5 := legIndices_length hdb
  obtain ⟨z1, z2⟩ := eL (ua ++ ub) (da ++ db) hlu hld
  obtain ⟨r1, r2⟩ := eR ua ub da db l1 l4 l2 l5
  obtain ⟨v1, v2⟩ := eV ua da l1 l4
  obtain ⟨w1, w2⟩ := eW ub db l2 l5
  rw [legIndices_append_sum] at z1 z2
  have prod : ∀ f g : List (Q × Nat) → K, ((legIndices s).map f).sum * ((legIndices t).map g).sum =
      ((legIndices s).map fun a => ((legIndices t).map fun b => f a * g b).sum).sum := by
    intro f g
    rw [← sum_map_mul_right']
    apply sum_map_congr'
    intro a _
    rw [sum_map_mul_left']
  have smulE : ∀ (c : K) (T : SpT Q K) (x : List (Q × Nat)), entry (T.smul c) x = c * entry T x := by
    intro c T x
    exact C11_smul c T x
  simp only [OpT.smul, smulE]
  have sq : ∀ b : Bool, paritySign K b * paritySign K b = 1 := by intro b; cases b <;> simp [paritySign]
  rw [z1, z2, r1, r2, v1, v2, w1, w2]
  simp only [prod]
  simp only [← sum_map_mul_left', ← sum_map_add']
  constructor
  · apply sum_map_congr'
    intro ma hma
    apply sum_map_congr'
    intro mb hmb
    have l3 := legIndices_length hma
    have l6 := legIndices_length hmb
    obtain ⟨x1, x2⟩ := eX ua ub ma mb l1 l3 l2 l6
    obtain ⟨y1, y2⟩ := eY ma mb da db l3 l4 l6 l5
    rw [x1, x2, y1, y2]
    have c1 := entry_odd_sign hC ma da
    have c2 := entry_even_sign hC ma da
    have q1 := sq (fermParity isF (da.map Prod.fst))
    generalize paritySign K (fermParity isF (da.map Prod.fst)) = σd at *
    generalize paritySign K (fermParity isF (ma.map Prod.fst)) = σm at *
    generalize entry A.odd (ua ++ ma) = Ao at *
    generalize entry A.even (ua ++ ma) = Ae at *
    generalize entry D.odd (mb ++ db) = Do at *
    generalize entry D.even (mb ++ db) = De at *
    cases p <;> cases q <;> simp only [PureParity, Bool.false_eq_true, if_true, if_false] at pB pC <;> rw [pB, pC] <;>
      simp only [entry_nil, mul_zero, zero_mul, add_zero, zero_add, paritySign, Bool.and_true, Bool.and_false, Bool.true_and, Bool.false_and,
        Bool.false_eq_true, if_true, if_false]
    · ring
    · ring
    · linear_combination (Ae * entry B.odd (ub ++ mb) * De + Ao * entry B.odd (ub ++ mb) * Do * σd) * c2 + Ao * entry B.odd (ub ++ mb) * Do * entry C.even (ma ++ da) * q1
    · linear_combination (Ae * entry B.odd (ub ++ mb) * Do * σd + Ao * entry B.odd (ub ++ mb) * De) * c1 - Ae * entry B.odd (ub ++ mb) * Do * entry C.odd (ma ++ da) * q1
  · apply sum_map_congr'
    intro ma hma
    apply sum_map_congr'
    intro mb hmb
    have l3 := legIndices_length hma
    have l6 := legIndices_length hmb
    obtain ⟨x1, x2⟩ := eX ua ub ma mb l1 l3 l2 l6
    obtain ⟨y1, y2⟩ := eY ma mb da db l3 l4 l6 l5
    rw [x1, x2, y1, y2]
    have c1 := entry_odd_sign hC ma da
    have c2 := entry_even_sign hC ma da
    have q1 := sq (fermParity isF (da.map Prod.fst))
    generalize paritySign K (fermParity isF (da.map Prod.fst)) = σd at *
    generalize paritySign K (fermParity isF (ma.map Prod.fst)) = σm at *
    generalize entry A.odd (ua ++ ma) = Ao at *
    generalize entry A.even (ua ++ ma) = Ae at *
    generalize entry D.odd (mb ++ db) = Do at *
    generalize entry D.even (mb ++ db) = De at *
    cases p <;> cases q <;> simp only [PureParity, Bool.false_eq_true, if_true, if_false] at pB pC <;> rw [pB, pC] <;>
      simp only [entry_nil, mul_zero, zero_mul, add_zero, zero_add, paritySign, Bool.and_true, Bool.and_false, Bool.true_and, Bool.false_and,
        Bool.false_eq_true, if_true, if_false]
    · ring
    · ring
    · linear_combination (Ae * entry B.odd (ub ++ mb) * Do * σd + Ao * entry B.odd (ub ++ mb) * De) * c2 + Ae * entry B.odd (ub ++ mb) * Do * entry C.even (ma ++ da) * q1
    · linear_combination (Ae * entry B.odd (ub ++ mb) * De + Ao * entry B.odd (ub ++ mb) * Do * σd) * c1 - Ao * entry B.odd (ub ++ mb) * Do * entry C.odd (ma ++ da) * q1

/-- The matrix of the identity operator. -/
def IsIdentity (s : List (BondInfo Q)) (A : OpT Q K) : Prop :=
  A.odd = [] ∧ ∀ u d, u ∈ legIndices s → d ∈ legIndices s → entry A.even (u ++ d) = if u = d then 1 else 0

theorem legIndices_nodup {s : List (BondInfo Q)} (hs : ∀ b ∈ s, Dict.WF b) : (legIndices s).Nodup := by
  apply cart_nodup
  intro l hl
  obtain ⟨b, hb, rfl⟩ := List.mem_map.1 hl
  exact legBasis_nodup (hs b hb)

theorem compose_identity (isF : Q → Bool) (s : List (BondInfo Q)) (hs : ∀ b ∈ s, Dict.WF b) (A I : OpT Q K)
    (hA : OperatorOn isF s A) (hI : OperatorOn isF s I) (iI : IsIdentity s I) :
    ∃ R, compose isF s A I = some R ∧ OperatorOn isF s R ∧ SameMatrix s R A := by
  obtain ⟨R, hR, oR, eR⟩ := C49_composition isF s hs A I hA hI
  refine ⟨R, hR, oR, ?_⟩
  intro u d hu hd
  obtain ⟨e1, e2⟩ := eR u d (legIndices_length hu) (legIndices_length hd)
  rw [e1, e2, iI.1]
  have key : ∀ f : List (Q × Nat) → K, ((legIndices s).map fun m => f m * entry I.even (m ++ d)).sum = f d := by
    intro f
    rw [sum_map_congr' _ _ (fun m => if m = d then f m else 0), sum_map_ite_eq' _ (legIndices_nodup hs), if_pos hd]
    intro m hm
    rw [iI.2 m d hm hd]
    simp
  simp only [entry_nil, mul_zero, add_zero, zero_add]
  exact ⟨key fun m => entry A.odd (u ++ m), key fun m => entry A.even (u ++ m)⟩

theorem identity_compose (isF : Q → Bool) (s : List (BondInfo Q)) (hs : ∀ b ∈ s, Dict.WF b) (A I : OpT Q K)
    (hA : OperatorOn isF s A) (hI : OperatorOn isF s I) (iI : IsIdentity s I) :
    ∃ R, compose isF s I A = some R ∧ OperatorOn isF s R ∧ SameMatrix s R A := by
  obtain ⟨R, hR, oR, eR⟩ := C49_composition isF s hs I A hI hA
  refine ⟨R, hR, oR, ?_⟩
  intro u d hu hd
  obtain ⟨e1, e2⟩ := eR u d (legIndices_length hu) (legIndices_length hd)
  rw [e1, e2, iI.1]
  have key : ∀ f : List (Q × Nat) → K, ((legIndices s).map fun m => entry I.even (u ++ m) * f m).sum = f u := by
    intro f
    rw [sum_map_congr' _ _ (fun m => if m = u then f m else 0), sum_map_ite_eq' _ (legIndices_nodup hs), if_pos hu]
    intro m hm
    rw [iI.2 u m hu hm]
    by_cases h : u = m <;> simp [h, eq_comm]
  simp only [entry_nil, zero_mul, add_zero, zero_add]
  exact ⟨key fun m => entry A.odd (m ++ d), key fun m => entry A.even (m ++ d)⟩

/-- Same matrices side by side give the same matrix. -/
theorem sameMatrix_shdot (isF : Q → Bool) (s t : List (BondInfo Q)) {A A' B B' R R' : OpT Q K} (hA : OperatorOn isF s A)
    (hA' : OperatorOn isF s A') (hB : OperatorOn isF t B) (hB' : OperatorOn isF t B') (hR : OpT.shdot isF A B = some R)
    (hR' : OpT.shdot isF A' B' = some R') (h1 : SameMatrix s A A') (h2 : SameMatrix t B B') : SameMatrix (s ++ t) R R' := by
  obtain ⟨X, hX, -, eX⟩ := C49_side_by_side isF s t A B hA hB
  obtain ⟨X', hX', -, eX'⟩ := C49_side_by_side isF s t A' B' hA' hB'
  obtain rfl : X = R := Option.some.inj (hX.symm.trans hR)
  obtain rfl : X' = R' := Option.some.inj (hX'.symm.trans hR')
  intro u d hu hd
  obtain ⟨ua, hua, ub, hub, rfl⟩ := mem_legIndices_append hu
  obtain ⟨da, hda, db, hdb, rfl⟩ := mem_legIndices_append hd
  obtain ⟨x1, x2⟩ := eX ua ub da db (legIndices_length hua) (legIndices_length hda) (legIndices_length hub) (legIndices_length hdb)
  obtain ⟨y1, y2⟩ := eX' ua ub da db (legIndices_length hua) (legIndices_length hda) (legIndices_length hub) (legIndices_length hdb)
  rw [x1, x2, y1, y2, (h1 ua da hua hda).1, (h1 ua da hua hda).2, (h2 ub db hub hdb).1, (h2 ub db hub hdb).2]
  exact ⟨rfl, rfl⟩

/-- C49: operators acting on different sites commute, or anticommute when both are odd. -/
theorem C49_different_sites (isF : Q → Bool) (s t : List (BondInfo Q)) (hs : ∀ b ∈ s, Dict.WF b) (ht : ∀ b ∈ t, Dict.WF b)
    (A B I J : OpT Q K) (hA : OperatorOn isF s A) (hB : OperatorOn isF t B) (hI : OperatorOn isF s I) (hJ : OperatorOn isF t J)
    (iI : IsIdentity s I) (iJ : IsIdentity t J) (p q : Bool) (pA : PureParity p A) (pB : PureParity q B) :
    ∃ L R, ((OpT.shdot isF A J).bind fun X => (OpT.shdot isF I B).bind fun Y => compose isF (s ++ t) X Y) = some L ∧
      ((OpT.shdot isF I B).bind fun X => (OpT.shdot isF A J).bind fun Y => compose isF (s ++ t) X Y) = some R ∧
      SameMatrix (s ++ t) L (R.smul (paritySign K (p && q))) := by
  obtain ⟨L, L', hL, hL', eL⟩ := C49_graded_law isF s t hs ht A J I B hA hJ hI hB false false iJ.1 iI.1
  obtain ⟨R, R', hR, hR', eR⟩ := C49_graded_law isF s t hs ht I B A J hI hB hA hJ q p pB pA
  refine ⟨L, R, hL, hR, ?_⟩
  obtain ⟨AI, h1, o1, e1⟩ := compose_identity isF s hs A I hA hI iI
  obtain ⟨IA, h2, o2, e2⟩ := identity_compose isF s hs A I hA hI iI
  obtain ⟨BJ, h3, o3, e3⟩ := compose_identity isF t ht B J hB hJ iJ
  obtain ⟨JB, h4, o4, e4⟩ := identity_compose isF t ht B J hB hJ iJ
  rw [h1, h4] at hL'
  rw [h2, h3] at hR'
  have m1 : SameMatrix s AI IA := fun u d hu hd =>
    ⟨(e1 u d hu hd).1.trans (e2 u d hu hd).1.symm, (e1 u d hu hd).2.trans (e2 u d hu hd).2.symm⟩
  have m2 : SameMatrix t JB BJ := fun u d hu hd =>
    ⟨(e4 u d hu hd).1.trans (e3 u d hu hd).1.symm, (e4 u d hu hd).2.trans (e3 u d hu hd).2.symm⟩
  have e := sameMatrix_shdot isF s t o1 o2 o4 o3 hL' hR' m1 m2
  intro u d hu hd
  obtain ⟨a1, a2⟩ := eL u d hu hd
  obtain ⟨b1, b2⟩ := eR u d hu hd
  obtain ⟨c1, c2⟩ := e u d hu hd
  simp only [OpT.smul, C11_smul] at a1 a2 b1 b2 ⊢
  have sq : paritySign K (p && q) * paritySign K (q && p) = 1 := by cases p <;> cases q <;> simp [paritySign]
  have one : paritySign K (false && false) = 1 := rfl
  rw [a1, a2, b1, b2, c1, c2, one, one_mul, one_mul, ← mul_assoc, ← mul_assoc, sq, one_mul, one_mul]
  exact ⟨rfl, rfl⟩

/-! ### Orbitals of the quantum chemistry Hamiltonian -/

section
open Hamiltonian
variable {F : Type} [Field F]

theorem operatorOn_creation (ipg : Nat) (σ : Bool) :
    ∃ C : OpT SZ F, cOp ipg σ = some C ∧ OperatorOn SZ.isFermion [siteBasis ipg] C ∧ PureParity true C := by
  obtain ⟨C, hC, oC, -, e, -, -⟩ := C30_creation (K := F) ipg σ
  refine ⟨C, hC, ⟨oC.1, oC.2.1, ?_, by rw [e]; simp⟩, e⟩
  rw [c_val] at hC
  obtain rfl := Option.some.inj hC
  cases σ <;> simp [fermParity, SZ.isFermion, List.countP_cons, Hamiltonian.sz]

theorem operatorOn_annihilation (ipg : Nat) (σ : Bool) :
    ∃ C : OpT SZ F, dOp ipg σ = some C ∧ OperatorOn SZ.isFermion [siteBasis ipg] C ∧ PureParity true C := by
  obtain ⟨C, hC, oC, -, e, -, -⟩ := C30_annihilation (K := F) ipg σ
  refine ⟨C, hC, ⟨oC.1, oC.2.1, ?_, by rw [e]; simp⟩, e⟩
  rw [d_val] at hC
  obtain rfl := Option.some.inj hC
  cases σ <;> simp [fermParity, SZ.isFermion, List.countP_cons, Hamiltonian.sz]

theorem operatorOn_identity (ipg : Nat) :
    ∃ C : OpT SZ F, iOp ipg = some C ∧ OperatorOn SZ.isFermion [siteBasis ipg] C ∧ IsIdentity [siteBasis ipg] C := by
  obtain ⟨C, hC, oC, e, -, -⟩ := C30_identity (K := F) ipg
  refine ⟨C, hC, ⟨oC.1, oC.2.1, by rw [e]; simp, ?_⟩, e, ?_⟩
  · rw [i_val] at hC
    obtain rfl := Option.some.inj hC
    simp [fermParity, SZ.isFermion, List.countP_cons, Hamiltonian.sz]
  · rw [i_val] at hC
    obtain rfl := Option.some.inj hC
    intro u d hu hd
    simp only [legIndices, legBasis, siteBasis, List.map_cons, List.map_nil, cart, List.flatMap_cons, List.flatMap_nil,
      List.range_one, List.append_nil, List.cons_append, List.nil_append, List.mem_cons, List.not_mem_nil, or_false] at hu hd
    rcases hu with rfl | rfl | rfl | rfl <;> rcases hd with rfl | rfl | rfl | rfl <;>
      simp [entry_cons, entry_nil, blockEntry, one1, inBox]

/-- The laws apply to the operators built by the Hamiltonian class: an electron creation operator on one orbital anticommutes
with a creation operator on another orbital, whatever the spins and point-group irreps. -/
theorem C49_creation_anticommute (i j : Nat) (σ τ : Bool) :
    ∃ (A B I J L R : OpT SZ F), cOp i σ = some A ∧ cOp j τ = some B ∧ iOp i = some I ∧ iOp j = some J ∧
      ((OpT.shdot SZ.isFermion A J).bind fun X => (OpT.shdot SZ.isFermion I B).bind fun Y =>
        compose SZ.isFermion [siteBasis i, siteBasis j] X Y) = some L ∧
      ((OpT.shdot SZ.isFermion I B).bind fun X => (OpT.shdot SZ.isFermion A J).bind fun Y =>
        compose SZ.isFermion [siteBasis i, siteBasis j] X Y) = some R ∧
      SameMatrix [siteBasis i, siteBasis j] L (R.smul (-1)) := by
  obtain ⟨A, hA, oA, pA⟩ := operatorOn_creation (F := F) i σ
  obtain ⟨B, hB, oB, pB⟩ := operatorOn_creation (F := F) j τ
  obtain ⟨I, hI, oI, iI⟩ := operatorOn_identity (F := F) i
  obtain ⟨J, hJ, oJ, iJ⟩ := operatorOn_identity (F := F) j
  have wf : ∀ k, ∀ b ∈ [siteBasis k], Dict.WF b := by
    intro k b hb
    obtain rfl := List.mem_singleton.1 hb
    simp [Dict.WF, siteBasis]
  obtain ⟨L, R, hL, hR, e⟩ := C49_different_sites SZ.isFermion [siteBasis i] [siteBasis j] (wf i) (wf j) A B I J oA oB oI oJ iI iJ
    true true pA pB
  exact ⟨A, B, I, J, L, R, hA, hB, hI, hJ, hL, hR, e⟩

/-- C49 needs the parity condition: with a block of the odd part that keeps the parity, the sum is formed before the in-place
negation and the sign is lost.  Here the entry would be `1 + (-1) = 0` by the formula of `C49_side_by_side`, but is 2. -/
theorem C49_parity_needed :
    ∃ (A B R : OpT SZ Int) (s : List (BondInfo SZ)), Conforms (s ++ s) A.odd ∧ Conforms (s ++ s) A.even ∧ Conforms (s ++ s) B.odd ∧
      Conforms (s ++ s) B.even ∧ OpT.shdot SZ.isFermion A B = some R ∧
      ∃ ua ub da db : List (SZ × Nat), ua.length = s.length ∧ ub.length = s.length ∧ da.length = s.length ∧ db.length = s.length ∧
        entry R.odd ((ua ++ ub) ++ (da ++ db)) ≠ entry A.odd (ua ++ da) * entry B.even (ub ++ db) +
          paritySign Int (fermParity SZ.isFermion (da.map Prod.fst)) * (entry A.even (ua ++ da) * entry B.odd (ub ++ db)) := by
  let f : SZ := ⟨1, 1, 0⟩
  let one : SpT SZ Int := [([f, f], ⟨[1, 1], fun _ => 1⟩)]
  have h : (OpT.shdot SZ.isFermion ⟨one, one⟩ ⟨one, one⟩).isSome = true := by decide
  refine ⟨⟨one, one⟩, ⟨one, one⟩, (OpT.shdot SZ.isFermion ⟨one, one⟩ ⟨one, one⟩).get h, [[(f, 1)]], by decide, by decide, by decide,
    by decide, (Option.some_get h).symm, [(f, 0)], [(f, 0)], [(f, 0)], [(f, 0)], rfl, rfl, rfl, rfl, ?_⟩
  revert h
  decide

end

end Verif
