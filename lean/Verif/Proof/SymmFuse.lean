import Verif.Model.SymmFuse
import Verif.Spec.SymmFuse
import Verif.Thm.Fusing
import Verif.Proof.Mps
import Verif.Proof.Sparse

/-! Lemmas about the change to a lower symmetry. -/

set_option linter.unusedSectionVars false

namespace Verif
section
variable {H L : Type} [DecidableEq H] [DecidableEq L] [Zero H] [Zero L]

/-- The new place of a basis vector. -/
def symmPlace (le : H → H → Bool) (f : H → L) (b : BondInfo H) (z : H × Nat) : L × Nat :=
  (f z.1, ((((Dict.get? (symmetryFusingInfo le b f).2 (f z.1)).bind fun t => Dict.get? t z.1).map Prod.fst).getD 0) + z.2)

theorem symm_keys (f : H → L) (l : List (H × Nat)) (st : BondInfo L × Dict L (Dict H (Nat × Nat))) (hw : Dict.WF st.1) :
    let st' := l.foldl (fun st (x : H × Nat) =>
      (Counter.incr st.1 (f x.1) x.2,
        Dict.set st.2 (f x.1) (Dict.set ((Dict.get? st.2 (f x.1)).getD []) x.1 (Counter.count st.1 (f x.1), x.2)))) st
    Dict.WF st'.1 ∧ (∀ q, q ∈ Dict.keys st'.1 ↔ q ∈ Dict.keys st.1 ∨ ∃ k ∈ l.map Prod.fst, f k = q) ∧
      ∀ q, Counter.count st'.1 q = Counter.count st.1 q + ((l.filter fun p => f p.1 = q).map Prod.snd).sum := by
  induction l generalizing st with
  | nil => simp [hw]
  | cons x l ih =>
    obtain ⟨h1, h2, h3⟩ := ih (Counter.incr st.1 (f x.1) x.2,
        Dict.set st.2 (f x.1) (Dict.set ((Dict.get? st.2 (f x.1)).getD []) x.1 (Counter.count st.1 (f x.1), x.2))) (Dict.WF.set hw _ _)
    simp only [List.foldl_cons]
    refine ⟨h1, fun q => ?_, fun q => ?_⟩
    · rw [h2 q]
      simp only [Counter.incr, Dict.keys, Dict.mem_map_fst_set, List.map_cons, List.mem_cons, exists_eq_or_imp]
      constructor
      · rintro ((h | h) | h)
        · first | exact Or.inr (Or.inl h.symm) | exact Or.inl h
        · first | exact Or.inl h | exact Or.inr (Or.inl h.symm)
        · exact Or.inr (Or.inr h)
      · rintro (h | h | h)
        · first | exact Or.inl (Or.inr h) | exact Or.inl (Or.inl h)
        · first | exact Or.inl (Or.inl h.symm) | exact Or.inl (Or.inr h.symm)
        · exact Or.inr h
    · rw [h3 q, Counter.count_incr, List.filter_cons]
      by_cases e : f x.1 = q
      · subst e; simp; omega
      · simp [e, Ne.symm e]

theorem symm_facts (le : H → H → Bool) (f : H → L) (b : BondInfo H) :
    Dict.WF (symmetryFusingInfo le b f).1 ∧ (∀ q, q ∈ Dict.keys (symmetryFusingInfo le b f).1 ↔ ∃ k ∈ Dict.keys b, f k = q) ∧
      ∀ q, Counter.count (symmetryFusingInfo le b f).1 q = ((List.filter (fun p => f p.1 = q) b).map Prod.snd).sum := by
  have hp : (sortBy (fun x y => le x.1 y.1) b).Perm b := sortBy_perm _ _
  obtain ⟨h1, h2, h3⟩ := symm_keys f (sortBy (fun x y => le x.1 y.1) b) ([], []) Dict.WF.nil
  refine ⟨h1, fun q => ?_, fun q => ?_⟩
  · refine (h2 q).trans ?_
    simp only [Dict.keys, List.map_nil, List.not_mem_nil, false_or]
    constructor
    · rintro ⟨k, hk, e⟩; exact ⟨k, (hp.map Prod.fst).mem_iff.1 hk, e⟩
    · rintro ⟨k, hk, e⟩; exact ⟨k, (hp.map Prod.fst).mem_iff.2 hk, e⟩
  · refine (h3 q).trans ?_
    simp only [Counter.count_nil, zero_add]
    exact (((hp.filter _).map Prod.snd).sum_eq)

/-- The window of a label. -/
theorem symm_window (le : H → H → Bool) (f : H → L) {b : BondInfo H} (hb : Dict.WF b) {q : H} {s : Nat} (h : Dict.get? b q = some s) :
    ∃ k, ((Dict.get? (symmetryFusingInfo le b f).2 (f q)).bind fun t => Dict.get? t q) = some (k, s) ∧
      k + s ≤ Counter.count (symmetryFusingInfo le b f).1 (f q) ∧ ∀ i, symmPlace le f b (q, i) = (f q, k + i) := by
  obtain ⟨ht, he⟩ := C09_symmetry le b hb f (f q)
  obtain ⟨k, hk⟩ := (he q s).2 ⟨h, rfl⟩
  exact ⟨k, hk, ht.1 q k s hk, fun i => by simp [symmPlace, hk]⟩

theorem get_of_basis {b : BondInfo H} (hb : Dict.WF b) {z : H × Nat} (h : z ∈ legBasis b) : ∃ s, Dict.get? b z.1 = some s ∧ z.2 < s := by
  rw [mem_legBasis hb] at h
  unfold Counter.count at h
  cases e : Dict.get? b z.1 with
  | none => rw [e] at h; simp at h
  | some s => exact ⟨s, rfl, by rw [e] at h; simpa using h⟩

/-- A new place is in the window of a label only if it comes from the label. -/
theorem symm_owner (le : H → H → Bool) (f : H → L) {b : BondInfo H} (hb : Dict.WF b) {q : H} {k s : Nat}
    (h : ((Dict.get? (symmetryFusingInfo le b f).2 (f q)).bind fun t => Dict.get? t q) = some (k, s)) {z : H × Nat} (hz : z ∈ legBasis b) :
    (f q = (symmPlace le f b z).1 ∧ k ≤ (symmPlace le f b z).2 ∧ (symmPlace le f b z).2 < k + s) ↔ q = z.1 ∧ z.2 < s := by
  obtain ⟨s', hs', hlt⟩ := get_of_basis hb hz
  obtain ⟨k', hk', hle, hp⟩ := symm_window le f hb hs'
  obtain ⟨z1, z2⟩ := z
  rw [hp z2]
  simp only at *
  constructor
  · rintro ⟨e, h1, h2⟩
    obtain ⟨ht, _⟩ := C09_symmetry le b hb f (f z1)
    have := (ht.2 (k' + z2) (by omega)).unique (y₁ := q) (y₂ := z1) ⟨k, s, by rw [← e]; exact h, h1, h2⟩ ⟨k', s', hk', by omega, by omega⟩
    subst this
    rw [h] at hk'
    simp only [Option.some.injEq, Prod.mk.injEq] at hk'
    exact ⟨rfl, by omega⟩
  · rintro ⟨rfl, h2⟩
    rw [h] at hk'
    simp only [Option.some.injEq, Prod.mk.injEq] at hk'
    exact ⟨rfl, by omega, by omega⟩

theorem symm_relabels (le : H → H → Bool) (f : H → L) {b : BondInfo H} (hb : Dict.WF b) :
    Relabels f b (symmetryFusingInfo le b f).1 (symmPlace le f b) := by
  obtain ⟨h1, h2, _⟩ := symm_facts le f b
  refine ⟨fun _ _ => rfl, ?_, ?_, h1, h2⟩
  · intro z hz z' hz' e
    obtain ⟨s, hs, hlt⟩ := get_of_basis hb hz
    obtain ⟨k, hk, hle, hp⟩ := symm_window le f hb hs
    have hz1 := hp z.2
    have := (symm_owner le f hb hk hz').1 (by
      rw [← e, show z = (z.1, z.2) from rfl, hz1]; exact ⟨rfl, by simp, by simp; omega⟩)
    obtain ⟨z1, z2⟩ := z
    obtain ⟨y1, y2⟩ := z'
    simp only at *
    obtain ⟨rfl, h4⟩ := this
    rw [hp, hp] at e
    simp only [Prod.mk.injEq] at e
    have : z2 = y2 := by omega
    rw [this]
  · intro y
    rw [mem_legBasis h1]
    constructor
    · intro h
      obtain ⟨ht, he⟩ := C09_symmetry le b hb f y.1
      obtain ⟨q, ⟨k, s, hk, hk1, hk2⟩, _⟩ := ht.2 y.2 h
      obtain ⟨hq, hf⟩ := (he q s).1 ⟨k, hk⟩
      obtain ⟨k', hk', hle, hp⟩ := symm_window le f hb hq
      rw [hf] at hk'
      have hk' := hk.symm.trans hk'
      simp only [Option.some.injEq, Prod.mk.injEq, and_true] at hk'
      refine ⟨(q, y.2 - k), ?_, ?_⟩
      · rw [mem_legBasis hb]; simp only [Counter.count, hq, Option.getD_some]; omega
      · rw [hp, hf, ← hk']
        ext
        · rfl
        · simp only; omega
    · rintro ⟨z, hz, rfl⟩
      obtain ⟨s, hs, hlt⟩ := get_of_basis hb hz
      obtain ⟨k, hk, hle, hp⟩ := symm_window le f hb hs
      rw [show z = (z.1, z.2) from rfl, hp]
      simp only
      omega

end

section
variable {H L K : Type} [DecidableEq H] [DecidableEq L] [Zero H] [Zero L]

/-- The slices of a block: they exist, have its shape, lie inside the new block. -/
theorem symmSlices_spec (le : H → H → Bool) (f : H → L) {legs : List (BondInfo H)} (hw : ∀ b ∈ legs, Dict.WF b) {qs : List H} {sh : List Nat} (hc : IsCombination legs qs sh) :
    ∃ ws, SpT.symmSlices (legs.map fun b => symmetryFusingInfo le b f) ((qs.map f).zip qs) = some ws ∧ ws.map Prod.snd = sh ∧
      let ns := List.zipWith (fun (g : SymmInfo H L) q => Counter.count g.1 q) (legs.map fun b => symmetryFusingInfo le b f) (qs.map f)
      ns.length = ws.length ∧ ((ws.zip ns).all fun x => decide (x.1.1 + x.1.2 ≤ x.2)) = true ∧
      IsCombination (legs.map fun b => (symmetryFusingInfo le b f).1) (qs.map f) ns ∧
      ∀ x ∈ legIndices legs, ((qs.map f = (relabelAll (symmPlace le f) legs x).map Prod.fst ∧ inSlices ws ((relabelAll (symmPlace le f) legs x).map Prod.snd) = true) ↔
        (qs = x.map Prod.fst ∧ inBox sh (x.map Prod.snd) = true)) ∧
        (qs = x.map Prod.fst → List.zipWith (fun i (w : Nat × Nat) => i - w.1) ((relabelAll (symmPlace le f) legs x).map Prod.snd) ws = x.map Prod.snd) := by
  induction hc with
  | nil =>
    refine ⟨[], rfl, rfl, rfl, rfl, .nil, ?_⟩
    intro x hx
    have : x = [] := by simpa [legIndices, cart] using hx
    subst this
    simp [relabelAll, inSlices, inBox]
  | @cons b bs q qs s sh hq hc ih =>
    obtain ⟨ws, h1, h2, h3, h4, h5, h6⟩ := ih fun b hb => hw b (List.mem_cons_of_mem _ hb)
    have hb := hw b List.mem_cons_self
    obtain ⟨k, hk, hle, hp⟩ := symm_window le f hb hq
    obtain ⟨w1, w2, _⟩ := symm_facts le f b
    refine ⟨(k, s) :: ws, ?_, by simp [h2], ?_, ?_, ?_, ?_⟩
    · simp only [List.map_cons, List.zip_cons_cons, SpT.symmSlices, hk, Option.bind_some, h1, Option.map_some]
    · simpa using h3
    · simp only [List.map_cons, List.zipWith_cons_cons, List.zip_cons_cons, List.all_cons, h4, Bool.and_true, decide_eq_true_eq]
      exact hle
    · simp only [List.map_cons, List.zipWith_cons_cons]
      refine .cons ?_ h5
      have : f q ∈ Dict.keys (symmetryFusingInfo le b f).1 := (w2 _).2 ⟨q, List.mem_map.2 ⟨_, Dict.mem_of_get? hq, rfl⟩, rfl⟩
      obtain ⟨n, hn⟩ := Dict.mem_keys_iff.1 this
      rw [hn, Counter.count, hn]; rfl
    · intro x hx
      rw [legIndices, List.map_cons, cart, List.mem_flatMap] at hx
      obtain ⟨z, hz, hx⟩ := hx
      obtain ⟨x', hx', rfl⟩ := List.mem_map.1 hx
      obtain ⟨e1, e2⟩ := h6 x' hx'
      have ho := symm_owner le f hb hk hz
      constructor
      · simp only [relabelAll, List.zipWith_cons_cons, List.map_cons, List.cons.injEq, inSlices, inBox, Bool.and_eq_true, decide_eq_true_eq] at e1 ⊢
        constructor
        · rintro ⟨⟨a1, a2⟩, a3, a4⟩
          obtain ⟨b1, b2⟩ := ho.1 ⟨a1, a3⟩
          obtain ⟨b3, b4⟩ := e1.1 ⟨a2, a4⟩
          exact ⟨⟨b1, b3⟩, b2, b4⟩
        · rintro ⟨⟨a1, a2⟩, a3, a4⟩
          obtain ⟨b1, b2⟩ := ho.2 ⟨a1, a3⟩
          obtain ⟨b3, b4⟩ := e1.2 ⟨a2, a4⟩
          exact ⟨⟨b1, b3⟩, b2, b4⟩
      · intro e
        simp only [List.map_cons, List.cons.injEq] at e
        simp only [relabelAll, List.zipWith_cons_cons, List.map_cons, List.cons.injEq]
        refine ⟨?_, e2 e.2⟩
        rw [show z = (q, z.2) by rw [e.1], hp]; simp

theorem inSlices_inBox : ∀ {ws : List (Nat × Nat)} {ns ix : List Nat}, ns.length = ws.length → ((ws.zip ns).all fun x => decide (x.1.1 + x.1.2 ≤ x.2)) = true →
    inSlices ws ix = true → inBox ns ix = true
  | [], [], [], _, _, _ => rfl
  | [], [], _ :: _, _, _, h => by simp [inSlices] at h
  | _ :: _, _ :: _, [], _, _, h => by simp [inSlices] at h
  | [], _ :: _, _, h, _, _ => by simp at h
  | _ :: _, [], _, h, _, _ => by simp at h
  | w :: ws, n :: ns, i :: ix, h, ha, hs => by
    simp only [List.zip_cons_cons, List.all_cons, Bool.and_eq_true, decide_eq_true_eq, inSlices, inBox] at ha hs ⊢
    exact ⟨by omega, inSlices_inBox (by simpa using h) ha.2 hs.2⟩

/-- What one block adds to the new tensor. -/
def symmPart [Zero K] (f : H → L) (b : List H × Arr K) (ws : List (Nat × Nat)) (y : List (L × Nat)) : K :=
  if b.1.map f = y.map Prod.fst ∧ inSlices ws (y.map Prod.snd) = true then b.2.get (List.zipWith (fun i (w : Nat × Nat) => i - w.1) (y.map Prod.snd) ws) else 0

theorem symmStep_spec [AddCommMonoid K] (le : H → H → Bool) (f : H → L) {legs : List (BondInfo H)} (hw : ∀ b ∈ legs, Dict.WF b) {b : List H × Arr K}
    (hb : IsCombination legs b.1 b.2.shape) {m : SpT L K} (hm : Conforms (legs.map fun b => (symmetryFusingInfo le b f).1) m) (hu : UniqueLabels m) :
    ∃ m', SpT.symmStep (legs.map fun b => symmetryFusingInfo le b f) f m b = some m' ∧ Conforms (legs.map fun b => (symmetryFusingInfo le b f).1) m' ∧ UniqueLabels m' ∧
      (∀ c ∈ m', c.1 = b.1.map f ∨ ∃ d ∈ m, c.1 = d.1) ∧
      ∀ x ∈ legIndices legs, entry m' (relabelAll (symmPlace le f) legs x) = entry m (relabelAll (symmPlace le f) legs x) + blockEntry b x := by
  obtain ⟨ws, h1, h2, h3, h4, h5, h6⟩ := symmSlices_spec le f hw hb
  set ns := List.zipWith (fun (g : SymmInfo H L) q => Counter.count g.1 q) (legs.map fun b => symmetryFusingInfo le b f) (b.1.map f) with hns
  set o := (Dict.get? m (b.1.map f)).getD (Arr.zeros ns) with ho
  have hsh : o.shape = ns := by
    rw [ho]
    cases e : Dict.get? m (b.1.map f) with
    | none => rfl
    | some a =>
      have := hm _ (Dict.mem_of_get? e)
      exact this.shape_unique h5
  set a : Arr K := ⟨o.shape, fun ix => if inSlices ws ix then o.get ix + b.2.get (List.zipWith (fun i (w : Nat × Nat) => i - w.1) ix ws) else o.get ix⟩ with ha
  have hadd : o.addAt b.2 ws = some a := by
    unfold Arr.addAt
    rw [if_pos]
    exact ⟨h2, by rw [hsh]; exact h3, by rw [hsh]; exact h4⟩
  have hstep : SpT.symmStep (legs.map fun b => symmetryFusingInfo le b f) f m b = some (Dict.set m (b.1.map f) a) := by
    unfold SpT.symmStep
    simp only [h1, Option.bind_some, ← hns, ← ho, hadd, Option.map_some]
  refine ⟨_, hstep, ?_, Dict.WF.set hu _ _, ?_, ?_⟩
  · intro c hc
    rcases mem_set hc with hc | rfl
    · exact hm c hc
    · show IsCombination _ (b.1.map f) o.shape
      rw [hsh]; exact h5
  · intro c hc
    rcases mem_set hc with hc | rfl
    · exact Or.inr ⟨c, hc, rfl⟩
    · exact Or.inl rfl
  · intro x hx
    obtain ⟨e1, e2⟩ := h6 x hx
    set y := relabelAll (symmPlace le f) legs x with hy
    set w : Arr K := ⟨ns, fun ix => if inSlices ws ix then b.2.get (List.zipWith (fun i (w : Nat × Nat) => i - w.1) ix ws) else 0⟩ with hwd
    have hbw : blockEntry (b.1.map f, w) y = blockEntry b x := by
      unfold blockEntry
      by_cases hc : b.1 = x.map Prod.fst ∧ inBox b.2.shape (x.map Prod.snd) = true
      · rw [if_pos hc]
        obtain ⟨c1, c2⟩ := e1.2 hc
        rw [if_pos ⟨c1, inSlices_inBox h3 h4 c2⟩]
        simp only [hwd, c2, if_true, e2 hc.1]
      · rw [if_neg hc]
        split
        · rename_i hc'
          have : inSlices ws (y.map Prod.snd) = false := by
            by_contra hn
            exact hc (e1.1 ⟨hc'.1, by simpa using hn⟩)
          simp [hwd, this]
        · rfl
    rw [← hbw]
    have hoa : blockEntry (b.1.map f, a) y = blockEntry (b.1.map f, o) y + blockEntry (b.1.map f, w) y := by
      unfold blockEntry
      simp only [ha, hwd, hsh]
      split_ifs <;> simp
    cases e : Dict.get? m (b.1.map f) with
    | some o' =>
      have : o = o' := by rw [ho, e]; rfl
      exact entry_replace m _ o' a w y e (by rw [← this]; exact hoa)
    | none =>
      have : o = Arr.zeros ns := by rw [ho, e]; rfl
      rw [entry_set m _ a y e, hoa, this]
      have : blockEntry (b.1.map f, (Arr.zeros ns : Arr K)) y = 0 := by unfold blockEntry Arr.zeros; split_ifs <;> rfl
      rw [this, zero_add]

theorem symmetryFuse_fold [AddCommMonoid K] (le : H → H → Bool) (f : H → L) {legs : List (BondInfo H)} (hw : ∀ b ∈ legs, Dict.WF b) (T : SpT H K) (hT : Conforms legs T)
    (m : SpT L K) (hm : Conforms (legs.map fun b => (symmetryFusingInfo le b f).1) m) (hu : UniqueLabels m) :
    ∃ R, T.foldlM (SpT.symmStep (legs.map fun b => symmetryFusingInfo le b f) f) m = some R ∧ Conforms (legs.map fun b => (symmetryFusingInfo le b f).1) R ∧ UniqueLabels R ∧
      (∀ c ∈ R, (∃ b ∈ T, c.1 = b.1.map f) ∨ ∃ d ∈ m, c.1 = d.1) ∧
      ∀ x ∈ legIndices legs, entry R (relabelAll (symmPlace le f) legs x) = entry m (relabelAll (symmPlace le f) legs x) + entry T x := by
  induction T generalizing m with
  | nil => exact ⟨m, rfl, hm, hu, fun c hc => Or.inr ⟨c, hc, rfl⟩, fun x _ => by simp⟩
  | cons b T ih =>
    obtain ⟨m', h1, h2, h3, h4, h5⟩ := symmStep_spec le f hw (hT b List.mem_cons_self) hm hu
    obtain ⟨R, r1, r2, r3, r4, r5⟩ := ih (fun c hc => hT c (List.mem_cons_of_mem _ hc)) m' h2 h3
    refine ⟨R, by simp only [List.foldlM_cons, h1]; exact r1, r2, r3, ?_, ?_⟩
    · intro c hc
      rcases r4 c hc with ⟨d, hd, e⟩ | ⟨d, hd, e⟩
      · exact Or.inl ⟨d, List.mem_cons_of_mem _ hd, e⟩
      · rcases h4 d hd with e' | ⟨d', hd', e'⟩
        · exact Or.inl ⟨b, List.mem_cons_self, by rw [e, e']⟩
        · exact Or.inr ⟨d', hd', by rw [e, e']⟩
    · intro x hx
      rw [r5 x hx, h5 x hx, entry_cons, add_assoc]

theorem symmetryFuse_spec [AddCommMonoid K] (le : H → H → Bool) (f : H → L) {legs : List (BondInfo H)} (hw : ∀ b ∈ legs, Dict.WF b) (T : SpT H K) (hT : Conforms legs T) :
    ∃ R, SpT.symmetryFuse T (legs.map fun b => symmetryFusingInfo le b f) f = some R ∧
      SameTensor (symmPlace le f) (fun b => (symmetryFusingInfo le b f).1) legs T R ∧ ∀ c ∈ R, ∃ b ∈ T, c.1 = b.1.map f := by
  obtain ⟨R, r1, r2, r3, r4, r5⟩ := symmetryFuse_fold le f hw T hT [] (by intro c hc; simp at hc) (by simp [UniqueLabels])
  refine ⟨R, r1, ⟨r2, r3, fun x hx => by rw [r5 x hx]; simp⟩, fun c hc => ?_⟩
  rcases r4 c hc with h | ⟨d, hd, _⟩
  · exact h
  · simp at hd

end
end Verif
