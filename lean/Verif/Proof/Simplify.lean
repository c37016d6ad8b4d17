import Verif.Model.Simplify
import Verif.Spec.Simplify
import Verif.Proof.Dict
import Verif.Proof.Index
import Mathlib.Data.List.Induction

/-!
Lemmas for the simplification of symbolic matrix product operators: one tensor, one bond, one sweep.
-/

set_option linter.unusedSectionVars false

namespace Verif
namespace Symbolic
variable {O α : Type}

/-! ### Positions -/

theorem pick_ok {β : Type} (idx : List Nat) (l : List β) (h : ∀ i ∈ idx, i < l.length) :
    ∃ r, pick idx l = some r ∧ r.length = idx.length ∧ ∀ p i : Nat, idx[p]? = some i → r[p]? = l[i]? := by
  induction idx with
  | nil => exact ⟨[], rfl, rfl, by simp⟩
  | cons a t ih =>
    obtain ⟨r, h1, h2, h3⟩ := ih fun i hi => h i (List.mem_cons_of_mem _ hi)
    have ha := h a (List.mem_cons_self ..)
    refine ⟨l[a] :: r, ?_, by simp [h2], ?_⟩
    · unfold pick at h1 ⊢
      rw [List.mapM_cons, h1, List.getElem?_eq_getElem ha]
      rfl
    · intro p i hp
      cases p with
      | zero =>
        simp only [List.getElem?_cons_zero, Option.some.injEq] at hp
        subst hp
        simp [ha]
      | succ p => simpa using h3 p i (by simpa using hp)

theorem positions_get (idx : List Nat) (hn : idx.Nodup) (k : Nat) : Dict.get? (placeOf idx) k = if k ∈ idx then some (idx.idxOf k) else none := by
  induction idx using List.reverseRecOn with
  | nil => rfl
  | append_singleton t a ih =>
    have hn' := (List.nodup_append.1 hn).1
    have ha : a ∉ t := fun h => (List.nodup_append.1 hn).2.2 a h a (by simp) rfl
    have e : placeOf (t ++ [a]) = Dict.set (placeOf t) a t.length := by
      unfold placeOf
      rw [List.zipIdx_append, List.foldl_append]
      simp
    rw [e, Dict.get?_set, ih hn']
    by_cases h : a = k
    · subst h
      rw [if_pos rfl, if_pos (by simp), List.idxOf_append_of_notMem ha]
      simp
    · rw [if_neg h]
      by_cases hk : k ∈ t
      · rw [if_pos hk, if_pos (by simp [hk]), List.idxOf_append_of_mem hk]
      · rw [if_neg hk, if_neg (by simp [hk, Ne.symm h])]

/-! ### One tensor -/

/-- The place of an entry in the bond that is simplified. -/
def key (left : Bool) (c : Nat × Nat × α) : Nat := if left then c.1 else c.2.1

/-- The entry in its new place. -/
def rekey (left : Bool) (idx : List Nat) (c : Nat × Nat × α) : Option (Nat × Nat × α) :=
  if key left c ∈ idx then some (if left then (idx.idxOf c.1, c.2) else (c.1, idx.idxOf c.2.1, c.2.2)) else none

theorem mem_vec {d : List (Option α)} {β : Type} (f : Nat → α → β) {c : β} :
    c ∈ d.zipIdx.filterMap (fun p => p.1.map fun x => f p.2 x) ↔ ∃ k x, d[k]? = some (some x) ∧ f k x = c := by
  rw [List.mem_filterMap]
  constructor
  · rintro ⟨⟨a, k⟩, h, e⟩
    obtain ⟨x, rfl, e⟩ := Option.map_eq_some_iff.1 e
    exact ⟨k, x, List.mem_zipIdx_iff_getElem?.1 h, e⟩
  · rintro ⟨k, x, h, rfl⟩
    exact ⟨(some x, k), List.mem_zipIdx_iff_getElem?.2 h, rfl⟩

theorem nodup_vec (d : List (Option α)) {β : Type} (f : Nat → α → β) (hf : ∀ k x k' x', f k x = f k' x' → k = k' ∧ x = x') :
    (d.zipIdx.filterMap fun p => p.1.map fun x => f p.2 x).Nodup := by
  have hz : d.zipIdx.Nodup := by
    refine List.Nodup.of_map Prod.snd ?_
    rw [List.zipIdx_map_snd]
    exact List.nodup_range'
  refine hz.filterMap ?_
  rintro ⟨a, k⟩ ⟨a', k'⟩ b hb hb'
  obtain ⟨x, h1, h2⟩ := Option.map_eq_some_iff.1 (Option.mem_def.1 hb)
  obtain ⟨x', h3, h4⟩ := Option.map_eq_some_iff.1 (Option.mem_def.1 hb')
  simp only at h1 h2 h3 h4
  obtain ⟨h5, h6⟩ := hf _ _ _ _ (h2.trans h4.symm)
  simp [h1, h3, h5, h6]

theorem rekey_inj {left : Bool} {idx : List Nat} {c c' b : Nat × Nat × α} (h : rekey left idx c = some b) (h' : rekey left idx c' = some b) : c = c' := by
  unfold rekey at h h'
  by_cases h1 : key left c ∈ idx
  · by_cases h2 : key left c' ∈ idx
    · rw [if_pos h1] at h
      rw [if_pos h2] at h'
      obtain ⟨j, k, x⟩ := c
      obtain ⟨j', k', x'⟩ := c'
      cases left
      · simp only [key, Bool.false_eq_true, if_false, Option.some.injEq] at h h' h1 h2
        subst h
        simp only [Prod.mk.injEq] at h' ⊢
        exact ⟨h'.1.symm, (List.idxOf_inj h1).1 h'.2.1.symm, h'.2.2.symm⟩
      · simp only [key, if_true, Option.some.injEq] at h h' h1 h2
        subst h
        simp only [Prod.mk.injEq] at h' ⊢
        exact ⟨(List.idxOf_inj h1).1 h'.1.symm, h'.2.1.symm, h'.2.2.symm⟩
    · rw [if_neg h2] at h'
      cases h'
  · rw [if_neg h1] at h
    cases h

theorem vec_perm {d d' : List (Option α)} {idx : List Nat} (hn : idx.Nodup) (hlen : d'.length = idx.length) (hd : ∀ p i : Nat, idx[p]? = some i → d'[p]? = d[i]?) (left : Bool) (f : Nat → α → Nat × Nat × α)
    (hf : ∀ k x k' x', f k x = f k' x' → k = k' ∧ x = x') (hkey : ∀ k x, key left (f k x) = k) (hre : ∀ k x, k ∈ idx → rekey left idx (f k x) = some (f (idx.idxOf k) x)) :
    (d'.zipIdx.filterMap fun p => p.1.map fun x => f p.2 x).Perm ((d.zipIdx.filterMap fun p => p.1.map fun x => f p.2 x).filterMap (rekey left idx)) := by
  refine (List.perm_ext_iff_of_nodup (nodup_vec d' f hf) ((nodup_vec d f hf).filterMap fun a a' b h h' => rekey_inj h h')).2 fun c => ?_
  rw [mem_vec, List.mem_filterMap]
  constructor
  · rintro ⟨p, x, h, rfl⟩
    have hp : p < idx.length := by rw [← hlen]; exact (List.getElem?_eq_some_iff.1 h).1
    have hi := List.getElem?_eq_getElem hp
    rw [hd p _ hi] at h
    refine ⟨f idx[p] x, (mem_vec f).2 ⟨_, _, h, rfl⟩, ?_⟩
    rw [hre _ _ (List.getElem_mem hp), hn.idxOf_getElem]
  · rintro ⟨c', h, e⟩
    obtain ⟨k, x, h1, rfl⟩ := (mem_vec f).1 h
    have hk : k ∈ idx := by
      by_contra hk
      rw [rekey, if_neg (by rw [hkey]; exact hk)] at e
      cases e
    rw [hre _ _ hk, Option.some.injEq] at e
    refine ⟨_, x, ?_, e⟩
    rw [hd _ k (List.getElem?_idxOf hk), h1]

theorem simplify_ok (left : Bool) {t : Tensor O α} {idx : List Nat} (hf : t.Fits) (hrow : left = true → ¬t.IsRow) (hcol : left = false → ¬t.IsCol) (hn : idx.Nodup)
    (hlt : ∀ i ∈ idx, i < (if left then t.lop else t.rop).length) :
    ∃ t' ops, t.simplify idx left = some t' ∧ pick idx (if left then t.lop else t.rop) = some ops ∧ t'.lop = (if left then ops else t.lop) ∧ t'.rop = (if left then t.rop else ops) ∧
      t'.Fits ∧ (t'.IsRow ↔ t.IsRow) ∧ (t'.IsCol ↔ t.IsCol) ∧ t'.cells.Perm (t.cells.filterMap (rekey left idx)) := by
  obtain ⟨ops, h1, h2, -⟩ := pick_ok idx (if left then t.lop else t.rop) hlt
  obtain ⟨mat, lop, rop⟩ := t
  unfold Tensor.simplify
  simp only [h1, Option.bind_some]
  cases mat with
  | row d =>
    cases left with
    | true => exact absurd ⟨d, rfl⟩ (hrow rfl)
    | false =>
      simp only [Tensor.Fits, Bool.false_eq_true, if_false] at hf hlt h1 ⊢
      obtain ⟨d', k1, k2, k3⟩ := pick_ok idx d (by rw [hf.1]; exact hlt)
      rw [k1]
      refine ⟨⟨.row d', lop, ops⟩, ops, rfl, rfl, rfl, rfl, ⟨by rw [k2, h2], hf.2⟩, by simp [Tensor.IsRow], by simp [Tensor.IsCol], ?_⟩
      exact vec_perm hn k2 k3 false (fun k x => (0, k, x)) (by simp) (by simp [key]) (by simp +contextual [rekey, key])
  | col d =>
    cases left with
    | false => exact absurd ⟨d, rfl⟩ (hcol rfl)
    | true =>
      simp only [Tensor.Fits, if_true] at hf hlt h1 ⊢
      obtain ⟨d', k1, k2, k3⟩ := pick_ok idx d (by rw [hf.1]; exact hlt)
      rw [k1]
      refine ⟨⟨.col d', ops, rop⟩, ops, rfl, rfl, rfl, rfl, ⟨by rw [k2, h2], hf.2⟩, by simp [Tensor.IsRow], by simp [Tensor.IsCol], ?_⟩
      exact vec_perm hn k2 k3 true (fun k x => (k, 0, x)) (by simp) (by simp [key]) (by simp +contextual [rekey, key])
  | full nr nc es =>
    obtain ⟨f1, f2, f3⟩ := hf
    refine ⟨_, ops, rfl, rfl, rfl, rfl, ?_, ?_, ?_, ?_⟩
    · cases left
      · simp only [Tensor.Fits, Bool.false_eq_true, if_false, h2, true_and]
        refine ⟨f1, ?_⟩
        intro e he
        obtain ⟨e', h3, h4⟩ := List.mem_filterMap.1 he
        rw [positions_get _ hn] at h4
        split_ifs at h4 with h5
        · simp only [Option.map_some, Option.some.injEq] at h4
          subst h4
          exact ⟨(f3 e' h3).1, List.idxOf_lt_length_of_mem h5⟩
        · simp at h4
      · simp only [Tensor.Fits, if_true, h2, true_and]
        refine ⟨f2, ?_⟩
        intro e he
        obtain ⟨e', h3, h4⟩ := List.mem_filterMap.1 he
        rw [positions_get _ hn] at h4
        split_ifs at h4 with h5
        · simp only [Option.map_some, Option.some.injEq] at h4
          subst h4
          exact ⟨List.idxOf_lt_length_of_mem h5, (f3 e' h3).2⟩
        · simp at h4
    · cases left <;> simp [Tensor.IsRow]
    · cases left <;> simp [Tensor.IsCol]
    · cases left
      all_goals
        simp only [Tensor.cells, Bool.false_eq_true, if_false, if_true, List.filterMap_filterMap]
        rw [List.filterMap_congr]
        intro e _
        obtain ⟨⟨j, k⟩, x⟩ := e
        rw [positions_get _ hn]
        cases x with
        | none => split_ifs <;> rfl
        | some x => simp only [rekey, key, Option.map_some, Option.bind_some, Bool.false_eq_true, if_false, if_true]; split_ifs <;> rfl

theorem mem_getRemap {t : Tensor O α} {left : Bool} (hrow : left = true → ¬t.IsRow) (hcol : left = false → ¬t.IsCol) {k : Nat} :
    k ∈ t.getRemap left ↔ ∃ c ∈ t.cells, key left c = k := by
  obtain ⟨mat, lop, rop⟩ := t
  cases mat with
  | row d =>
    cases left with
    | true => exact absurd ⟨d, rfl⟩ (hrow rfl)
    | false =>
      simp only [Tensor.getRemap, Tensor.cells]
      constructor
      · intro h
        obtain ⟨⟨x, k'⟩, h1, h2⟩ := List.mem_filterMap.1 h
        cases x with
        | none => simp at h2
        | some x =>
          simp only [Option.isSome_some, if_true, Option.some.injEq] at h2
          subst h2
          exact ⟨(0, k', x), (mem_vec (fun k x => (0, k, x))).2 ⟨k', x, List.mem_zipIdx_iff_getElem?.1 h1, rfl⟩, rfl⟩
      · rintro ⟨c, h, rfl⟩
        obtain ⟨k, x, h1, rfl⟩ := (mem_vec (fun k x => (0, k, x))).1 h
        exact List.mem_filterMap.2 ⟨(some x, k), List.mem_zipIdx_iff_getElem?.2 h1, rfl⟩
  | col d =>
    cases left with
    | false => exact absurd ⟨d, rfl⟩ (hcol rfl)
    | true =>
      simp only [Tensor.getRemap, Tensor.cells]
      constructor
      · intro h
        obtain ⟨⟨x, k'⟩, h1, h2⟩ := List.mem_filterMap.1 h
        cases x with
        | none => simp at h2
        | some x =>
          simp only [Option.isSome_some, if_true, Option.some.injEq] at h2
          subst h2
          exact ⟨(k', 0, x), (mem_vec (fun k x => (k, 0, x))).2 ⟨k', x, List.mem_zipIdx_iff_getElem?.1 h1, rfl⟩, rfl⟩
      · rintro ⟨c, h, rfl⟩
        obtain ⟨k, x, h1, rfl⟩ := (mem_vec (fun k x => (k, 0, x))).1 h
        exact List.mem_filterMap.2 ⟨(some x, k), List.mem_zipIdx_iff_getElem?.2 h1, rfl⟩
  | full nr nc es =>
    simp only [Tensor.getRemap, Tensor.cells, (List.perm_insertionSort _ _).mem_iff, List.mem_dedup]
    constructor
    · intro h
      obtain ⟨⟨⟨i, j⟩, x⟩, h1, h2⟩ := List.mem_filterMap.1 h
      cases x with
      | none => simp at h2
      | some x =>
        simp only [Option.isSome_some, if_true, Option.some.injEq] at h2
        subst h2
        exact ⟨(i, j, x), List.mem_filterMap.2 ⟨_, h1, rfl⟩, rfl⟩
    · rintro ⟨c, h, rfl⟩
      obtain ⟨⟨⟨i, j⟩, x⟩, h1, h2⟩ := List.mem_filterMap.1 h
      cases x with
      | none => simp at h2
      | some x =>
        simp only [Option.map_some, Option.some.injEq] at h2
        subst h2
        exact List.mem_filterMap.2 ⟨_, h1, rfl⟩

theorem nodup_getRemap (t : Tensor O α) (left : Bool) : (t.getRemap left).Nodup := by
  have key : ∀ d : List (Option α), (d.zipIdx.filterMap fun p => if p.1.isSome then some p.2 else none).Nodup := by
    intro d
    have hs : ((d.zipIdx.filterMap fun p => if p.1.isSome then some p.2 else none)).Sublist (d.zipIdx.map Prod.snd) := by
      have : (d.zipIdx.filterMap fun p => if p.1.isSome then some p.2 else none) = (d.zipIdx.filter fun p => p.1.isSome).map Prod.snd := by
        induction d.zipIdx with
        | nil => rfl
        | cons a l ih => cases h : a.1.isSome <;> simp [h, ih]
      rw [this]
      exact (List.filter_sublist).map _
    refine hs.nodup ?_
    rw [List.zipIdx_map_snd]
    exact List.nodup_range'
  unfold Tensor.getRemap
  cases t.mat with
  | row d => exact key d
  | col d => exact key d
  | full nr nc es => exact (List.perm_insertionSort _ _).nodup_iff.2 (List.nodup_dedup _)

theorem cells_lt {t : Tensor O α} (hf : t.Fits) {c : Nat × Nat × α} (h : c ∈ t.cells) : c.1 < t.lop.length ∧ c.2.1 < t.rop.length := by
  obtain ⟨mat, lop, rop⟩ := t
  cases mat with
  | row d =>
    obtain ⟨k, x, h1, rfl⟩ := (mem_vec (fun k x => (0, k, x))).1 h
    have := (List.getElem?_eq_some_iff.1 h1).1
    obtain ⟨f1, f2⟩ := hf
    exact ⟨by simp only at f2 ⊢; omega, by simp only at f1 ⊢; omega⟩
  | col d =>
    obtain ⟨k, x, h1, rfl⟩ := (mem_vec (fun k x => (k, 0, x))).1 h
    have := (List.getElem?_eq_some_iff.1 h1).1
    obtain ⟨f1, f2⟩ := hf
    exact ⟨by simp only at f1 ⊢; omega, by simp only at f2 ⊢; omega⟩
  | full nr nc es =>
    obtain ⟨⟨⟨i, j⟩, x⟩, h1, h2⟩ := List.mem_filterMap.1 h
    obtain ⟨x', rfl, rfl⟩ := Option.map_eq_some_iff.1 h2
    obtain ⟨f1, f2, f3⟩ := hf
    obtain ⟨g1, g2⟩ := f3 _ h1
    exact ⟨by simpa [← f1] using g1, by simpa [← f2] using g2⟩

end Symbolic
end Verif
