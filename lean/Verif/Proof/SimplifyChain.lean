import Verif.Proof.Simplify
import Mathlib.Algebra.Ring.Defs
import Mathlib.Algebra.BigOperators.Group.List.Lemmas

/-!
Lemmas for the simplification of symbolic matrix product operators: the product of the matrices stays the same, and the states that are left are used on both sides.
-/

set_option linter.unusedSectionVars false

namespace Verif
namespace Symbolic
variable {O α : Type} {R : Type} [Semiring R]

/-- The two tensors next to a bond after the simplification of the bond. -/
structure Bonded (idx : List Nat) (a b a' b' : Tensor O α) : Prop where
  nodup : idx.Nodup
  left : a'.cells.Perm (a.cells.filterMap (rekey false idx))
  right : b'.cells.Perm (b.cells.filterMap (rekey true idx))

theorem row_right {b b' : Tensor O α} {idx : List Nat} (h : b'.cells.Perm (b.cells.filterMap (rekey true idx))) (w : Nat → α → R) (i : Nat) (ts : List (Tensor O α)) {k : Nat} (hk : k ∈ idx) :
    chain w i (b' :: ts) (idx.idxOf k) = chain w i (b :: ts) k := by
  simp only [chain]
  rw [((h.filter _).map _).sum_eq]
  congr 1
  induction b.cells with
  | nil => rfl
  | cons c l ih =>
    obtain ⟨j, x⟩ := c
    rw [List.filterMap_cons]
    by_cases hj : j = k
    · subst hj
      have : rekey true idx (j, x) = some (idx.idxOf j, x) := by simp [rekey, key, hk]
      rw [this]
      simp only [List.filter_cons, decide_true, if_true, List.map_cons, ih]
    · by_cases hm : j ∈ idx
      · have : rekey true idx (j, x) = some (idx.idxOf j, x) := by simp [rekey, key, hm]
        rw [this]
        have hne : idx.idxOf j ≠ idx.idxOf k := fun e => hj ((List.idxOf_inj hm).1 e)
        simp only [List.filter_cons, hj, hne, decide_false, Bool.false_eq_true, if_false, ih]
      · have : rekey true idx (j, x) = none := by simp [rekey, key, hm]
        rw [this]
        simp only [List.filter_cons, hj, decide_false, Bool.false_eq_true, if_false, ih]

theorem chain_bond {idx : List Nat} {a b a' b' : Tensor O α} (h : Bonded idx a b a' b') (w : Nat → α → R) (i : Nat) (ts : List (Tensor O α))
    (hz : ∀ c ∈ a.cells, c.2.1 ∉ idx → chain w (i + 1) (b :: ts) c.2.1 = 0) (j : Nat) : chain w i (a' :: b' :: ts) j = chain w i (a :: b :: ts) j := by
  have hr : ∀ k ∈ idx, chain w (i + 1) (b' :: ts) (idx.idxOf k) = chain w (i + 1) (b :: ts) k := fun k hk => row_right h.right w (i + 1) ts hk
  rw [chain, chain, ((h.left.filter _).map _).sum_eq]
  generalize chain w (i + 1) (b' :: ts) = C' at *
  generalize chain w (i + 1) (b :: ts) = C at *
  have hc : ∀ c ∈ a.cells, c.2.1 ∉ idx → C c.2.1 = 0 := hz
  clear h hz
  generalize a.cells = l at hc ⊢
  induction l with
  | nil => rfl
  | cons c l ih =>
    have ih := ih fun c' h' => hc c' (List.mem_cons_of_mem _ h')
    have h0 := hc c (List.mem_cons_self ..)
    obtain ⟨j', k, x⟩ := c
    rw [List.filterMap_cons]
    by_cases hm : k ∈ idx
    · have : rekey false idx (j', k, x) = some (j', idx.idxOf k, x) := by simp [rekey, key, hm]
      rw [this]
      by_cases hj : j' = j
      · simp only [List.filter_cons, hj, decide_true, if_true, List.map_cons, List.sum_cons, ih, hr k hm]
      · simp only [List.filter_cons, hj, decide_false, Bool.false_eq_true, if_false, ih]
    · have : rekey false idx (j', k, x) = none := by simp [rekey, key, hm]
      rw [this]
      by_cases hj : j' = j
      · simp only [List.filter_cons, hj, decide_true, if_true, List.map_cons, List.sum_cons, ih, h0 hm, mul_zero, zero_add]
      · simp only [List.filter_cons, hj, decide_false, Bool.false_eq_true, if_false, ih]

theorem chain_prefix (w : Nat → α → R) (pre x y : List (Tensor O α)) (i : Nat) (h : ∀ j, chain w (i + pre.length) x j = chain w (i + pre.length) y j) (j : Nat) :
    chain w i (pre ++ x) j = chain w i (pre ++ y) j := by
  induction pre generalizing i j with
  | nil => simpa using h j
  | cons a l ih =>
    simp only [List.cons_append, chain]
    congr 1
    refine List.map_congr_left fun c _ => ?_
    rw [ih (i + 1)]
    intro j
    have := h j
    rwa [List.length_cons, show i + (l.length + 1) = i + 1 + l.length by omega] at this

theorem split_at {β : Type} (ts : List β) (i : Nat) (a b a' b' : β) (ha : ts[i]? = some a) (hb : ts[i + 1]? = some b) :
    ∃ pre post, pre.length = i ∧ ts = pre ++ a :: b :: post ∧ (ts.set i a').set (i + 1) b' = pre ++ a' :: b' :: post := by
  induction ts generalizing i with
  | nil => simp at ha
  | cons t ts ih =>
    cases i with
    | zero =>
      simp only [List.getElem?_cons_zero, Option.some.injEq] at ha
      subst ha
      cases ts with
      | nil => simp at hb
      | cons u ts =>
        simp only [zero_add, List.getElem?_cons_succ, List.getElem?_cons_zero, Option.some.injEq] at hb
        subst hb
        exact ⟨[], ts, rfl, rfl, rfl⟩
    | succ i =>
      obtain ⟨pre, post, h1, h2, h3⟩ := ih i (by simpa using ha) (by simpa using hb)
      exact ⟨t :: pre, post, by simp [h1], by rw [h2]; rfl, by simp [h3]⟩

/-! ### Invariants -/

theorem pick_forall₂ {β γ : Type} {L : β → γ → Prop} {l : List β} {r : List γ} (h : List.Forall₂ L l r) {idx : List Nat} {l' : List β} {r' : List γ} (hl : pick idx l = some l') (hr : pick idx r = some r') :
    List.Forall₂ L l' r' := by
  induction idx generalizing l' r' with
  | nil =>
    cases hl
    cases hr
    exact .nil
  | cons i t ih =>
    unfold pick at hl hr ih
    rw [List.mapM_cons] at hl hr
    cases h1 : l[i]? with
    | none => simp [h1] at hl
    | some x =>
      cases h2 : r[i]? with
      | none => simp [h2] at hr
      | some y =>
        cases h3 : t.mapM fun i => l[i]? with
        | none => simp [h1, h3] at hl
        | some xs =>
          cases h4 : t.mapM fun i => r[i]? with
          | none => simp [h2, h4] at hr
          | some ys =>
            simp only [h1, h3, Option.pure_def, Option.bind_eq_bind, Option.bind_some, Option.some.injEq] at hl
            simp only [h2, h4, Option.pure_def, Option.bind_eq_bind, Option.bind_some, Option.some.injEq] at hr
            subst hl hr
            refine .cons ?_ (ih h3 h4)
            obtain ⟨g1, rfl⟩ := List.getElem?_eq_some_iff.1 h1
            obtain ⟨g2, rfl⟩ := List.getElem?_eq_some_iff.1 h2
            exact h.get g1 g2

theorem pick_length {β : Type} {idx : List Nat} {l r : List β} (h : pick idx l = some r) : r.length = idx.length := by
  induction idx generalizing r with
  | nil =>
    cases h
    rfl
  | cons i t ih =>
    unfold pick at h ih
    rw [List.mapM_cons] at h
    cases h1 : l[i]? with
    | none => simp [h1] at h
    | some x =>
      cases h3 : t.mapM fun i => l[i]? with
      | none => simp [h1, h3] at h
      | some xs =>
        simp only [h1, h3, Option.pure_def, Option.bind_eq_bind, Option.bind_some, Option.some.injEq] at h
        subst h
        simp [ih h3]

/-- One bond: what is left of the two tensors next to it. -/
structure Step (idx : List Nat) (ts ts' : List (Tensor O α)) (i : Nat) (a b a' b' : Tensor O α) : Prop where
  ha : ts[i]? = some a
  hb : ts[i + 1]? = some b
  eq : ts' = (ts.set i a').set (i + 1) b'
  bonded : Bonded idx a b a' b'
  lopA : a'.lop = a.lop
  ropB : b'.rop = b.rop
  ropA : a'.rop.length = idx.length
  lopB : b'.lop.length = idx.length
  ropGet : ∀ k ∈ idx, a'.rop[idx.idxOf k]? = a.rop[k]?
  lopGet : ∀ k ∈ idx, b'.lop[idx.idxOf k]? = b.lop[k]?
  rowA : a'.IsRow ↔ a.IsRow
  rowB : b'.IsRow ↔ b.IsRow
  colA : a'.IsCol ↔ a.IsCol
  colB : b'.IsCol ↔ b.IsCol

theorem Step.get {idx : List Nat} {ts ts' : List (Tensor O α)} {i : Nat} {a b a' b' : Tensor O α} (h : Step idx ts ts' i a b a' b') (k : Nat) :
    ts'[k]? = if k = i then some a' else if k = i + 1 then some b' else ts[k]? := by
  obtain ⟨h1, -⟩ := List.getElem?_eq_some_iff.1 h.ha
  obtain ⟨h2, -⟩ := List.getElem?_eq_some_iff.1 h.hb
  rw [h.eq, List.getElem?_set, List.getElem?_set, List.length_set]
  by_cases e1 : k = i
  · subst e1
    rw [if_neg (by omega), if_pos rfl, if_pos h1, if_pos rfl]
  · by_cases e2 : k = i + 1
    · subst e2
      rw [if_pos rfl, if_pos h2, if_neg e1, if_pos rfl]
    · rw [if_neg (by omega), if_neg (by omega), if_neg e1, if_neg e2]

theorem Step.length {idx : List Nat} {ts ts' : List (Tensor O α)} {i : Nat} {a b a' b' : Tensor O α} (h : Step idx ts ts' i a b a' b') : ts'.length = ts.length := by
  rw [h.eq, List.length_set, List.length_set]

theorem bond_step {L : O → O → Prop} {ts : List (Tensor O α)} (hg : Good L ts) {i : Nat} {a b : Tensor O α} (ha : ts[i]? = some a) (hb : ts[i + 1]? = some b) {idx : List Nat} (hn : idx.Nodup)
    (hlt : ∀ k ∈ idx, k < a.rop.length) :
    ∃ a' b', a.simplify idx false = some a' ∧ b.simplify idx true = some b' ∧ Step idx ts ((ts.set i a').set (i + 1) b') i a b a' b' ∧ Good L ((ts.set i a').set (i + 1) b') := by
  have hlink := hg.link i a b ha hb
  have hlen := hlink.length_eq
  have hi : i + 1 < ts.length := (List.getElem?_eq_some_iff.1 hb).1
  obtain ⟨a', opsA, a1, a2, a3, a4, a5, a6, a7, a8⟩ := simplify_ok false (hg.fits a (List.mem_of_getElem? ha)) (by simp) (fun _ hc => by have := hg.col i a ha hc; omega) hn (by simpa using hlt)
  obtain ⟨b', opsB, b1, b2, b3, b4, b5, b6, b7, b8⟩ := simplify_ok true (hg.fits b (List.mem_of_getElem? hb)) (fun _ hc => by have := hg.row _ b hb hc; omega) (by simp) hn
    (by simpa [← hlen] using hlt)
  simp only [Bool.false_eq_true, if_false] at a2 a3 a4
  simp only [if_true] at b2 b3 b4
  have hl : ∀ {β : Type} (l : List β) r, pick idx l = some r → r.length = idx.length := by
    intro β l r h
    exact pick_length h
  have hget : ∀ {β : Type} (l r : List β), (∀ k ∈ idx, k < l.length) → pick idx l = some r → ∀ k ∈ idx, r[idx.idxOf k]? = l[k]? := by
    intro β l r h1 h2 k hk
    obtain ⟨r', h3, -, h4⟩ := pick_ok idx l h1
    rw [h2, Option.some.injEq] at h3
    subst h3
    exact h4 _ k (List.getElem?_idxOf hk)
  have hs : Step idx ts ((ts.set i a').set (i + 1) b') i a b a' b' :=
    ⟨ha, hb, rfl, ⟨hn, a8, b8⟩, a3, b4, by rw [a4]; exact hl _ _ a2, by rw [b3]; exact hl _ _ b2, by rw [a4]; exact hget _ _ hlt a2,
      by rw [b3]; exact hget _ _ (by rw [← hlen]; exact hlt) b2, a6, b6, a7, b7⟩
  refine ⟨a', b', a1, b1, hs, ?_, ?_, ?_, ?_⟩
  · intro t ht
    obtain ⟨k, hk⟩ := List.mem_iff_getElem?.1 ht
    rw [hs.get] at hk
    split_ifs at hk
    · cases hk; exact a5
    · cases hk; exact b5
    · exact hg.fits t (List.mem_of_getElem? hk)
  · intro k t hk hr
    rw [hs.get] at hk
    split_ifs at hk with h1 h2
    · cases hk; rw [h1]; exact hg.row i a ha (a6.1 hr)
    · cases hk; rw [h2]; exact hg.row _ b hb (b6.1 hr)
    · exact hg.row k t hk hr
  · intro k t hk hr
    rw [hs.length]
    rw [hs.get] at hk
    split_ifs at hk with h1 h2
    · cases hk; rw [h1]; exact hg.col i a ha (a7.1 hr)
    · cases hk; rw [h2]; exact hg.col _ b hb (b7.1 hr)
    · exact hg.col k t hk hr
  · intro k x y hx hy
    rw [hs.get] at hx hy
    by_cases e1 : k = i
    · subst e1
      rw [if_pos rfl, Option.some.injEq] at hx
      rw [if_neg (by omega), if_pos rfl, Option.some.injEq] at hy
      subst hx hy
      rw [a4, b3]
      exact pick_forall₂ hlink a2 b2
    · rw [if_neg e1] at hx
      rw [if_neg (by omega : ¬k + 1 = i + 1)] at hy
      by_cases e2 : k = i + 1
      · rw [if_pos e2, Option.some.injEq] at hx
        rw [if_neg (by omega)] at hy
        subst hx e2
        rw [b4]
        exact hg.link _ b y hb hy
      · rw [if_neg e2] at hx
        by_cases e3 : k + 1 = i
        · rw [if_pos e3, Option.some.injEq] at hy
          subst hy e3
          rw [a3]
          exact hg.link k x a hx ha
        · rw [if_neg e3] at hy
          exact hg.link k x y hx hy

/-! ### Sweeps -/

/-- `P` holds for the entries of the tensors and the operators of their rows and columns. -/
def AllCells (P : Nat → Option O → Option O → α → Prop) (ts : List (Tensor O α)) : Prop :=
  ∀ (i : Nat) (t : Tensor O α), ts[i]? = some t → ∀ c ∈ t.cells, P i t.lop[c.1]? t.rop[c.2.1]? c.2.2

/-- What the simplification does not change. -/
structure Same (ts ts' : List (Tensor O α)) : Prop where
  length : ts'.length = ts.length
  first : ∀ t t', ts[0]? = some t → ts'[0]? = some t' → t'.lop = t.lop
  last : ∀ (i : Nat) t t', i + 1 = ts.length → ts[i]? = some t → ts'[i]? = some t' → t'.rop = t.rop
  size : ∀ (i : Nat) t t', ts[i]? = some t → ts'[i]? = some t' → t'.rop.length ≤ t.rop.length
  row : ∀ (i : Nat) t t', ts[i]? = some t → ts'[i]? = some t' → (t'.IsRow ↔ t.IsRow)
  col : ∀ (i : Nat) t t', ts[i]? = some t → ts'[i]? = some t' → (t'.IsCol ↔ t.IsCol)
  all : ∀ P, AllCells P ts → AllCells P ts'
  chain : ∀ (R : Type) [Semiring R] (w : Nat → α → R) (j : Nat), chain w 0 ts' j = chain w 0 ts j

theorem get_of_length {β γ : Type} {l : List β} {l' : List γ} (h : l'.length = l.length) {i : Nat} {x : β} (hx : l[i]? = some x) : ∃ y, l'[i]? = some y :=
  ⟨_, List.getElem?_eq_getElem (by rw [h]; exact (List.getElem?_eq_some_iff.1 hx).1)⟩

theorem Same.refl (ts : List (Tensor O α)) : Same ts ts :=
  ⟨rfl, by rintro t t' h h'; rw [h] at h'; cases h'; rfl, by rintro i t t' _ h h'; rw [h] at h'; cases h'; rfl, by rintro i t t' h h'; rw [h] at h'; cases h'; rfl,
    by rintro i t t' h h'; rw [h] at h'; cases h'; rfl, by rintro i t t' h h'; rw [h] at h'; cases h'; rfl, fun _ h => h, fun _ _ _ _ => rfl⟩

theorem Same.trans {a b c : List (Tensor O α)} (h : Same a b) (h' : Same b c) : Same a c := by
  refine ⟨h'.length.trans h.length, ?_, ?_, ?_, ?_, ?_, fun P hp => h'.all P (h.all P hp), fun R _ w j => (h'.chain R w j).trans (h.chain R w j)⟩
  · intro t t' h1 h2
    obtain ⟨u, hu⟩ := get_of_length h.length h1
    rw [h'.first u t' hu h2, h.first t u h1 hu]
  · intro i t t' hi h1 h2
    obtain ⟨u, hu⟩ := get_of_length h.length h1
    rw [h'.last i u t' (by rw [h.length]; exact hi) hu h2, h.last i t u hi h1 hu]
  · intro i t t' h1 h2
    obtain ⟨u, hu⟩ := get_of_length h.length h1
    exact (h'.size i u t' hu h2).trans (h.size i t u h1 hu)
  · intro i t t' h1 h2
    obtain ⟨u, hu⟩ := get_of_length h.length h1
    exact (h'.row i u t' hu h2).trans (h.row i t u h1 hu)
  · intro i t t' h1 h2
    obtain ⟨u, hu⟩ := get_of_length h.length h1
    exact (h'.col i u t' hu h2).trans (h.col i t u h1 hu)

theorem mem_rekey {left : Bool} {idx : List Nat} {l : List (Nat × Nat × α)} {c : Nat × Nat × α} (h : c ∈ l.filterMap (rekey left idx)) :
    ∃ d ∈ l, key left d ∈ idx ∧ c = (if left then (idx.idxOf d.1, d.2) else (d.1, idx.idxOf d.2.1, d.2.2)) := by
  obtain ⟨d, h1, h2⟩ := List.mem_filterMap.1 h
  unfold rekey at h2
  by_cases hk : key left d ∈ idx
  · rw [if_pos hk, Option.some.injEq] at h2
    exact ⟨d, h1, hk, h2.symm⟩
  · rw [if_neg hk] at h2
    cases h2

theorem rekey_mem {left : Bool} {idx : List Nat} {l : List (Nat × Nat × α)} {d : Nat × Nat × α} (h : d ∈ l) (hk : key left d ∈ idx) :
    (if left then (idx.idxOf d.1, d.2) else (d.1, idx.idxOf d.2.1, d.2.2)) ∈ l.filterMap (rekey left idx) :=
  List.mem_filterMap.2 ⟨d, h, by rw [rekey, if_pos hk]⟩

variable {idx : List Nat} {ts ts' : List (Tensor O α)} {i : Nat} {a b a' b' : Tensor O α}

theorem Step.same (h : Step idx ts ts' i a b a' b') (hlt : ∀ k ∈ idx, k < a.rop.length)
    (hz : (∀ c ∈ a.cells, c.2.1 ∈ idx) ∨ ∀ c ∈ b.cells, c.1 ∈ idx) : Same ts ts' := by
  have hi : i + 1 < ts.length := (List.getElem?_eq_some_iff.1 h.hb).1
  have get := h.get
  have cases3 : ∀ {k : Nat} {t t' : Tensor O α}, ts[k]? = some t → ts'[k]? = some t' → (k = i ∧ t = a ∧ t' = a') ∨ (k = i + 1 ∧ t = b ∧ t' = b') ∨ (k ≠ i ∧ k ≠ i + 1 ∧ t' = t) := by
    intro k t t' h1 h2
    rw [get] at h2
    by_cases e1 : k = i
    · subst e1
      rw [if_pos rfl, Option.some.injEq] at h2
      rw [h.ha, Option.some.injEq] at h1
      exact Or.inl ⟨rfl, h1.symm, h2.symm⟩
    · rw [if_neg e1] at h2
      by_cases e2 : k = i + 1
      · subst e2
        rw [if_pos rfl, Option.some.injEq] at h2
        rw [h.hb, Option.some.injEq] at h1
        exact Or.inr (Or.inl ⟨rfl, h1.symm, h2.symm⟩)
      · rw [if_neg e2, h1, Option.some.injEq] at h2
        exact Or.inr (Or.inr ⟨e1, e2, h2.symm⟩)
  refine ⟨h.length, ?_, ?_, ?_, ?_, ?_, ?_, ?_⟩
  · intro t t' h1 h2
    rcases cases3 h1 h2 with ⟨-, rfl, rfl⟩ | ⟨h3, -⟩ | ⟨-, -, rfl⟩
    · exact h.lopA
    · omega
    · rfl
  · intro k t t' hk h1 h2
    rcases cases3 h1 h2 with ⟨h3, -⟩ | ⟨-, rfl, rfl⟩ | ⟨-, -, rfl⟩
    · omega
    · exact h.ropB
    · rfl
  · intro k t t' h1 h2
    rcases cases3 h1 h2 with ⟨-, rfl, rfl⟩ | ⟨-, rfl, rfl⟩ | ⟨-, -, rfl⟩
    · rw [h.ropA]
      have := (List.subperm_of_subset h.bonded.nodup (l₂ := List.range t.rop.length) fun k hk => List.mem_range.2 (hlt k hk)).length_le
      simpa using this
    · rw [h.ropB]
    · rfl
  · intro k t t' h1 h2
    rcases cases3 h1 h2 with ⟨-, rfl, rfl⟩ | ⟨-, rfl, rfl⟩ | ⟨-, -, rfl⟩
    · exact h.rowA
    · exact h.rowB
    · rfl
  · intro k t t' h1 h2
    rcases cases3 h1 h2 with ⟨-, rfl, rfl⟩ | ⟨-, rfl, rfl⟩ | ⟨-, -, rfl⟩
    · exact h.colA
    · exact h.colB
    · rfl
  · intro P hp k t' h2 c hc
    obtain ⟨t, h1⟩ := get_of_length h.length.symm h2
    rcases cases3 h1 h2 with ⟨-, rfl, rfl⟩ | ⟨-, rfl, rfl⟩ | ⟨-, -, rfl⟩
    · obtain ⟨d, hd, hk, rfl⟩ := mem_rekey (h.bonded.left.mem_iff.1 hc)
      have := hp k _ h1 d hd
      simp only [key, Bool.false_eq_true, if_false] at hk ⊢
      rwa [h.lopA, h.ropGet _ hk]
    · obtain ⟨d, hd, hk, rfl⟩ := mem_rekey (h.bonded.right.mem_iff.1 hc)
      have := hp k _ h1 d hd
      simp only [key, if_true] at hk ⊢
      rwa [h.ropB, h.lopGet _ hk]
    · exact hp k _ h1 c hc
  · intro R _ w j
    obtain ⟨pre, post, p1, p2, p3⟩ := split_at ts i a b a' b' h.ha h.hb
    rw [h.eq, p3]
    rw [p2]
    refine chain_prefix w pre _ _ 0 (fun j => chain_bond h.bonded w _ post ?_ j) j
    intro c hc hn
    rcases hz with hz | hz
    · exact absurd (hz c hc) hn
    · rw [Symbolic.chain, List.filter_eq_nil_iff.2, List.map_nil, List.sum_nil]
      intro d hd
      simp only [decide_eq_true_eq]
      intro e
      exact hn (e ▸ hz d hd)

theorem Step.colFull (h : Step idx ts ts' i a b a' b') (hk : ∀ k ∈ idx, ∃ c ∈ a.cells, c.2.1 = k) : a'.ColFull := by
  intro k hl
  rw [h.ropA] at hl
  obtain ⟨c, h1, h2⟩ := hk _ (List.getElem_mem hl)
  have := rekey_mem (left := false) (idx := idx) h1 (by simp [key, h2])
  simp only [Bool.false_eq_true, if_false] at this
  refine ⟨_, h.bonded.left.mem_iff.2 this, ?_⟩
  simp only [h2]
  exact h.bonded.nodup.idxOf_getElem _ _

theorem Step.rowFull (h : Step idx ts ts' i a b a' b') (hk : ∀ k ∈ idx, ∃ c ∈ b.cells, c.1 = k) : b'.RowFull := by
  intro k hl
  rw [h.lopB] at hl
  obtain ⟨c, h1, h2⟩ := hk _ (List.getElem_mem hl)
  have := rekey_mem (left := true) (idx := idx) h1 (by simp [key, h2])
  simp only [if_true] at this
  refine ⟨_, h.bonded.right.mem_iff.2 this, ?_⟩
  simp only [h2]
  exact h.bonded.nodup.idxOf_getElem _ _

theorem Step.colFull_right (h : Step idx ts ts' i a b a' b') (hz : ∀ c ∈ b.cells, c.1 ∈ idx) (hb : b.ColFull) : b'.ColFull := by
  intro k hk
  rw [h.ropB] at hk
  obtain ⟨c, h1, h2⟩ := hb k hk
  have := rekey_mem (left := true) (idx := idx) h1 (by simpa [key] using hz c h1)
  simp only [if_true] at this
  exact ⟨_, h.bonded.right.mem_iff.2 this, h2⟩

variable {L : O → O → Prop}

theorem right_ok (hg : Good L ts) (hi : i + 1 < ts.length) : ∃ ts', stepRight ts i = some ts' ∧ Good L ts' ∧ Same ts ts' ∧
    (∀ t, ts'[i]? = some t → t.ColFull) ∧ ∀ l, l < i → ts'[l]? = ts[l]? := by
  have ha := List.getElem?_eq_getElem (show i < ts.length by omega)
  have hb := List.getElem?_eq_getElem hi
  have hc : ¬(ts[i]).IsCol := fun h => by have := hg.col i _ ha h; omega
  have hm := fun k => mem_getRemap (t := ts[i]) (left := false) (by simp) (fun _ => hc) (k := k)
  have hlt : ∀ k ∈ (ts[i]).getRemap false, k < (ts[i]).rop.length := by
    intro k hk
    obtain ⟨c, h1, rfl⟩ := (hm k).1 hk
    exact (cells_lt (hg.fits _ (List.mem_of_getElem? ha)) h1).2
  obtain ⟨a', b', a1, b1, hs, hg'⟩ := bond_step hg ha hb (nodup_getRemap _ false) hlt
  refine ⟨_, ?_, hg', hs.same hlt (Or.inl fun c hc => (hm _).2 ⟨c, hc, rfl⟩), ?_, ?_⟩
  · rw [stepRight, ha, hb]
    simp only [Option.bind_some, a1, b1, Option.map_some]
  · intro t ht
    rw [hs.get, if_pos rfl, Option.some.injEq] at ht
    subst ht
    exact hs.colFull fun k hk => (hm k).1 hk
  · intro l hl
    rw [hs.get, if_neg (by omega), if_neg (by omega)]

theorem left_ok (hg : Good L ts) (hi : i + 1 < ts.length) (hcol : ∀ (l : Nat) t, ts[l]? = some t → l + 1 < ts.length → t.ColFull) : ∃ ts', stepLeft ts i = some ts' ∧ Good L ts' ∧ Same ts ts' ∧
    (∀ (l : Nat) t, ts'[l]? = some t → l + 1 < ts.length → t.ColFull) ∧ (∀ t, ts'[i + 1]? = some t → t.RowFull) ∧ ∀ l, i + 1 < l → ts'[l]? = ts[l]? := by
  have ha := List.getElem?_eq_getElem (show i < ts.length by omega)
  have hb := List.getElem?_eq_getElem hi
  have hc : ¬(ts[i + 1]).IsRow := fun h => by have := hg.row _ _ hb h; omega
  have hm := fun k => mem_getRemap (t := ts[i + 1]) (left := true) (fun _ => hc) (by simp) (k := k)
  have hlt : ∀ k ∈ (ts[i + 1]).getRemap true, k < (ts[i]).rop.length := by
    intro k hk
    obtain ⟨c, h1, rfl⟩ := (hm k).1 hk
    rw [(hg.link i _ _ ha hb).length_eq]
    exact (cells_lt (hg.fits _ (List.mem_of_getElem? hb)) h1).1
  obtain ⟨a', b', a1, b1, hs, hg'⟩ := bond_step hg ha hb (nodup_getRemap _ true) hlt
  have hz : ∀ c ∈ (ts[i + 1]).cells, c.1 ∈ (ts[i + 1]).getRemap true := fun c hc => (hm _).2 ⟨c, hc, rfl⟩
  refine ⟨_, ?_, hg', hs.same hlt (Or.inr hz), ?_, ?_, ?_⟩
  · rw [stepLeft, ha, hb]
    simp only [Option.bind_some, a1, b1, Option.map_some]
  · intro l t ht hl
    rw [hs.get] at ht
    by_cases e1 : l = i
    · rw [if_pos e1, Option.some.injEq] at ht
      subst ht
      exact hs.colFull fun k hk => hcol i _ ha hi k (hlt k hk)
    · rw [if_neg e1] at ht
      by_cases e2 : l = i + 1
      · rw [if_pos e2, Option.some.injEq] at ht
        subst ht e2
        exact hs.colFull_right hz (hcol _ _ hb hl)
      · rw [if_neg e2] at ht
        exact hcol l t ht hl
  · intro t ht
    rw [hs.get, if_neg (by omega), if_pos rfl, Option.some.injEq] at ht
    subst ht
    exact hs.rowFull fun k hk => (hm k).1 hk
  · intro l hl
    rw [hs.get, if_neg (by omega), if_neg (by omega)]

theorem sweep_right (hg : Good L ts) (n : Nat) (hn : n + 1 ≤ ts.length) : ∃ ts', (List.range n).foldlM stepRight ts = some ts' ∧ Good L ts' ∧ Same ts ts' ∧
    ∀ (l : Nat) t, ts'[l]? = some t → l < n → t.ColFull := by
  induction n with
  | zero => exact ⟨ts, rfl, hg, .refl _, by omega⟩
  | succ n ih =>
    obtain ⟨t1, h1, h2, h3, h4⟩ := ih (by omega)
    obtain ⟨t2, k1, k2, k3, k4, k5⟩ := right_ok h2 (i := n) (by rw [h3.length]; omega)
    refine ⟨t2, ?_, k2, h3.trans k3, ?_⟩
    · rw [List.range_succ, List.foldlM_append, h1]
      simp [k1]
    · intro l t ht hl
      by_cases e : l = n
      · subst e
        exact k4 t ht
      · rw [k5 l (by omega)] at ht
        exact h4 l t ht (by omega)

theorem sweep_left (hg : Good L ts) (hcol : ∀ (l : Nat) t, ts[l]? = some t → l + 1 < ts.length → t.ColFull) (n : Nat) (hn : n + 1 ≤ ts.length)
    (hrow : ∀ (l : Nat) t, ts[l]? = some t → n + 1 ≤ l → t.RowFull) : ∃ ts', (List.range n).reverse.foldlM stepLeft ts = some ts' ∧ Good L ts' ∧ Same ts ts' ∧
    (∀ (l : Nat) t, ts'[l]? = some t → l + 1 < ts.length → t.ColFull) ∧ ∀ (l : Nat) t, ts'[l]? = some t → 1 ≤ l → t.RowFull := by
  induction n generalizing ts with
  | zero => exact ⟨ts, rfl, hg, .refl _, hcol, fun l t ht hl => hrow l t ht (by omega)⟩
  | succ n ih =>
    obtain ⟨t1, k1, k2, k3, k4, k5, k6⟩ := left_ok hg (i := n) (by omega) hcol
    obtain ⟨t2, h1, h2, h3, h4, h5⟩ := ih k2 (by rw [k3.length]; exact k4) (by rw [k3.length]; omega) (by
      intro l t ht hl
      by_cases e : l = n + 1
      · subst e
        exact k5 t ht
      · rw [k6 l (by omega)] at ht
        exact hrow l t ht (by omega))
    refine ⟨t2, ?_, h2, k3.trans h3, by rw [k3.length] at h4; exact h4, h5⟩
    rw [List.range_succ, List.reverse_append]
    simp only [List.reverse_cons, List.reverse_nil, List.nil_append, List.cons_append, List.foldlM_cons, k1, Option.bind_eq_bind, Option.bind_some]
    exact h1

/-- The simplification of a matrix product operator. -/
theorem simplify_all (hg : Good L ts) : ∃ ts', simplifyMpo ts = some ts' ∧ Good L ts' ∧ Same ts ts' ∧
    (∀ (l : Nat) t, ts'[l]? = some t → l + 1 < ts.length → t.ColFull) ∧ ∀ (l : Nat) t, ts'[l]? = some t → 1 ≤ l → t.RowFull := by
  by_cases h0 : ts = []
  · subst h0
    exact ⟨[], rfl, hg, .refl _, by simp, by simp⟩
  · have hl : 0 < ts.length := List.length_pos_iff.2 h0
    obtain ⟨t1, h1, h2, h3, h4⟩ := sweep_right hg (ts.length - 1) (by omega)
    obtain ⟨t2, k1, k2, k3, k4, k5⟩ := sweep_left h2 (fun l t ht hl => h4 l t ht (by rw [h3.length] at hl; omega)) (ts.length - 1) (by rw [h3.length]; omega) (by
      intro l t ht hl
      have := (List.getElem?_eq_some_iff.1 ht).1
      rw [h3.length] at this
      omega)
    refine ⟨t2, ?_, k2, h3.trans k3, by rw [h3.length] at k4; exact k4, k5⟩
    rw [simplifyMpo, h1, Option.bind_some, k1]

end Symbolic
end Verif
