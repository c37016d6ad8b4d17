import Verif.Spec.TensorSvd
import Verif.Proof.FermSvd
import Verif.Thm.Fusing
import Verif.Thm.BondInfo

/-! Lemmas for `SparseTensor.tensor_svd`. -/

set_option linter.unusedSectionVars false

namespace Verif
namespace TSvd
open FermSplit BondFusingInfo
variable {Q K V : Type} [DecidableEq Q]

/-! ### Sorting -/

theorem insertBy_map {α β : Type} (le : β → β → Bool) (f : α → β) (x : α) (l : List α) :
    (insertBy (fun a b => le (f a) (f b)) x l).map f = insertBy le (f x) (l.map f) := by
  induction l with
  | nil => rfl
  | cons a l ih =>
    simp only [insertBy, List.map_cons]
    split
    · simp
    · simp [ih]

theorem sortBy_map {α β : Type} (le : β → β → Bool) (f : α → β) (l : List α) :
    (sortBy (fun a b => le (f a) (f b)) l).map f = sortBy le (l.map f) := by
  induction l with
  | nil => rfl
  | cons a l ih => simp only [sortBy, List.map_cons, insertBy_map, ih]

/-! ### Tables -/

/-- A table of `kron_sum` as a table of ranges. -/
def conv (mk : List Q → List Q) (t : FuseTable Q) : Places Q := t.map fun e => (mk e.1, (e.2.1, e.2.1 + e.2.2.prod, e.2.2))

theorem conv_wf {mk : List Q → List Q} (hmk : ∀ a b, mk a = mk b → a = b) {t : FuseTable Q} (h : Dict.WF t) : Dict.WF (conv mk t) := by
  unfold Dict.WF conv at *
  rw [List.map_map]
  have : (t.map (Prod.fst ∘ fun e : List Q × (Nat × List Nat) => (mk e.1, (e.2.1, e.2.1 + e.2.2.prod, e.2.2)))) = (t.map Prod.fst).map mk := by
    rw [List.map_map]; rfl
  rw [this]
  exact List.Nodup.map (fun a b => hmk a b) h

theorem conv_get {mk : List Q → List Q} (hmk : ∀ a b, mk a = mk b → a = b) (t : FuseTable Q) (k : List Q) :
    Dict.get? (conv mk t) (mk k) = (Dict.get? t k).map fun e => (e.1, e.1 + e.2.prod, e.2) := by
  induction t with
  | nil => rfl
  | cons a t ih =>
    obtain ⟨k', v⟩ := a
    simp only [conv, List.map_cons, Dict.get?_cons] at *
    by_cases h : k' = k
    · subst h; simp
    · rw [if_neg (fun e => h (hmk _ _ e)), if_neg h, ih]

theorem sumTable_tiled (mk : List Q → List Q) (l : List (List Q × List Nat)) (n : Nat) (t : FuseTable Q) (n' : Nat) (t' : FuseTable Q)
    (ht : Tiled 0 (conv mk t) n) (hw : Dict.WF t) (h : sumTable l n t = some (n', t')) : Tiled 0 (conv mk t') n' ∧ Dict.WF t' := by
  induction l generalizing n t with
  | nil =>
    simp only [sumTable, Option.some.injEq, Prod.mk.injEq] at h
    obtain ⟨rfl, rfl⟩ := h
    exact ⟨ht, hw⟩
  | cons x l ih =>
    obtain ⟨qs, sh⟩ := x
    simp only [sumTable] at h
    cases hg : Dict.get? t qs with
    | none =>
      rw [hg] at h
      refine ih _ _ ?_ (hw.set _ _) h
      rw [Dict.set_of_not_mem _ _ ((Dict.get?_eq_none_iff _ _).1 hg)]
      unfold conv at *
      rw [List.map_append]
      exact ht.snoc _ _
    | some e =>
      obtain ⟨k, s⟩ := e
      rw [hg] at h
      simp only at h
      split_ifs at h
      exact ih _ _ ht hw h

theorem sumTable_keys {leL : List Q → List Q → Bool} (hanti : ∀ a b, leL a b = true → leL b a = true → a = b) (l : List (List Q × List Nat)) (n : Nat)
    (t : FuseTable Q) (prev : Option (List Q)) (n' : Nat) (t' : FuseTable Q) (h : sumTable l n t = some (n', t'))
    (hprev : ∀ p ∈ prev, p ∈ t.map Prod.fst) (hk : ∀ k ∈ t.map Prod.fst, k ∈ l.map Prod.fst → prev = some k)
    (hs : (prev.toList ++ l.map Prod.fst).Pairwise fun a b => leL a b = true) : t'.map Prod.fst = t.map Prod.fst ++ SpT.skipRepeats prev (l.map Prod.fst) := by
  induction l generalizing n t prev with
  | nil =>
    simp only [sumTable, Option.some.injEq, Prod.mk.injEq] at h
    obtain ⟨rfl, rfl⟩ := h
    simp [SpT.skipRepeats]
  | cons x l ih =>
    obtain ⟨qs, sh⟩ := x
    simp only [sumTable] at h
    simp only [List.map_cons, SpT.skipRepeats]
    simp only [List.map_cons] at hs hk
    cases hg : Dict.get? t qs with
    | none =>
      rw [hg] at h
      have hn := (Dict.get?_eq_none_iff _ _).1 hg
      have hne : ¬ prev = some qs := fun e => hn (hprev qs (by rw [e]; rfl))
      rw [if_neg hne]
      have e1 : (Dict.set t qs (n, sh)).map Prod.fst = t.map Prod.fst ++ [qs] := by
        rw [Dict.set_of_not_mem _ _ hn]; simp
      have := ih _ _ (some qs) h (by intro p hp; cases hp; rw [e1]; simp) (by
        intro k hk1 hk2
        rw [e1, List.mem_append, List.mem_singleton] at hk1
        rcases hk1 with hk1 | rfl
        · have hp := hk k hk1 (List.mem_cons_of_mem _ hk2)
          subst hp
          simp only [Option.toList_some, List.singleton_append, List.pairwise_cons] at hs
          exact absurd (hanti k qs (hs.1 qs List.mem_cons_self) (hs.2.1 k hk2)) (fun e => hn (e ▸ hk1))
        · rfl) (by
        rw [List.pairwise_append] at hs
        simpa using hs.2.1)
      rw [this, e1]
      simp
    | some e =>
      obtain ⟨k, s⟩ := e
      rw [hg] at h
      simp only at h
      split_ifs at h
      have hp := hk qs (List.mem_map.2 ⟨_, Dict.mem_of_get? hg, rfl⟩) List.mem_cons_self
      rw [if_pos hp]
      refine ih _ _ prev h hprev (fun k h1 h2 => hk k h1 (List.mem_cons_of_mem _ h2)) ?_
      refine List.Pairwise.sublist ?_ hs
      exact List.Sublist.append (List.Sublist.refl _) (List.sublist_cons_self _ _)

section
variable [AddCommGroup Q]

/-- A list that is not empty. -/
def filled {α : Type} (l : List α) : Option (List α) := match l with
  | [] => none
  | a :: l => some (a :: l)

theorem filled_append {α : Type} (l : List α) (a : α) : filled (l ++ [a]) = some ((filled l).getD [] ++ [a]) := by
  cases l <;> rfl

theorem filled_cases {α : Type} (l : List α) : (l = [] ∧ filled l = none) ∨ (l ≠ [] ∧ filled l = some l) := by
  cases l
  · exact Or.inl ⟨rfl, rfl⟩
  · exact Or.inr ⟨by simp, rfl⟩

theorem collect_get (pattern : List Bool) (items : List (List Q × List Nat)) (q : Q) :
    Dict.get? (collect none pattern items) q = filled (items.filter fun it => decide (combine it.1 pattern = q)) := by
  have key : ∀ (rest done : List (List Q × List Nat)) (c : Dict Q (List (List Q × List Nat))),
      (∀ q, Dict.get? c q = filled (done.filter fun it => decide (combine it.1 pattern = q))) →
      ∀ q, Dict.get? (rest.foldl (fun c item =>
        let q := combine item.1 pattern
        if (none : Option (BondInfo Q)).all (fun r => Dict.has r q) then Dict.set c q ((Dict.get? c q).getD [] ++ [item]) else c) c) q =
        filled ((done ++ rest).filter fun it => decide (combine it.1 pattern = q)) := by
    intro rest
    induction rest with
    | nil => intro done c h q; rw [List.append_nil]; exact h q
    | cons a rest ih =>
      intro done c h q
      rw [List.foldl_cons, show done ++ a :: rest = (done ++ [a]) ++ rest by simp]
      refine ih _ _ ?_ q
      intro q'
      simp only [Option.all_none, if_true]
      rw [Dict.get?_set, List.filter_append]
      by_cases e : combine a.1 pattern = q'
      · subst e
        rw [if_pos rfl, h, List.filter_cons_of_pos (by simp), List.filter_nil, filled_append]
      · rw [if_neg e, h, List.filter_cons_of_neg (by simpa using e), List.filter_nil, List.append_nil]
  have := key items [] [] (by intro q; rfl) q
  simpa [collect] using this

/-- What `kron_sum` stores for one label. -/
theorem kronSum_table {leL : List Q → List Q → Bool} {items : List (List Q × List Nat)} {pattern : List Bool} {fi : BondFusingInfo Q}
    (h : kronSum leL items none pattern = some fi) (q : Q) :
    ((items.filter fun it => decide (combine it.1 pattern = q)) = [] ∧ Dict.get? fi.finfo q = none ∧ Counter.count fi.quanta q = 0) ∨
    ((items.filter fun it => decide (combine it.1 pattern = q)) ≠ [] ∧ ∃ t, Dict.get? fi.finfo q = some t ∧
      sumTable (sortBy (fun x y => leL x.1 y.1) (items.filter fun it => decide (combine it.1 pattern = q))) 0 [] = some (Counter.count fi.quanta q, t)) := by
  unfold kronSum at h
  split at h
  · simp at h
  · next st hst =>
    simp only [Option.some.injEq] at h
    subst h
    obtain ⟨hwf, _, _⟩ := collect_spec none pattern items
    have := sumTables_some leL _ _ st hwf (by simp) hst q
    rw [collect_get] at this
    rcases filled_cases (items.filter fun it => decide (combine it.1 pattern = q)) with ⟨e, e'⟩ | ⟨e, e'⟩
    · rw [e'] at this
      obtain ⟨h1, h2⟩ := this.1 rfl
      exact Or.inl ⟨e, by simpa using h1, by simpa using h2⟩
    · rw [e'] at this
      exact Or.inr ⟨e, this.2 _ rfl⟩

theorem kronSum_wf {leL : List Q → List Q → Bool} {items : List (List Q × List Nat)} {pattern : List Bool} {fi : BondFusingInfo Q}
    (h : kronSum leL items none pattern = some fi) : Dict.WF fi.quanta := by
  unfold kronSum at h
  split at h
  · simp at h
  · next st hst =>
    simp only [Option.some.injEq] at h
    subst h
    have key : ∀ (c : Dict Q (List (List Q × List Nat))) (st st' : BondInfo Q × Dict Q (FuseTable Q)), Dict.WF st.1 → sumTables leL c st = some st' → Dict.WF st'.1 := by
      intro c
      induction c with
      | nil =>
        intro st st' hw h
        simp only [sumTables, Option.some.injEq] at h
        exact h ▸ hw
      | cons x c ih =>
        intro st st' hw h
        obtain ⟨q0, v0⟩ := x
        simp only [sumTables] at h
        split at h
        · simp at h
        · exact ih _ _ (hw.set _ _) h
    exact key _ _ _ Dict.WF.nil hst

/-- What is used of a table of one label. -/
structure TableOf (leL : List Q → List Q → Bool) (mk : List Q → List Q) (its : List (List Q × List Nat)) (t : FuseTable Q) (R : Nat) : Prop where
  tiled : Tiled 0 (conv mk t) R
  wf : Dict.WF t
  keys : t.map Prod.fst = SpT.skipRepeats none (sortBy leL (its.map Prod.fst))
  mem : ∀ qs sh, (∃ k, Dict.get? t qs = some (k, sh)) ↔ (qs, sh) ∈ its

theorem tableOf {leL : List Q → List Q → Bool} (ho : IsOrder leL) (mk : List Q → List Q) {items : List (List Q × List Nat)} {pattern : List Bool}
    {fi : BondFusingInfo Q} (h : kronSum leL items none pattern = some fi) (q : Q) :
    TableOf leL mk (items.filter fun it => decide (combine it.1 pattern = q)) ((Dict.get? fi.finfo q).getD []) (Counter.count fi.quanta q) := by
  rcases kronSum_table h q with ⟨h1, h2, h3⟩ | ⟨h1, t, h2, h3⟩
  · rw [h1, h2, h3]
    exact ⟨.nil 0, Dict.WF.nil, rfl, by simp [Dict.get?]⟩
  · rw [h2, Option.getD_some]
    obtain ⟨a, b⟩ := sumTable_tiled mk _ 0 [] _ _ (.nil 0) Dict.WF.nil h3
    refine ⟨a, b, ?_, ?_⟩
    · have := sumTable_keys ho.antisymm _ 0 [] none _ _ h3 (by simp) (by simp) (by
        rw [sortBy_map leL Prod.fst]
        simp only [Option.toList_none, List.nil_append]
        exact sortBy_sorted leL ho.total ho.trans _)
      rw [this, sortBy_map leL Prod.fst]
      rfl
    · intro qs sh
      have := (sumTable_some _ 0 [] _ t Tiles.empty h3).2 qs sh
      rw [this, mem_sortBy]
      simp [Dict.get?]

theorem svdLeft_eq [Zero K] {leL : List Q → List Q → Bool} {q : Q} {its : List (List Q × List Nat)} {t : FuseTable Q} {R : Nat}
    (h : TableOf leL (· ++ [q]) its t R) (cols : Places Q) (d u : Arr K) :
    SpT.svdLeft leL q t (its.map Prod.fst) u = leftBlocks ⟨q, conv (· ++ [q]) t, cols, d⟩ u := by
  unfold SpT.svdLeft leftBlocks conv
  rw [← h.keys, List.map_map, List.map_map]
  apply List.map_congr_left
  intro e he
  simp only [Function.comp_apply]
  rw [Dict.get?_of_mem h.wf (k := e.1) (v := e.2) he]
  simp

theorem svdRight_eq [Zero K] {leL : List Q → List Q → Bool} {q : Q} {its : List (List Q × List Nat)} {t : FuseTable Q} {R : Nat}
    (h : TableOf leL (q :: ·) its t R) (rows : Places Q) (d v : Arr K) :
    SpT.svdRight leL q t (its.map Prod.fst) v = rightBlocks ⟨q, rows, conv (q :: ·) t, d⟩ v := by
  unfold SpT.svdRight rightBlocks conv
  rw [← h.keys, List.map_map, List.map_map]
  apply List.map_congr_left
  intro e he
  simp only [Function.comp_apply]
  rw [Dict.get?_of_mem h.wf (k := e.1) (v := e.2) he]
  simp

theorem stored_labels (real : K → K) (T : SpT Q K) : (stored real T).map Prod.fst = T.map Prod.fst := by
  unfold stored; rw [List.map_map]; rfl

theorem stored_conforms {legs : List (BondInfo Q)} {T : SpT Q K} (real : K → K) (h : Conforms legs T) : Conforms legs (stored real T) := by
  intro b hb
  obtain ⟨b', hb', rfl⟩ := List.mem_map.1 hb
  exact h b' hb'

theorem stored_unique {T : SpT Q K} (real : K → K) (h : UniqueLabels T) : UniqueLabels (stored real T) := by
  unfold UniqueLabels
  rw [stored_labels]
  exact h

theorem foldl_congr_mem {α β : Type} {f g : β → α → β} {l : List α} (h : ∀ a ∈ l, ∀ d, f d a = g d a) (d : β) : l.foldl f d = l.foldl g d := by
  induction l generalizing d with
  | nil => rfl
  | cons a l ih =>
    rw [List.foldl_cons, List.foldl_cons, h a List.mem_cons_self, ih fun b hb => h b (List.mem_cons_of_mem _ hb)]

theorem svdMatrix_eq [AddCommMonoid K] (real : K → K) {n R C : Nat} {q : Q} {rows cols : FuseTable Q} {bs : SpT Q K}
    (hr : ∀ b ∈ bs, ∃ k sh, Dict.get? rows (b.1.take n) = some (k, sh)) (hc : ∀ b ∈ bs, ∃ k sh, Dict.get? cols (b.1.drop n) = some (k, sh)) :
    SpT.svdMatrix real n R C rows cols bs = (stored real bs).foldl (fill n q (conv (· ++ [q]) rows) (conv (q :: ·) cols)) (Arr.zeros [R, C]) := by
  unfold SpT.svdMatrix stored
  rw [List.foldl_map]
  apply foldl_congr_mem
  intro b hb d
  obtain ⟨k, sh, h1⟩ := hr b hb
  obtain ⟨k', sh', h2⟩ := hc b hb
  have e1 : Dict.get? (conv (· ++ [q]) rows) (b.1.take n ++ [q]) = some (k, k + sh.prod, sh) := by
    rw [conv_get (mk := (· ++ [q])) (fun a b h => List.append_inj_left' h rfl), h1]; rfl
  have e2 : Dict.get? (conv (q :: ·) cols) (q :: b.1.drop n) = some (k', k' + sh'.prod, sh') := by
    rw [conv_get (mk := (q :: ·)) (fun a b h => (List.cons.inj h).2), h2]; rfl
  simp only [fill, e1, e2, h1, h2, Option.getD_some, Nat.add_sub_cancel_left]
  rfl

end

section main
variable [AddCommGroup Q] [AddCommMonoid K] {legsL legsR : List (BondInfo Q)} {patL patR : List Bool} {T : SpT Q K}

theorem signedSum_flip (p : List Bool) (l : List Q) : signedSum (p.map (!·)) l = - signedSum p l := by
  induction p generalizing l with
  | nil => simp [signedSum]
  | cons b p ih =>
    cases l with
    | nil => simp [signedSum]
    | cons a l =>
      have h1 : signedSum ((b :: p).map (!·)) (a :: l) = (if !b then a else -a) + signedSum (p.map (!·)) l := by simp [signedSum]
      have h2 : signedSum (b :: p) (a :: l) = (if b then a else -a) + signedSum p l := by simp [signedSum]
      rw [h1, h2, ih]
      cases b <;> simp [add_comm]

theorem Input.lenLeft (h : Input legsL legsR patL patR T) {b : List Q × Arr K} (hb : b ∈ T) : (b.1.take legsL.length).length = legsL.length := by
  rw [List.length_take, (h.conf b hb).lengths.1, List.length_append]
  omega

theorem Input.balance (h : Input legsL legsR patL patR T) {b : List Q × Arr K} (hb : b ∈ T) :
    combine (b.1.take legsL.length) patL = combine (b.1.drop legsL.length) (patR.map (!·)) := by
  rw [combine_eq, combine_eq, signedSum_flip]
  have := h.charge b hb
  rw [← List.take_append_drop legsL.length b.1, signedSum_append _ _ _ _ (by rw [h.lenL, h.lenLeft hb])] at this
  exact eq_neg_of_add_eq_zero_left this

theorem key_eq {p : List Bool} {l : List Q} (h : p.length = l.length) : leftLabel p l 0 = combine l p := by
  rw [leftLabel_eq _ _ _ h, combine_eq, sub_zero]

theorem Input.items_unique (h : Input legsL legsR patL patR T) (leL : List Q → List Q → Bool) :
    (∃ linfo, kronSum leL (T.map fun b => (b.1.take legsL.length, b.2.shape.take legsL.length)) none patL = some linfo) ∧
    ∃ rinfo, kronSum leL (T.map fun b => (b.1.drop legsL.length, b.2.shape.drop legsL.length)) none (patR.map (!·)) = some rinfo := by
  constructor
  · cases hk : kronSum leL (T.map fun b => (b.1.take legsL.length, b.2.shape.take legsL.length)) none patL with
    | some x => exact ⟨x, rfl⟩
    | none =>
      exfalso
      obtain ⟨qs, s, s', hne, h1, h2, _⟩ := (C09_reject_iff _ _ _ _).1 hk
      obtain ⟨b, hb, e⟩ := List.mem_map.1 h1
      obtain ⟨b', hb', e'⟩ := List.mem_map.1 h2
      simp only [Prod.mk.injEq] at e e'
      have a1 := (isCombination_split (h.conf b hb)).1
      have a2 := (isCombination_split (h.conf b' hb')).1
      rw [e.1, e.2] at a1
      rw [e'.1, e'.2] at a2
      exact hne (a1.shape_unique a2)
  · cases hk : kronSum leL (T.map fun b => (b.1.drop legsL.length, b.2.shape.drop legsL.length)) none (patR.map (!·)) with
    | some x => exact ⟨x, rfl⟩
    | none =>
      exfalso
      obtain ⟨qs, s, s', hne, h1, h2, _⟩ := (C09_reject_iff _ _ _ _).1 hk
      obtain ⟨b, hb, e⟩ := List.mem_map.1 h1
      obtain ⟨b', hb', e'⟩ := List.mem_map.1 h2
      simp only [Prod.mk.injEq] at e e'
      have a1 := (isCombination_split (h.conf b hb)).2
      have a2 := (isCombination_split (h.conf b' hb')).2
      rw [e.1, e.2] at a1
      rw [e'.1, e'.2] at a2
      exact hne (a1.shape_unique a2)

/-- The blocks with label `q` on the new leg. -/
def labelled (n : Nat) (patL : List Bool) (T : SpT Q K) (q : Q) : SpT Q K := T.filter fun b => decide (combine (b.1.take n) patL = q)

variable {leL : List Q → List Q → Bool} {linfo rinfo : BondFusingInfo Q}

/-- The sector of label `q`. -/
def sec (real : K → K) (n : Nat) (patL : List Bool) (T : SpT Q K) (linfo rinfo : BondFusingInfo Q) (q : Q) : Sector Q K :=
  ⟨q, conv (· ++ [q]) ((Dict.get? linfo.finfo q).getD []), conv (q :: ·) ((Dict.get? rinfo.finfo q).getD []),
    SpT.svdMatrix real n (Counter.count linfo.quanta q) (Counter.count rinfo.quanta q) ((Dict.get? linfo.finfo q).getD []) ((Dict.get? rinfo.finfo q).getD [])
      (labelled n patL T q)⟩

theorem leftTable (ho : IsOrder leL) (hl : kronSum leL (T.map fun b => (b.1.take legsL.length, b.2.shape.take legsL.length)) none patL = some linfo) (q : Q) :
    TableOf leL (· ++ [q]) ((labelled legsL.length patL T q).map fun b => (b.1.take legsL.length, b.2.shape.take legsL.length))
      ((Dict.get? linfo.finfo q).getD []) (Counter.count linfo.quanta q) := by
  have := tableOf ho (· ++ [q]) hl q
  rw [List.filter_map] at this
  exact this

theorem rightTable (h : Input legsL legsR patL patR T) (ho : IsOrder leL)
    (hr : kronSum leL (T.map fun b => (b.1.drop legsL.length, b.2.shape.drop legsL.length)) none (patR.map (!·)) = some rinfo) (q : Q) :
    TableOf leL (q :: ·) ((labelled legsL.length patL T q).map fun b => (b.1.drop legsL.length, b.2.shape.drop legsL.length))
      ((Dict.get? rinfo.finfo q).getD []) (Counter.count rinfo.quanta q) := by
  have := tableOf ho (q :: ·) hr q
  rw [List.filter_map] at this
  have e : T.filter ((fun it : List Q × List Nat => decide (combine it.1 (patR.map (!·)) = q)) ∘ fun b => (b.1.drop legsL.length, b.2.shape.drop legsL.length)) =
      labelled legsL.length patL T q := by
    unfold labelled
    apply List.filter_congr
    intro b hb
    simp only [Function.comp_apply]
    rw [h.balance hb]
  rwa [e] at this

theorem secOk (h : Input legsL legsR patL patR T) (ho : IsOrder leL) (real : K → K)
    (hl : kronSum leL (T.map fun b => (b.1.take legsL.length, b.2.shape.take legsL.length)) none patL = some linfo)
    (hr : kronSum leL (T.map fun b => (b.1.drop legsL.length, b.2.shape.drop legsL.length)) none (patR.map (!·)) = some rinfo) (q : Q) :
    SectorOk legsL legsR (fun l => leftLabel patL l 0) (stored real T) (sec real legsL.length patL T linfo rinfo q)
      (Counter.count linfo.quanta q) (Counter.count rinfo.quanta q) := by
  have tl := leftTable ho hl q
  have tr := rightTable h ho hr q
  have hmem : ∀ b ∈ labelled legsL.length patL T q, b ∈ T ∧ combine (b.1.take legsL.length) patL = q := by
    intro b hb
    obtain ⟨h1, h2⟩ := List.mem_filter.1 hb
    exact ⟨h1, by simpa using h2⟩
  have gl : ∀ b ∈ labelled legsL.length patL T q, ∃ k, Dict.get? ((Dict.get? linfo.finfo q).getD []) (b.1.take legsL.length) = some (k, b.2.shape.take legsL.length) :=
    fun b hb => (tl.mem _ _).2 (List.mem_map.2 ⟨b, hb, rfl⟩)
  have gr : ∀ b ∈ labelled legsL.length patL T q, ∃ k, Dict.get? ((Dict.get? rinfo.finfo q).getD []) (b.1.drop legsL.length) = some (k, b.2.shape.drop legsL.length) :=
    fun b hb => (tr.mem _ _).2 (List.mem_map.2 ⟨b, hb, rfl⟩)
  have hmat : (sec real legsL.length patL T linfo rinfo q).data = (stored real (labelled legsL.length patL T q)).foldl
      (fill legsL.length q (sec real legsL.length patL T linfo rinfo q).rows (sec real legsL.length patL T linfo rinfo q).cols)
      (Arr.zeros [Counter.count linfo.quanta q, Counter.count rinfo.quanta q]) :=
    svdMatrix_eq real (fun b hb => let ⟨k, hk⟩ := gl b hb; ⟨k, _, hk⟩) (fun b hb => let ⟨k, hk⟩ := gr b hb; ⟨k, _, hk⟩)
  have w1 : Dict.WF (sec real legsL.length patL T linfo rinfo q).rows := conv_wf (mk := (· ++ [q])) (fun a b h => List.append_inj_left' h rfl) tl.wf
  have w2 : Dict.WF (sec real legsL.length patL T linfo rinfo q).cols := conv_wf (mk := (q :: ·)) (fun a b h => (List.cons.inj h).2) tr.wf
  have g1 : ∀ b ∈ stored real (labelled legsL.length patL T q), ∃ p, Dict.get? (sec real legsL.length patL T linfo rinfo q).rows (b.1.take legsL.length ++ [q]) = some p ∧
      p.2.2 = b.2.shape.take legsL.length := by
    intro b hb
    obtain ⟨b', hb', rfl⟩ := List.mem_map.1 hb
    obtain ⟨k, hk⟩ := gl b' hb'
    refine ⟨(k, k + (b'.2.shape.take legsL.length).prod, b'.2.shape.take legsL.length), ?_, ?_⟩
    · exact (conv_get (mk := (· ++ [q])) (fun a b h => List.append_inj_left' h rfl) _ _).trans (by rw [hk]; rfl)
    · rfl
  have g2 : ∀ b ∈ stored real (labelled legsL.length patL T q), ∃ p, Dict.get? (sec real legsL.length patL T linfo rinfo q).cols (q :: b.1.drop legsL.length) = some p ∧
      p.2.2 = b.2.shape.drop legsL.length := by
    intro b hb
    obtain ⟨b', hb', rfl⟩ := List.mem_map.1 hb
    obtain ⟨k, hk⟩ := gr b' hb'
    refine ⟨(k, k + (b'.2.shape.drop legsL.length).prod, b'.2.shape.drop legsL.length), ?_, ?_⟩
    · exact (conv_get (mk := (q :: ·)) (fun a b h => (List.cons.inj h).2) _ _).trans (by rw [hk]; rfl)
    · rfl
  have hsub : Conforms (legsL ++ legsR) (labelled legsL.length patL T q) := fun b hb => h.conf b (hmem b hb).1
  have husub : UniqueLabels (labelled legsL.length patL T q) := List.Nodup.sublist (List.Sublist.map _ List.filter_sublist) h.uniq
  refine ⟨?_, tl.tiled, w1, tr.tiled, w2, ?_, ?_, ?_⟩
  · rw [hmat]
    exact fill_shape _ _ _ _ _ _
  · intro e he
    obtain ⟨e', he', rfl⟩ := List.mem_map.1 he
    have := (tl.mem e'.1 e'.2.2).1 ⟨e'.2.1, Dict.get?_of_mem tl.wf he'⟩
    obtain ⟨b, hb, hbe⟩ := List.mem_map.1 this
    simp only [Prod.mk.injEq] at hbe
    obtain ⟨hbT, hbq⟩ := hmem b hb
    refine ⟨(b.1, b.2.mapK real), List.mem_map.2 ⟨b, hbT, rfl⟩, ?_, ?_, ?_⟩
    · simp only
      rw [key_eq (by rw [h.lenL, h.lenLeft hbT])]
      exact hbq
    · simp only [hbe.1]
      rfl
    · simp only
      rw [← hbe.2]
      exact (isCombination_split (h.conf b hbT)).1
  · intro e he
    obtain ⟨e', he', rfl⟩ := List.mem_map.1 he
    have := (tr.mem e'.1 e'.2.2).1 ⟨e'.2.1, Dict.get?_of_mem tr.wf he'⟩
    obtain ⟨b, hb, hbe⟩ := List.mem_map.1 this
    simp only [Prod.mk.injEq] at hbe
    obtain ⟨hbT, hbq⟩ := hmem b hb
    refine ⟨(b.1, b.2.mapK real), List.mem_map.2 ⟨b, hbT, rfl⟩, ?_, ?_, ?_⟩
    · simp only
      rw [key_eq (by rw [h.lenL, h.lenLeft hbT])]
      exact hbq
    · simp only [hbe.1]
      rfl
    · simp only
      rw [← hbe.2]
      exact (isCombination_split (h.conf b hbT)).2
  · intro x y hx hk
    change leftLabel patL (x.map Prod.fst) 0 = q at hk
    rw [key_eq (by rw [h.lenL, List.length_map, hx])] at hk
    have e1 : entry (stored real T) (x ++ y) = entry (stored real (labelled legsL.length patL T q)) (x ++ y) := by
      rw [← entry_filter (fun l => combine (l.take legsL.length) patL) q (stored real T) (x ++ y) (by rw [(take_drop_map hx rfl).1]; exact hk)]
      unfold stored labelled
      rw [List.filter_map]
      rfl
    rw [e1, hmat]
    exact entry_fill (stored_conforms real hsub) (stored_unique real husub) tl.tiled w1 tr.tiled w2 g1 g2 hx

end main
end TSvd
end Verif
