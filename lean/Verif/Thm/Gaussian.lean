import Verif.Model.Gaussian
import Mathlib.Tactic.Ring
import Mathlib.Tactic.Linarith
import Mathlib.Algebra.BigOperators.Fin
import Mathlib.Algebra.BigOperators.Ring.Finset
import Mathlib.Data.List.Perm.Basic
import Mathlib.Data.List.Nodup

/-!
Properties C44 and C46: layers of a network of gates, energies of Gaussian states.
-/

set_option linter.unusedSectionVars false

namespace Verif.Gaussian
variable {α : Type} [DecidableEq α]

/-! ### Specification -/

/-- The gate number `i` of the network. -/
def gate (G : List (Gate α)) (i : Nat) : Gate α := G.getD i ⟨[], []⟩

/-- Gate `p` produces an input of gate `g`. -/
def Feeds (G : List (Gate α)) (p g : Nat) : Prop := p < G.length ∧ g < G.length ∧ ∃ x, x ∈ (gate G p).u ∧ x ∈ (gate G g).d

/-- Gate `g` belongs to layer number `k`. -/
def InLayer (layers : List (List Nat)) (k g : Nat) : Prop := ∃ l, layers[k]? = some l ∧ g ∈ l

/-- No gate feeds itself through any chain: the gates can be numbered so that numbers increase along the wires. -/
def Acyclic (G : List (Gate α)) : Prop := ∃ r : Nat → Nat, ∀ p g, Feeds G p g → r p < r g

/-- Every wire has at most one producer and at most one consumer. -/
structure Wired (G : List (Gate α)) : Prop where
  producers : (G.flatMap (·.u)).Nodup
  consumers : (G.flatMap (·.d)).Nodup

/-! ### Sets -/

theorem mem_setAdd (s : List α) (x y : α) : y ∈ setAdd s x ↔ y ∈ s ∨ y = x := by
  unfold setAdd
  split_ifs with h
  · constructor
    · exact Or.inl
    · rintro (h' | rfl)
      · exact h'
      · exact h
  · simp

theorem mem_addAll (l s : List α) (y : α) : y ∈ l.foldl setAdd s ↔ y ∈ s ∨ y ∈ l := by
  induction l generalizing s with
  | nil => simp
  | cons a t ih => rw [List.foldl_cons, ih, mem_setAdd, List.mem_cons, or_assoc]

theorem mem_discardAll (l s : List α) (y : α) :
    y ∈ l.foldl (fun s x => if x ∈ s then s.filter (· ≠ x) else s) s ↔ y ∈ s ∧ y ∉ l := by
  induction l generalizing s with
  | nil => simp
  | cons a t ih =>
    rw [List.foldl_cons, ih]
    have : (y ∈ if a ∈ s then s.filter (· ≠ a) else s) ↔ y ∈ s ∧ y ≠ a := by
      split_ifs with h
      · simp
      · constructor
        · intro hy
          exact ⟨hy, fun e => h (e ▸ hy)⟩
        · exact fun h => h.1
    rw [this, List.mem_cons, not_or, and_assoc]

theorem mem_initial (G : List (Gate α)) (y : α) :
    y ∈ initialIndices G ↔ (∃ g ∈ G, y ∈ g.d) ∧ ∀ g ∈ G, y ∉ g.u := by
  have h1 : ∀ (H : List (Gate α)) (s : List α), y ∈ H.foldl (fun s g => g.d.foldl setAdd s) s ↔ y ∈ s ∨ ∃ g ∈ H, y ∈ g.d := by
    intro H
    induction H with
    | nil => simp
    | cons a t ih =>
      intro s
      rw [List.foldl_cons, ih, mem_addAll]
      simp [or_assoc]
  have h2 : ∀ (H : List (Gate α)) (s : List α),
      y ∈ H.foldl (fun s g => g.u.foldl (fun s x => if x ∈ s then s.filter (· ≠ x) else s) s) s ↔ y ∈ s ∧ ∀ g ∈ H, y ∉ g.u := by
    intro H
    induction H with
    | nil => simp
    | cons a t ih =>
      intro s
      rw [List.foldl_cons, ih, mem_discardAll]
      simp [and_assoc]
  unfold initialIndices
  simp only
  rw [h2, h1]
  simp

theorem removeAll_spec (l s : List α) : (l.Nodup ∧ ∀ x ∈ l, x ∈ s) ↔ (l.foldlM setRemove s).isSome := by
  induction l generalizing s with
  | nil => simp
  | cons a t ih =>
    rw [List.foldlM_cons, show setRemove s a = if a ∈ s then some (s.filter (· ≠ a)) else none from rfl]
    by_cases h : a ∈ s
    · simp only [if_pos h, Option.bind_eq_bind, Option.bind_some]
      rw [← ih]
      simp only [List.nodup_cons, List.mem_cons, List.mem_filter, decide_eq_true_eq]
      constructor
      · rintro ⟨⟨h1, h2⟩, h3⟩
        exact ⟨h2, fun x hx => ⟨h3 x (Or.inr hx), fun e => h1 (e ▸ hx)⟩⟩
      · rintro ⟨h1, h2⟩
        refine ⟨⟨fun ha => (h2 a ha).2 rfl, h1⟩, ?_⟩
        rintro x (rfl | hx)
        · exact h
        · exact (h2 x hx).1
    · simp only [if_neg h, Option.bind_eq_bind, Option.bind_none, Option.isSome_none, Bool.false_eq_true, iff_false]
      rintro ⟨-, h2⟩
      exact h (h2 a (by simp))

theorem removeAll_mem (l s r : List α) (h : l.foldlM setRemove s = some r) (y : α) : y ∈ r ↔ y ∈ s ∧ y ∉ l := by
  induction l generalizing s with
  | nil =>
    simp only [List.foldlM_nil, Option.pure_def, Option.some.injEq] at h
    subst h; simp
  | cons a t ih =>
    rw [List.foldlM_cons, show setRemove s a = if a ∈ s then some (s.filter (· ≠ a)) else none from rfl] at h
    by_cases ha : a ∈ s
    · simp only [if_pos ha, Option.bind_eq_bind, Option.bind_some] at h
      have := ih _ h
      rw [this]
      simp [and_assoc]
    · simp [if_neg ha] at h

/-! ### One layer -/

/-- The gates whose inputs are all available. -/
def ready (G : List (Gate α)) (cur : List α) (its : Nat) : Bool := (gate G its).d.all fun ix => ix ∈ cur

/-- The loop body of `layerLoop`. -/
def layerBody (G : List (Gate α)) (cur : List α) (st : List Nat × List Nat × List α) (its : Nat) :
    Option (List Nat × List Nat × List α) :=
  let ts := G.getD its ⟨[], []⟩
  if ts.d.all (fun ix => ix ∈ cur) then
    (ts.d.foldlM setRemove st.2.2).map fun nx => (st.1 ++ [its], st.2.1, ts.u.foldl setAdd nx)
  else some (st.1, st.2.1 ++ [its], st.2.2)

theorem layerLoop_eq (G : List (Gate α)) (cur : List α) (todo : List Nat) :
    layerLoop G cur todo = todo.foldlM (layerBody G cur) ([], [], cur) := rfl

/-- A successful pass splits the gates into the ready ones and the others, and its new wires come from the ready gates. -/
theorem layerLoop_ok (G : List (Gate α)) (cur : List α) (todo : List Nat) :
    ∀ st r, todo.foldlM (layerBody G cur) st = some r →
      r.1 = st.1 ++ todo.filter (ready G cur) ∧ r.2.1 = st.2.1 ++ todo.filter (fun i => !ready G cur i) ∧
      (∀ x ∈ r.2.2, x ∈ st.2.2 ∨ ∃ i ∈ todo, ready G cur i = true ∧ x ∈ (gate G i).u) := by
  induction todo with
  | nil =>
    intro st r h
    simp only [List.foldlM_nil, Option.pure_def, Option.some.injEq] at h
    subst h
    simp
  | cons i t ih =>
    intro st r h
    rw [List.foldlM_cons] at h
    cases hb : layerBody G cur st i with
    | none => rw [hb] at h; simp at h
    | some st' =>
      rw [hb] at h
      simp only [Option.bind_eq_bind, Option.bind_some] at h
      obtain ⟨h1, h2, h3⟩ := ih st' r h
      unfold layerBody at hb
      simp only at hb
      by_cases hr : ready G cur i = true
      · have hr' : ((G.getD i ⟨[], []⟩).d.all fun ix => decide (ix ∈ cur)) = true := hr
        rw [if_pos hr'] at hb
        obtain ⟨nx, hnx, hst⟩ := Option.map_eq_some_iff.1 hb
        subst hst
        refine ⟨by rw [h1]; simp [List.filter_cons, hr], by rw [h2]; simp [List.filter_cons, hr], ?_⟩
        intro x hx
        rcases h3 x hx with hx | ⟨j, hj, hj'⟩
        · rcases (mem_addAll _ _ _).1 hx with hx | hx
          · exact Or.inl ((removeAll_mem _ _ _ hnx x).1 hx).1
          · exact Or.inr ⟨i, by simp, hr, hx⟩
        · exact Or.inr ⟨j, by simp [hj], hj'⟩
      · have hr' : ¬ ((G.getD i ⟨[], []⟩).d.all fun ix => decide (ix ∈ cur)) = true := hr
        rw [if_neg hr'] at hb
        simp only [Option.some.injEq] at hb
        subst hb
        have hr'' : ready G cur i = false := by simpa using hr
        refine ⟨by rw [h1]; simp [List.filter_cons, hr''], by rw [h2]; simp [List.filter_cons, hr''], ?_⟩
        intro x hx
        rcases h3 x hx with hx | ⟨j, hj, hj'⟩
        · exact Or.inl hx
        · exact Or.inr ⟨j, by simp [hj], hj'⟩

/-! ### Soundness -/

theorem inLayer_append (L : List (List Nat)) (l : List Nat) (k g : Nat) :
    InLayer (L ++ [l]) k g ↔ InLayer L k g ∨ (k = L.length ∧ g ∈ l) := by
  unfold InLayer
  rcases Nat.lt_trichotomy k L.length with h | h | h
  · rw [List.getElem?_append_left h]
    constructor
    · exact Or.inl
    · rintro (h' | ⟨rfl, -⟩)
      · exact h'
      · omega
  · subst h
    simp
  · rw [List.getElem?_eq_none (by simp; omega), List.getElem?_eq_none (by omega)]
    simp; omega

theorem mem_flatten_iff (L : List (List Nat)) (g : Nat) : g ∈ L.flatten ↔ ∃ k, InLayer L k g := by
  rw [List.mem_flatten]
  constructor
  · rintro ⟨l, hl, hg⟩
    obtain ⟨k, hk⟩ := List.mem_iff_getElem?.1 hl
    exact ⟨k, l, hk, hg⟩
  · rintro ⟨k, l, hk, hg⟩
    exact ⟨l, List.mem_iff_getElem?.2 ⟨k, hk⟩, hg⟩

/-- Gates in the layers so far, the remaining gates and the wires in hand. -/
structure Inv (G : List (Gate α)) (cur : List α) (todo : List Nat) (L : List (List Nat)) : Prop where
  perm : (L.flatten ++ todo).Perm (List.range G.length)
  have_ : ∀ x ∈ cur, (∀ g ∈ G, x ∉ g.u) ∨ ∃ p ∈ L.flatten, x ∈ (gate G p).u
  order : ∀ k g, InLayer L k g → ∀ x ∈ (gate G g).d, (∀ g ∈ G, x ∉ g.u) ∨ ∃ p j, j < k ∧ InLayer L j p ∧ x ∈ (gate G p).u

theorem Inv.step {G : List (Gate α)} {cur : List α} {todo : List Nat} {L : List (List Nat)} (h : Inv G cur todo L)
    {layer rest : List Nat} {nx : List α} (hl : layerLoop G cur todo = some (layer, rest, nx)) :
    Inv G nx rest (L ++ [layer]) := by
  obtain ⟨h1, h2, h3⟩ := layerLoop_ok G cur todo _ _ (layerLoop_eq G cur todo ▸ hl)
  simp only [List.nil_append] at h1 h2 h3
  refine ⟨?_, ?_, ?_⟩
  · have hp : (layer ++ rest).Perm todo := by
      rw [h1, h2]
      exact List.filter_append_perm _ _
    rw [List.flatten_append, List.flatten_singleton, List.append_assoc]
    exact (hp.append_left _).trans h.perm
  · intro x hx
    rcases h3 x hx with hx | ⟨i, hi, hr, hx⟩
    · rcases h.have_ x hx with h' | ⟨p, hp, hx⟩
      · exact Or.inl h'
      · exact Or.inr ⟨p, by simp [hp], hx⟩
    · refine Or.inr ⟨i, ?_, hx⟩
      rw [List.flatten_append, List.flatten_singleton, List.mem_append, h1]
      exact Or.inr (List.mem_filter.2 ⟨hi, hr⟩)
  · intro k g hg x hx
    rcases (inLayer_append _ _ _ _).1 hg with hg | ⟨rfl, hg'⟩
    · rcases h.order k g hg x hx with h' | ⟨p, j, hj, hp, hx⟩
      · exact Or.inl h'
      · exact Or.inr ⟨p, j, hj, (inLayer_append _ _ _ _).2 (Or.inl hp), hx⟩
    · rw [h1] at hg'
      have hr := (List.mem_filter.1 hg').2
      have hc : x ∈ cur := by
        have := List.all_eq_true.1 hr x hx
        simpa using this
      rcases h.have_ x hc with h' | ⟨p, hp, hx⟩
      · exact Or.inl h'
      · obtain ⟨j, hj⟩ := (mem_flatten_iff _ _).1 hp
        refine Or.inr ⟨p, j, ?_, (inLayer_append _ _ _ _).2 (Or.inl hj), hx⟩
        obtain ⟨l, hl, -⟩ := hj
        exact (List.getElem?_eq_some_iff.1 hl).1

theorem Inv.initial (G : List (Gate α)) : Inv G (initialIndices G) (List.range G.length) [] where
  perm := by simp
  have_ := fun x hx => Or.inl ((mem_initial G x).1 hx).2
  order := by
    rintro k g ⟨l, hl, -⟩
    simp at hl

theorem loop_inv (G : List (Gate α)) (fuel : Nat) : ∀ cur todo L layers, Inv G cur todo L →
    layersLoop G fuel cur todo L = .ok layers → ∃ nx, Inv G nx [] layers := by
  induction fuel with
  | zero => intro cur todo L layers _ h; simp [layersLoop] at h
  | succ n ih =>
    intro cur todo L layers hI h
    unfold layersLoop at h
    cases hl : layerLoop G cur todo with
    | none => rw [hl] at h; simp at h
    | some r =>
      obtain ⟨layer, rest, nx⟩ := r
      rw [hl] at h
      simp only at h
      have hs := hI.step hl
      by_cases hr : rest = []
      · rw [if_pos hr] at h
        injection h with h
        subst h hr
        exact ⟨nx, hs⟩
      · rw [if_neg hr] at h
        exact ih _ _ _ _ hs h

/-- C44: if `get_layers` returns, the layers contain every gate exactly once. -/
theorem C44_each_once (G : List (Gate α)) (fuel : Nat) (layers : List (List Nat)) (h : getLayers G fuel = .ok layers) :
    layers.flatten.Perm (List.range G.length) := by
  obtain ⟨nx, hI⟩ := loop_inv G fuel _ _ _ _ (Inv.initial G) h
  simpa using hI.perm

theorem gate_eq {G : List (Gate α)} {i : Nat} (h : i < G.length) : gate G i = G[i] := by
  simp [gate, h]

theorem gate_mem {G : List (Gate α)} {i : Nat} (h : i < G.length) : gate G i ∈ G := by
  rw [gate_eq h]
  exact List.getElem_mem h

theorem producer_unique {G : List (Gate α)} (hW : Wired G) {p q : Nat} (hp : p < G.length) (hq : q < G.length) {x : α}
    (hxp : x ∈ (gate G p).u) (hxq : x ∈ (gate G q).u) : p = q := by
  have := (List.nodup_flatMap.1 hW.producers).2
  by_contra hne
  rw [gate_eq hp] at hxp
  rw [gate_eq hq] at hxq
  rcases Nat.lt_or_gt_of_ne hne with h | h
  · exact List.pairwise_iff_getElem.1 this p q hp hq h hxp hxq
  · exact List.pairwise_iff_getElem.1 this q p hq hp h hxq hxp

theorem consumer_unique {G : List (Gate α)} (hW : Wired G) {p q : Nat} (hp : p < G.length) (hq : q < G.length) {x : α}
    (hxp : x ∈ (gate G p).d) (hxq : x ∈ (gate G q).d) : p = q := by
  have := (List.nodup_flatMap.1 hW.consumers).2
  by_contra hne
  rw [gate_eq hp] at hxp
  rw [gate_eq hq] at hxq
  rcases Nat.lt_or_gt_of_ne hne with h | h
  · exact List.pairwise_iff_getElem.1 this p q hp hq h hxp hxq
  · exact List.pairwise_iff_getElem.1 this q p hq hp h hxq hxp

/-- C44: if `get_layers` returns, every gate lies in a later layer than all gates that produce its inputs.  (Each wire has one
producer.) -/
theorem C44_order (G : List (Gate α)) (hW : (G.flatMap (·.u)).Nodup) (fuel : Nat) (layers : List (List Nat))
    (h : getLayers G fuel = .ok layers) (k p g : Nat) (hf : Feeds G p g) (hg : InLayer layers k g) :
    ∃ j, j < k ∧ InLayer layers j p := by
  obtain ⟨nx, hI⟩ := loop_inv G fuel _ _ _ _ (Inv.initial G) h
  obtain ⟨hp, hgl, x, hxu, hxd⟩ := hf
  rcases hI.order k g hg x hxd with h' | ⟨q, j, hj, hq, hx⟩
  · exact absurd hxu (h' _ (gate_mem hp))
  · have hql : q < G.length := by
      have := (C44_each_once G fuel layers h).mem_iff.1 ((mem_flatten_iff _ _).2 ⟨j, hq⟩)
      simpa using this
    have : q = p := by
      have := (List.nodup_flatMap.1 hW).2
      by_contra hne
      rw [gate_eq hql] at hx
      rw [gate_eq hp] at hxu
      rcases Nat.lt_or_gt_of_ne hne with h | h
      · exact List.pairwise_iff_getElem.1 this q p hql hp h hx hxu
      · exact List.pairwise_iff_getElem.1 this p q hp hql h hxu hx
    subst this
    exact ⟨j, hj, hq⟩

/-! ### Termination -/

/-- One pass over gates that do not compete for wires does not fail, and its wires are those in hand, less the inputs and plus
the outputs of the ready gates. -/
theorem layerLoop_total (G : List (Gate α)) (cur : List α) (todo : List Nat) :
    ∀ st : List Nat × List Nat × List α, (∀ i ∈ todo, (gate G i).d.Nodup) →
      todo.Pairwise (fun i j => ∀ x ∈ (gate G i).d, x ∉ (gate G j).d) →
      (∀ i ∈ todo, ∀ j ∈ todo, ready G cur i = true → ready G cur j = true → ∀ x ∈ (gate G i).u, x ∉ (gate G j).d) →
      (∀ i ∈ todo, ready G cur i = true → ∀ x ∈ (gate G i).d, x ∈ st.2.2) →
      ∃ r, todo.foldlM (layerBody G cur) st = some r ∧
        ∀ x, x ∈ r.2.2 ↔ (x ∈ st.2.2 ∧ ∀ i ∈ todo, ready G cur i = true → x ∉ (gate G i).d) ∨
          ∃ i ∈ todo, ready G cur i = true ∧ x ∈ (gate G i).u := by
  induction todo with
  | nil => intro st _ _ _ _; exact ⟨st, rfl, by simp⟩
  | cons i t ih =>
    intro st hn hp hud hin
    rw [List.pairwise_cons] at hp
    have hn' : ∀ j ∈ t, (gate G j).d.Nodup := fun j hj => hn j (by simp [hj])
    have hud' : ∀ a ∈ t, ∀ b ∈ t, ready G cur a = true → ready G cur b = true → ∀ x ∈ (gate G a).u, x ∉ (gate G b).d :=
      fun a ha b hb => hud a (by simp [ha]) b (by simp [hb])
    by_cases hr : ready G cur i = true
    · have hr' : ((G.getD i ⟨[], []⟩).d.all fun ix => decide (ix ∈ cur)) = true := hr
      have hsome := (removeAll_spec (gate G i).d st.2.2).1 ⟨hn i (by simp), hin i (by simp) hr⟩
      obtain ⟨nx, hnx⟩ := Option.isSome_iff_exists.1 hsome
      have hmem := removeAll_mem _ _ _ hnx
      have hb : layerBody G cur st i = some (st.1 ++ [i], st.2.1, (gate G i).u.foldl setAdd nx) := by
        unfold layerBody
        simp only
        rw [if_pos hr']
        change Option.map _ ((gate G i).d.foldlM setRemove st.2.2) = _
        rw [hnx]
        rfl
      have hin' : ∀ j ∈ t, ready G cur j = true → ∀ x ∈ (gate G j).d, x ∈ (gate G i).u.foldl setAdd nx := by
        intro j hj hrj x hx
        rw [mem_addAll, hmem]
        exact Or.inl ⟨hin j (by simp [hj]) hrj x hx, fun hx' => hp.1 j hj x hx' hx⟩
      obtain ⟨r, h1, h2⟩ := ih (st.1 ++ [i], st.2.1, (gate G i).u.foldl setAdd nx) hn' hp.2 hud' hin'
      refine ⟨r, ?_, ?_⟩
      · rw [List.foldlM_cons, hb]
        exact h1
      · intro x
        rw [h2]
        simp only
        rw [mem_addAll, hmem]
        constructor
        · rintro (⟨⟨h3, h4⟩ | h3, h5⟩ | ⟨j, hj, h3⟩)
          · refine Or.inl ⟨h3, ?_⟩
            intro j hj hrj
            rcases List.mem_cons.1 hj with rfl | hj
            · exact h4
            · exact h5 j hj hrj
          · exact Or.inr ⟨i, by simp, hr, h3⟩
          · exact Or.inr ⟨j, by simp [hj], h3⟩
        · rintro (⟨h3, h4⟩ | ⟨j, hj, hrj, h3⟩)
          · exact Or.inl ⟨Or.inl ⟨h3, h4 i (by simp) hr⟩, fun j hj => h4 j (by simp [hj])⟩
          · rcases List.mem_cons.1 hj with rfl | hj
            · exact Or.inl ⟨Or.inr h3, fun k hk hrk => hud j (by simp) k (by simp [hk]) hr hrk x h3⟩
            · exact Or.inr ⟨j, hj, hrj, h3⟩
    · have hr' : ¬ ((G.getD i ⟨[], []⟩).d.all fun ix => decide (ix ∈ cur)) = true := hr
      have hb : layerBody G cur st i = some (st.1, st.2.1 ++ [i], st.2.2) := by
        unfold layerBody
        simp only
        rw [if_neg hr']
      obtain ⟨r, h1, h2⟩ := ih (st.1, st.2.1 ++ [i], st.2.2) hn' hp.2 hud' (fun j hj => hin j (by simp [hj]))
      refine ⟨r, ?_, ?_⟩
      · rw [List.foldlM_cons, hb]
        exact h1
      · intro x
        rw [h2]
        simp only [List.mem_cons, forall_eq_or_imp, exists_eq_or_imp, hr, false_implies, true_and, false_and, false_or]
        simp

/-- What is known about a network with well-separated wires in the course of the loop. -/
structure Inv2 (G : List (Gate α)) (cur : List α) (todo : List Nat) (L : List (List Nat)) : Prop where
  inv : Inv G cur todo L
  cur_iff : ∀ x, x ∈ cur ↔ (((∃ g ∈ G, x ∈ g.d) ∧ ∀ g ∈ G, x ∉ g.u) ∨ ∃ p ∈ L.flatten, x ∈ (gate G p).u) ∧
    ∀ c ∈ L.flatten, x ∉ (gate G c).d
  wait : L ≠ [] → ∀ g ∈ todo, ∃ x ∈ (gate G g).d, (¬ ∀ g ∈ G, x ∉ g.u) ∧ ∀ p ∈ L.dropLast.flatten, x ∉ (gate G p).u
  tight : ∀ k g, InLayer L (k + 1) g → ∃ p, InLayer L k p ∧ ∃ x, x ∈ (gate G p).u ∧ x ∈ (gate G g).d

theorem Inv2.initial (G : List (Gate α)) : Inv2 G (initialIndices G) (List.range G.length) [] where
  inv := Inv.initial G
  cur_iff := by intro x; rw [mem_initial]; simp
  wait := by simp
  tight := by
    rintro k g ⟨l, hl, -⟩
    simp at hl

theorem Inv.facts {G : List (Gate α)} {cur : List α} {todo : List Nat} {L : List (List Nat)} (h : Inv G cur todo L) :
    (∀ i ∈ L.flatten, i < G.length) ∧ (∀ i ∈ todo, i < G.length) ∧ todo.Nodup ∧ (∀ i ∈ todo, i ∉ L.flatten) ∧
      ∀ i, i < G.length → i ∈ L.flatten ∨ i ∈ todo := by
  have hn : (L.flatten ++ todo).Nodup := h.perm.nodup_iff.2 List.nodup_range
  rw [List.nodup_append] at hn
  have hm : ∀ i, i ∈ L.flatten ++ todo ↔ i < G.length := fun i => by rw [h.perm.mem_iff, List.mem_range]
  refine ⟨fun i hi => (hm i).1 (by simp only [List.mem_append]; exact Or.inl hi),
    fun i hi => (hm i).1 (by simp only [List.mem_append]; exact Or.inr hi), hn.2.1, ?_, ?_⟩
  · intro i hi hi'
    exact hn.2.2 i hi' i hi rfl
  · intro i hi
    exact List.mem_append.1 ((hm i).2 hi)

theorem Inv2.step {G : List (Gate α)} (hW : Wired G) {cur : List α} {todo : List Nat} {L : List (List Nat)} (h : Inv2 G cur todo L) :
    ∃ layer rest nx, layerLoop G cur todo = some (layer, rest, nx) ∧ Inv2 G nx rest (L ++ [layer]) ∧
      rest = todo.filter fun i => !ready G cur i := by
  obtain ⟨f1, f2, f3, f4, f5⟩ := h.inv.facts
  obtain ⟨r, h1, h2⟩ := layerLoop_total G cur todo ([], [], cur)
    (fun i hi => by
      rw [gate_eq (f2 i hi)]
      exact (List.nodup_flatMap.1 hW.consumers).1 _ (List.getElem_mem _))
    (by
      apply f3.imp_of_mem
      intro i j hi hj hne x hx hx'
      exact hne (consumer_unique hW (f2 i hi) (f2 j hj) hx hx'))
    (by
      intro i hi j hj _ hrj x hxu hxd
      have hc : x ∈ cur := by simpa using List.all_eq_true.1 hrj x hxd
      rcases ((h.cur_iff x).1 hc).1 with ⟨-, h'⟩ | ⟨p, hp, hx⟩
      · exact h' _ (gate_mem (f2 i hi)) hxu
      · have := producer_unique hW (f1 p hp) (f2 i hi) hx hxu
        subst this
        exact f4 p hi hp)
    (fun i _ hr x hx => by simpa using List.all_eq_true.1 hr x hx)
  obtain ⟨layer, rest, nx⟩ := r
  rw [← layerLoop_eq] at h1
  obtain ⟨g1, g2, g3⟩ := layerLoop_ok G cur todo _ _ (layerLoop_eq G cur todo ▸ h1)
  simp only [List.nil_append] at g1 g2 g3 h2
  have hlay : ∀ i, i ∈ layer ↔ i ∈ todo ∧ ready G cur i = true := by intro i; rw [g1, List.mem_filter]
  have hfl : ∀ i, i ∈ (L ++ [layer]).flatten ↔ i ∈ L.flatten ∨ (i ∈ todo ∧ ready G cur i = true) := by
    intro i
    rw [List.flatten_append, List.flatten_singleton, List.mem_append, hlay]
  have hcur : ∀ x, x ∈ nx ↔ (((∃ g ∈ G, x ∈ g.d) ∧ ∀ g ∈ G, x ∉ g.u) ∨ ∃ p ∈ (L ++ [layer]).flatten, x ∈ (gate G p).u) ∧
      ∀ c ∈ (L ++ [layer]).flatten, x ∉ (gate G c).d := by
    intro x
    rw [h2, h.cur_iff]
    constructor
    · rintro (⟨⟨h3 | ⟨p, hp, hx⟩, h4⟩, h5⟩ | ⟨i, hi, hr, hx⟩)
      · refine ⟨Or.inl h3, ?_⟩
        intro c hc
        rcases (hfl c).1 hc with hc | ⟨hc, hr⟩
        · exact h4 c hc
        · exact h5 c hc hr
      · refine ⟨Or.inr ⟨p, (hfl p).2 (Or.inl hp), hx⟩, ?_⟩
        intro c hc
        rcases (hfl c).1 hc with hc | ⟨hc, hr⟩
        · exact h4 c hc
        · exact h5 c hc hr
      · refine ⟨Or.inr ⟨i, (hfl i).2 (Or.inr ⟨hi, hr⟩), hx⟩, ?_⟩
        have key : ∀ c, c ∈ L.flatten ∨ (c ∈ todo ∧ ready G cur c = true) → (∀ p ∈ L.flatten, x ∉ (gate G p).u) →
            x ∉ (gate G c).d := by
          intro c hc hnot hxd
          rcases hc with hc | ⟨hc, hrc⟩
          · obtain ⟨k, hk⟩ := (mem_flatten_iff _ _).1 hc
            rcases h.inv.order k c hk x hxd with h' | ⟨p, j, -, hj, hx'⟩
            · exact h' _ (gate_mem (f2 i hi)) hx
            · exact hnot p ((mem_flatten_iff _ _).2 ⟨j, hj⟩) hx'
          · have hc' : x ∈ cur := by simpa using List.all_eq_true.1 hrc x hxd
            rcases ((h.cur_iff x).1 hc').1 with ⟨-, h'⟩ | ⟨p, hp, hx'⟩
            · exact h' _ (gate_mem (f2 i hi)) hx
            · exact hnot p hp hx'
        intro c hc
        refine key c ((hfl c).1 hc) ?_
        intro p hp hx'
        have := producer_unique hW (f1 p hp) (f2 i hi) hx' hx
        subst this
        exact f4 p hi hp
    · rintro ⟨h3 | ⟨p, hp, hx⟩, h4⟩
      · exact Or.inl ⟨⟨Or.inl h3, fun c hc => h4 c ((hfl c).2 (Or.inl hc))⟩,
          fun i hi hr => h4 i ((hfl i).2 (Or.inr ⟨hi, hr⟩))⟩
      · rcases (hfl p).1 hp with hp | ⟨hp, hr⟩
        · exact Or.inl ⟨⟨Or.inr ⟨p, hp, hx⟩, fun c hc => h4 c ((hfl c).2 (Or.inl hc))⟩,
            fun i hi hr => h4 i ((hfl i).2 (Or.inr ⟨hi, hr⟩))⟩
        · exact Or.inr ⟨p, hp, hr, hx⟩
  refine ⟨layer, rest, nx, h1, ⟨h.inv.step h1, hcur, ?_, ?_⟩, g2⟩
  · intro _ g hg
    rw [g2, List.mem_filter] at hg
    rw [List.dropLast_concat]
    have hnr : ¬ ∀ x ∈ (gate G g).d, x ∈ cur := by
      intro hall
      have : ready G cur g = true := List.all_eq_true.2 fun x hx => by simpa using hall x hx
      rw [this] at hg
      simp at hg
    push_neg at hnr
    obtain ⟨x, hx, hxc⟩ := hnr
    have hnc : ∀ c ∈ L.flatten, x ∉ (gate G c).d := by
      intro c hc hxd
      have := consumer_unique hW (f1 c hc) (f2 g hg.1) hxd hx
      subst this
      exact f4 c hg.1 hc
    refine ⟨x, hx, ?_, ?_⟩
    · intro hno
      exact hxc ((h.cur_iff x).2 ⟨Or.inl ⟨⟨_, gate_mem (f2 g hg.1), hx⟩, hno⟩, hnc⟩)
    · intro p hp hxu
      exact hxc ((h.cur_iff x).2 ⟨Or.inr ⟨p, hp, hxu⟩, hnc⟩)
  · intro k g hg
    rcases (inLayer_append _ _ _ _).1 hg with hg | ⟨hk, hg⟩
    · obtain ⟨p, hp, hx⟩ := h.tight k g hg
      exact ⟨p, (inLayer_append _ _ _ _).2 (Or.inl hp), hx⟩
    · have hL : L ≠ [] := by
        rintro rfl
        simp at hk
      have hg' := (hlay g).1 hg
      obtain ⟨x, hx, hpro, hnot⟩ := h.wait hL g hg'.1
      have hc : x ∈ cur := by simpa using List.all_eq_true.1 hg'.2 x hx
      rcases ((h.cur_iff x).1 hc).1 with ⟨-, h'⟩ | ⟨p, hp, hxu⟩
      · exact absurd h' hpro
      · refine ⟨p, (inLayer_append _ _ _ _).2 (Or.inl ?_), x, hxu, hx⟩
        have hd := List.dropLast_append_getLast hL
        rw [← hd, List.flatten_append, List.mem_append, List.flatten_singleton] at hp
        rcases hp with hp | hp
        · exact absurd hxu (hnot p hp)
        · refine ⟨L.getLast hL, ?_, hp⟩
          rw [← List.getLast?_eq_some_getLast, List.getLast?_eq_getElem?]
          congr 1
          omega

theorem loop_inv2 (G : List (Gate α)) (hW : Wired G) (fuel : Nat) : ∀ cur todo L layers, Inv2 G cur todo L →
    layersLoop G fuel cur todo L = .ok layers → ∃ nx, Inv2 G nx [] layers := by
  induction fuel with
  | zero => intro cur todo L layers _ h; simp [layersLoop] at h
  | succ n ih =>
    intro cur todo L layers hI h
    obtain ⟨layer, rest, nx, hl, hs, -⟩ := hI.step hW
    unfold layersLoop at h
    rw [hl] at h
    simp only at h
    by_cases hr : rest = []
    · rw [if_pos hr] at h
      injection h with h
      subst h hr
      exact ⟨nx, hs⟩
    · rw [if_neg hr] at h
      exact ih _ _ _ _ hs h

theorem loop_ne_error (G : List (Gate α)) (hW : Wired G) (fuel : Nat) : ∀ cur todo L, Inv2 G cur todo L →
    layersLoop G fuel cur todo L ≠ .error := by
  induction fuel with
  | zero => intro cur todo L _ h; simp [layersLoop] at h
  | succ n ih =>
    intro cur todo L hI h
    obtain ⟨layer, rest, nx, hl, hs, -⟩ := hI.step hW
    unfold layersLoop at h
    rw [hl] at h
    simp only at h
    by_cases hr : rest = []
    · rw [if_pos hr] at h
      cases h
    · rw [if_neg hr] at h
      exact ih _ _ _ hs h

theorem progress {G : List (Gate α)} (hW : Wired G) (hA : Acyclic G) {cur : List α} {todo : List Nat} {L : List (List Nat)}
    (h : Inv2 G cur todo L) (hne : todo ≠ []) : ∃ i ∈ todo, ready G cur i = true := by
  obtain ⟨r, hr⟩ := hA
  obtain ⟨f1, f2, f3, f4, f5⟩ := h.inv.facts
  have hmin : ∃ i ∈ todo, ∀ j ∈ todo, r i ≤ r j := by
    clear h f1 f2 f3 f4 f5
    induction todo with
    | nil => exact absurd rfl hne
    | cons a t ih =>
      by_cases ht : t = []
      · subst ht; exact ⟨a, by simp, by simp⟩
      · obtain ⟨i, hi, hmin⟩ := ih ht
        by_cases hle : r a ≤ r i
        · refine ⟨a, by simp, ?_⟩
          intro j hj
          rcases List.mem_cons.1 hj with rfl | hj
          · exact le_rfl
          · exact hle.trans (hmin j hj)
        · refine ⟨i, by simp [hi], ?_⟩
          intro j hj
          rcases List.mem_cons.1 hj with rfl | hj
          · omega
          · exact hmin j hj
  obtain ⟨i, hi, hmin⟩ := hmin
  refine ⟨i, hi, List.all_eq_true.2 ?_⟩
  intro x hx
  simp only [decide_eq_true_eq]
  rw [h.cur_iff]
  refine ⟨?_, ?_⟩
  · by_cases hno : ∀ g ∈ G, x ∉ g.u
    · exact Or.inl ⟨⟨_, gate_mem (f2 i hi), hx⟩, hno⟩
    · push_neg at hno
      obtain ⟨g, hg, hxg⟩ := hno
      obtain ⟨p, hp, rfl⟩ := List.getElem_of_mem hg
      rw [← gate_eq hp] at hxg
      have hlt := hr p i ⟨hp, f2 i hi, x, hxg, hx⟩
      rcases f5 p hp with hd | ht
      · exact Or.inr ⟨p, hd, hxg⟩
      · exact absurd (hmin p ht) (by omega)
  · intro c hc hxc
    have := consumer_unique hW (f1 c hc) (f2 i hi) hxc hx
    subst this
    exact f4 c hi hc

theorem loop_terminates (G : List (Gate α)) (hW : Wired G) (hA : Acyclic G) (fuel : Nat) : ∀ cur todo L, Inv2 G cur todo L →
    todo.length < fuel → ∃ layers, layersLoop G fuel cur todo L = .ok layers := by
  induction fuel with
  | zero => intro cur todo L _ h; omega
  | succ n ih =>
    intro cur todo L hI hlen
    obtain ⟨layer, rest, nx, hl, hs, hrest⟩ := hI.step hW
    unfold layersLoop
    rw [hl]
    simp only
    by_cases hr : rest = []
    · rw [if_pos hr]; exact ⟨_, rfl⟩
    · rw [if_neg hr]
      apply ih _ _ _ hs
      have hne : todo ≠ [] := by
        rintro rfl
        exact hr (by simpa using hrest)
      obtain ⟨i, hi, hri⟩ := progress hW hA hI hne
      have : rest.length < todo.length := by
        rw [hrest]
        apply List.length_filter_lt_length_iff_exists.2
        exact ⟨i, hi, by simp [hri]⟩
      omega

theorem loop_mono (G : List (Gate α)) (fuel : Nat) : ∀ m cur todo L layers, fuel ≤ m →
    layersLoop G fuel cur todo L = .ok layers → layersLoop G m cur todo L = .ok layers := by
  induction fuel with
  | zero => intro m cur todo L layers _ h; simp [layersLoop] at h
  | succ n ih =>
    intro m cur todo L layers hm h
    obtain ⟨m, rfl⟩ : ∃ k, m = k + 1 := ⟨m - 1, by omega⟩
    unfold layersLoop at h ⊢
    cases hl : layerLoop G cur todo with
    | none => rw [hl] at h; simp at h
    | some r =>
      obtain ⟨layer, rest, nx⟩ := r
      rw [hl] at h
      simp only at h ⊢
      by_cases hr : rest = []
      · rwa [if_pos hr] at h ⊢
      · rw [if_neg hr] at h ⊢
        exact ih _ _ _ _ _ (by omega) h

/-- C44: for an acyclic network whose wires each have at most one producer and one consumer, `get_layers` returns, after at most
one turn per gate (and one more for the empty network). -/
theorem C44_terminates (G : List (Gate α)) (hW : Wired G) (hA : Acyclic G) :
    ∃ layers, ∀ fuel, G.length < fuel → getLayers G fuel = .ok layers := by
  obtain ⟨layers, h⟩ := loop_terminates G hW hA (G.length + 1) _ _ _ (Inv2.initial G) (by simp)
  exact ⟨layers, fun fuel hf => loop_mono G _ _ _ _ _ _ hf h⟩

/-- C44: a network with a cycle makes the loop run forever. -/
theorem C44_cyclic_diverges (G : List (Gate α)) (hW : Wired G) (hA : ¬ Acyclic G) (fuel : Nat) : getLayers G fuel = .running := by
  cases h : getLayers G fuel with
  | running => rfl
  | error => exact absurd h (loop_ne_error G hW fuel _ _ _ (Inv2.initial G))
  | ok layers =>
    exfalso
    apply hA
    classical
    have hall : ∀ g, g < G.length → ∃ k, InLayer layers k g := by
      intro g hg
      exact (mem_flatten_iff _ _).1 ((C44_each_once G fuel layers h).mem_iff.2 (List.mem_range.2 hg))
    refine ⟨fun g => if hg : ∃ k, InLayer layers k g then Nat.find hg else 0, ?_⟩
    intro p g hf
    have hp := hall p hf.1
    have hg := hall g hf.2.1
    simp only [dif_pos hp, dif_pos hg]
    obtain ⟨j, hj, hjp⟩ := C44_order G hW.producers fuel layers h _ p g hf (Nat.find_spec hg)
    exact lt_of_le_of_lt (Nat.find_min' hp hjp) hj

/-- C44: no gate is delayed: a gate outside the first layer has an input that is produced in the layer just before. -/
theorem C44_earliest (G : List (Gate α)) (hW : Wired G) (fuel : Nat) (layers : List (List Nat))
    (h : getLayers G fuel = .ok layers) (k g : Nat) (hg : InLayer layers (k + 1) g) : ∃ p, InLayer layers k p ∧ Feeds G p g := by
  obtain ⟨nx, hI⟩ := loop_inv2 G hW fuel _ _ _ _ (Inv2.initial G) h
  obtain ⟨p, hp, hx⟩ := hI.tight k g hg
  have hm : ∀ i k, InLayer layers k i → i < G.length := fun i k hi =>
    List.mem_range.1 ((C44_each_once G fuel layers h).mem_iff.1 ((mem_flatten_iff _ _).2 ⟨k, hi⟩))
  exact ⟨p, hp, hm p k hp, hm g _ hg, hx⟩

/-- A network of four gates: two in the first layer, then one, then one; and a cyclic pair. -/
def exNet : List (Gate Nat) := [⟨[4, 5], [0, 1]⟩, ⟨[8, 9], [5, 6]⟩, ⟨[6, 7], [2, 3]⟩, ⟨[10], [9]⟩]
example : Wired exNet := ⟨by decide, by decide⟩
example : getLayers exNet 5 = .ok [[0, 2], [1], [3]] := by decide
example : Acyclic exNet := by
  by_contra h
  have := C44_cyclic_diverges exNet ⟨by decide, by decide⟩ h 5
  revert this
  decide
example : ¬ Acyclic ([⟨[0], [1]⟩, ⟨[1], [0]⟩] : List (Gate Nat)) := by
  rintro ⟨r, hr⟩
  have h1 := hr 0 1 ⟨by decide, by decide, 0, by decide, by decide⟩
  have h2 := hr 1 0 ⟨by decide, by decide, 1, by decide, by decide⟩
  omega

/-- C44: two gates that consume the same wire are not rejected cleanly: the second removal raises. -/
theorem C44_shared_input_fails : getLayers ([⟨[1], [0]⟩, ⟨[2], [0]⟩] : List (Gate Nat)) 3 = .error := by decide

/-! ### C46 -/

section
variable {K : Type} [Field K] {n : Nat}

theorem dot4_C (a b : Mat K n) (g : Ten K n) : dot4 (outerC a b) g = coulomb a b g := rfl

theorem dot4_X (a b : Mat K n) (g : Ten K n) : dot4 (outerX a b) g = exchange a b g := by
  unfold dot4 exchange outerX
  apply Finset.sum_congr rfl
  intro i _
  -- the sums over (k, l, j) of the left side and (j, k, l) of the right side
  have h : ∀ f : Fin n → Fin n → Fin n → K, (∑ j, ∑ k, ∑ l, f k l j) = ∑ k, ∑ l, ∑ j, f k l j := by
    intro f
    rw [Finset.sum_comm]
    apply Finset.sum_congr rfl
    intro k _
    rw [Finset.sum_comm]
  exact (h fun k l j => a i j * b k l * g i k l j).symm

theorem dot4_sub (a b g : Ten K n) (c : K) : dot4 (fun i j k l => a i j k l - b i j k l * c) g = dot4 a g - dot4 b g * c := by
  simp only [dot4, Finset.sum_mul, ← Finset.sum_sub_distrib]
  apply Finset.sum_congr rfl; intro i _
  apply Finset.sum_congr rfl; intro j _
  apply Finset.sum_congr rfl; intro k _
  apply Finset.sum_congr rfl; intro l _
  ring

/-- C46: for restricted states the energy from the one-particle density matrix equals the energy from the two-particle density
matrix made from it. -/
theorem C46_restricted (h : Mat K n) (g : Option (Ten K n)) (dm1 : Mat K n) :
    rhfEnergy h g dm1 (some (rhfRdm2 dm1)) = rhfEnergy h g dm1 none := by
  cases g with
  | none => rfl
  | some g =>
    have e : rhfRdm2 dm1 = fun i j k l => outerC dm1 dm1 i j k l - outerX dm1 dm1 i j k l * (1 / 2) := by
      funext i j k l
      simp only [rhfRdm2]; ring
    simp only [rhfEnergy, e, dot4_sub, dot4_C, dot4_X]
    by_cases h2 : (2 : K) = 0
    · have h4 : (4 : K) = 0 := by
        have : (4 : K) = 2 * 2 := by norm_num
        rw [this, h2, mul_zero]
      simp [h2, h4]
    · have h4 : (1 / 4 : K) = 1 / 2 * (1 / 2) := by
        have : (4 : K) = 2 * 2 := by norm_num
        rw [this, one_div, one_div, mul_inv]
      rw [h4]; ring

/-- C46: the same for unrestricted states. -/
theorem C46_unrestricted (h : Mat K n × Mat K n) (g : Option (Ten K n × Ten K n × Ten K n)) (a b : Mat K n) :
    uhfEnergy h g (a, b) (some (uhfRdm2 a b)) = uhfEnergy h g (a, b) none := by
  cases g with
  | none => rfl
  | some g =>
    have e : ∀ x : Mat K n, (fun i j k l => outerC x x i j k l - outerX x x i j k l) =
        fun i j k l => outerC x x i j k l - outerX x x i j k l * 1 := by
      intro x; funext i j k l; ring
    simp only [uhfEnergy, uhfRdm2, e, dot4_sub, dot4_C, dot4_X]
    ring

/-- C46: an unrestricted state with equal spin parts has the energy of the restricted state with their sum, for integrals that do
not depend on spin. -/
theorem C46_closed_shell [CharZero K] (h : Mat K n) (g : Ten K n) (a : Mat K n) :
    uhfEnergy (h, h) (some (g, g, g)) (a, a) none = rhfEnergy h (some g) (fun i j => a i j + a i j) none := by
  have e1 : dot2 (fun i j => a i j + a i j) h = 2 * dot2 a h := by
    simp only [dot2, Finset.mul_sum]
    apply Finset.sum_congr rfl; intro i _
    apply Finset.sum_congr rfl; intro j _
    ring
  have e2 : coulomb (fun i j => a i j + a i j) (fun i j => a i j + a i j) g = 4 * coulomb a a g := by
    simp only [coulomb, Finset.mul_sum]
    apply Finset.sum_congr rfl; intro i _
    apply Finset.sum_congr rfl; intro j _
    apply Finset.sum_congr rfl; intro k _
    apply Finset.sum_congr rfl; intro l _
    ring
  have e3 : exchange (fun i j => a i j + a i j) (fun i j => a i j + a i j) g = 4 * exchange a a g := by
    simp only [exchange, Finset.mul_sum]
    apply Finset.sum_congr rfl; intro i _
    apply Finset.sum_congr rfl; intro j _
    apply Finset.sum_congr rfl; intro k _
    apply Finset.sum_congr rfl; intro l _
    ring
  simp only [uhfEnergy, rhfEnergy, e1, e2, e3]
  ring

/-- C46: for the general variant the two formulas differ by a quarter of the exchange energy, for every density matrix. -/
theorem C46_general_difference [CharZero K] (h : Mat K n) (g : Ten K n) (dm1 : Mat K n) :
    ghfEnergy h (some g) dm1 none - ghfEnergy h (some g) dm1 (some (ghfRdm2 dm1)) = exchange dm1 dm1 g * (1 / 4) := by
  have e : ghfRdm2 dm1 = fun i j k l => outerC dm1 dm1 i j k l - outerX dm1 dm1 i j k l * 1 := by
    funext i j k l
    simp only [ghfRdm2]; ring
  simp only [ghfEnergy, rhfEnergy, e, dot4_sub, dot4_C, dot4_X]
  ring

/-- C46: so they disagree, already for one orbital. -/
theorem C46_general_disagrees : ∃ (h : Mat ℚ 1) (g : Ten ℚ 1) (dm1 : Mat ℚ 1),
    ghfEnergy h (some g) dm1 none ≠ ghfEnergy h (some g) dm1 (some (ghfRdm2 dm1)) := by
  refine ⟨fun _ _ => 0, fun _ _ _ _ => 1, fun _ _ => 1, ?_⟩
  intro e
  have := C46_general_difference (K := ℚ) (fun _ _ => 0) (fun _ _ _ _ => 1) (fun _ _ => (1 : ℚ) : Mat ℚ 1)
  rw [e, sub_self] at this
  simp [exchange] at this

/-- A two-orbital case of `C46_restricted`, with a value. -/
example : rhfEnergy (n := 2) (fun i j => if i = j then (1 : ℚ) else 1 / 2) (some fun i j k l => if i = j ∧ k = l then 1 else 0)
    (fun i j => if i = j then 2 else 1) none = 21 / 2 := by
  norm_num [rhfEnergy, dot2, coulomb, exchange, Fin.sum_univ_two]

end

end Verif.Gaussian
