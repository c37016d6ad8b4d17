import Verif.Proof.BondInfo
import Verif.Proof.Py
import Verif.Spec.Tiles
import Mathlib.Data.List.Basic
import Mathlib.Data.List.Nodup
import Mathlib.Data.List.Forall2
import Mathlib.Algebra.BigOperators.Ring.List
import Mathlib.Algebra.Ring.Nat

/-! Helper lemmas for fusing tables. -/

set_option linter.unusedSectionVars false

namespace Verif

theorem Tiles.empty {κ : Type} : Tiles (fun _ : κ => none) 0 := by
  constructor <;> simp

theorem Tiles.extend {κ : Type} [DecidableEq κ] {win win' : κ → Option (Nat × Nat)} {n l : Nat}
    (h : Tiles win n) (c : κ) (hc : win c = none)
    (hw : ∀ d, win' d = if c = d then some (n, l) else win d) : Tiles win' (n + l) := by
  obtain ⟨h1, h2⟩ := h
  constructor
  · intro d k m hd
    rw [hw] at hd
    split_ifs at hd with e
    · simp only [Option.some.injEq, Prod.mk.injEq] at hd; omega
    · have := h1 d k m hd; omega
  · intro p hp
    by_cases hpn : p < n
    · obtain ⟨d, ⟨k, m, hd, hk, hm⟩, hu⟩ := h2 p hpn
      have hcd : c ≠ d := by rintro rfl; rw [hc] at hd; simp at hd
      refine ⟨d, ⟨k, m, by rw [hw, if_neg hcd]; exact hd, hk, hm⟩, ?_⟩
      rintro e ⟨k', m', he, hk', hm'⟩
      rw [hw] at he
      split_ifs at he with hce
      · simp only [Option.some.injEq, Prod.mk.injEq] at he; omega
      · exact hu e ⟨k', m', he, hk', hm'⟩
    · refine ⟨c, ⟨n, l, by simp [hw], by omega, hp⟩, ?_⟩
      rintro e ⟨k', m', he, hk', hm'⟩
      rw [hw] at he
      split_ifs at he with hce
      · exact hce.symm
      · have := h1 e k' m' he; omega

/-! ### cartesian products -/

theorem mem_cart {α : Type} (ls : List (List α)) (xs : List α) :
    xs ∈ cart ls ↔ List.Forall₂ (fun l x => x ∈ l) ls xs := by
  induction ls generalizing xs with
  | nil => simp [cart]
  | cons l ls ih =>
    simp only [cart, List.mem_flatMap, List.mem_map]
    constructor
    · rintro ⟨x, hx, ys, hys, rfl⟩
      exact List.Forall₂.cons hx ((ih ys).1 hys)
    · intro h
      cases h with
      | cons hx hxs => exact ⟨_, hx, _, (ih _).2 hxs, rfl⟩

theorem cart_map {α β : Type} (f : α → β) (ls : List (List α)) :
    (cart ls).map (List.map f) = cart (ls.map (List.map f)) := by
  induction ls with
  | nil => simp [cart]
  | cons l ls ih =>
    simp only [cart, List.map_cons, List.map_flatMap, List.map_map, ← ih, List.flatMap_map]
    rfl

theorem cart_nodup {α : Type} (ls : List (List α)) (h : ∀ l ∈ ls, l.Nodup) : (cart ls).Nodup := by
  induction ls with
  | nil => simp [cart]
  | cons l ls ih =>
    simp only [cart]
    have ih := ih (fun l' hl' => h l' (List.mem_cons_of_mem _ hl'))
    have hl := h l List.mem_cons_self
    rw [List.nodup_flatMap]
    constructor
    · intro x _
      exact ih.map (fun a b e => (List.cons.inj e).2)
    · refine hl.imp ?_
      intro x y hxy
      rw [Function.onFun, List.disjoint_left]
      intro zs hz hz'
      obtain ⟨a, _, rfl⟩ := List.mem_map.1 hz
      obtain ⟨b, _, e⟩ := List.mem_map.1 hz'
      exact hxy (List.cons.inj e).1.symm

theorem sum_prod_cart (ls : List (List Nat)) :
    ((cart ls).map List.prod).sum = (ls.map List.sum).prod := by
  induction ls with
  | nil => simp [cart]
  | cons l ls ih =>
    simp only [cart, List.map_flatMap, List.map_map, List.map_cons, List.prod_cons, ← ih]
    induction l with
    | nil => simp
    | cons x t ih2 =>
      simp only [List.flatMap_cons, List.sum_append, List.sum_cons, Nat.add_mul, ← ih2]
      congr 1
      rw [← List.sum_map_mul_left (R := Nat)]
      simp [Function.comp_def]

namespace BondFusingInfo
variable {Q : Type} [DecidableEq Q] [AddCommGroup Q]

theorem combine_eq (qs : List Q) (pattern : List Bool) : combine qs pattern = signedSum pattern qs := by
  unfold combine signedSum signedLabels
  rw [← List.sum_eq_foldl]
  congr 1
  induction qs generalizing pattern with
  | nil => simp
  | cons q t ih =>
    cases pattern with
    | nil => simp
    | cons s p => simp [ih]

/-- window of a label combination in a fusing table. -/
def tableWin (t : FuseTable Q) (qs : List Q) : Option (Nat × Nat) :=
  (Dict.get? t qs).map fun e => (e.1, e.2.prod)

theorem tableWin_set (t : FuseTable Q) (qs qs' : List Q) (k : Nat) (sh : List Nat) :
    tableWin (Dict.set t qs (k, sh)) qs' = if qs = qs' then some (k, sh.prod) else tableWin t qs' := by
  unfold tableWin; rw [Dict.get?_set]; split_ifs <;> rfl

/-- Invariant of the loop of `tensor_product` after the items in `done`. -/
structure Inv (ok : Q → Bool) (pattern : List Bool) (done : List (List Q × List Nat))
    (st : BondInfo Q × Dict Q (FuseTable Q)) : Prop where
  tiles : ∀ q, Tiles (tableWin ((Dict.get? st.2 q).getD [])) (Counter.count st.1 q)
  sound : ∀ q qs k sh, Dict.get? ((Dict.get? st.2 q).getD []) qs = some (k, sh) →
    (qs, sh) ∈ done ∧ combine qs pattern = q ∧ ok q = true
  complete : ∀ qs sh, (qs, sh) ∈ done → ok (combine qs pattern) = true →
    ∃ k, Dict.get? ((Dict.get? st.2 (combine qs pattern)).getD []) qs = some (k, sh)

theorem Inv.step {ref : Option (BondInfo Q)} {pattern : List Bool}
    {done : List (List Q × List Nat)} {st : BondInfo Q × Dict Q (FuseTable Q)}
    (h : Inv (fun q => ref.all fun r => Dict.has r q) pattern done st)
    (item : List Q × List Nat) (hnew : item.1 ∉ done.map Prod.fst) :
    Inv (fun q => ref.all fun r => Dict.has r q) pattern (done ++ [item])
      (addWindow ref pattern st item) := by
  obtain ⟨qs0, sh0⟩ := item
  unfold addWindow
  simp only
  split_ifs with hok
  · set q0 := combine qs0 pattern with hq0
    have hnone : Dict.get? ((Dict.get? st.2 q0).getD []) qs0 = none := by
      cases hh : Dict.get? ((Dict.get? st.2 q0).getD []) qs0 with
      | none => rfl
      | some e =>
        obtain ⟨k, sh⟩ := e
        exact absurd (List.mem_map.2 ⟨(qs0, sh), (h.sound q0 qs0 k sh hh).1, rfl⟩) hnew
    refine ⟨?_, ?_, ?_⟩
    · intro q
      simp only [Dict.get?_set, Counter.count_incr]
      by_cases hq : q0 = q
      · subst hq
        simp only [if_true, Option.getD_some]
        refine Tiles.extend (h.tiles q0) qs0 (by simp [tableWin, hnone]) ?_
        intro d
        rw [tableWin_set]
      · simp only [if_neg hq, Nat.add_zero]; exact h.tiles q
    · intro q qs k sh hg
      simp only [Dict.get?_set] at hg
      by_cases hq : q0 = q
      · subst hq
        simp only [if_true, Option.getD_some, Dict.get?_set] at hg
        by_cases hqs : qs0 = qs
        · subst hqs
          simp only [if_true, Option.some.injEq, Prod.mk.injEq] at hg
          obtain ⟨rfl, rfl⟩ := hg
          exact ⟨by simp, hq0.symm, hok⟩
        · rw [if_neg hqs] at hg
          obtain ⟨a, b, c⟩ := h.sound q0 qs k sh hg
          exact ⟨List.mem_append_left _ a, b, c⟩
      · rw [if_neg hq] at hg
        obtain ⟨a, b, c⟩ := h.sound q qs k sh hg
        exact ⟨List.mem_append_left _ a, b, c⟩
    · intro qs sh hmem hok'
      simp only [Dict.get?_set]
      rcases List.mem_append.1 hmem with hmem | hmem
      · obtain ⟨k, hk⟩ := h.complete qs sh hmem hok'
        have hne : qs0 ≠ qs := by
          rintro rfl; exact hnew (List.mem_map.2 ⟨_, hmem, rfl⟩)
        refine ⟨k, ?_⟩
        by_cases hq : q0 = combine qs pattern
        · rw [if_pos hq, Option.getD_some, Dict.get?_set, if_neg hne, hq]; exact hk
        · rw [if_neg hq]; exact hk
      · simp only [List.mem_singleton, Prod.mk.injEq] at hmem
        obtain ⟨rfl, rfl⟩ := hmem
        refine ⟨Counter.count st.1 q0, ?_⟩
        rw [if_pos hq0]; simp
  · refine ⟨h.tiles, ?_, ?_⟩
    · intro q qs k sh hg
      obtain ⟨a, b, c⟩ := h.sound q qs k sh hg
      exact ⟨List.mem_append_left _ a, b, c⟩
    · intro qs sh hmem hok'
      rcases List.mem_append.1 hmem with hmem | hmem
      · exact h.complete qs sh hmem hok'
      · simp only [List.mem_singleton, Prod.mk.injEq] at hmem
        obtain ⟨rfl, rfl⟩ := hmem
        exact absurd hok' hok

theorem Inv.foldl {ref : Option (BondInfo Q)} {pattern : List Bool}
    (items done : List (List Q × List Nat)) (st : BondInfo Q × Dict Q (FuseTable Q))
    (h : Inv (fun q => ref.all fun r => Dict.has r q) pattern done st)
    (hnd : ((done ++ items).map Prod.fst).Nodup) :
    Inv (fun q => ref.all fun r => Dict.has r q) pattern (done ++ items)
      (items.foldl (addWindow ref pattern) st) := by
  induction items generalizing done st with
  | nil => simpa using h
  | cons x t ih =>
    simp only [List.foldl_cons]
    have hx : x.1 ∉ done.map Prod.fst := by
      rw [List.map_append, List.nodup_append] at hnd
      intro hm
      exact hnd.2.2 _ hm x.1 (by simp) rfl
    have := ih (done ++ [x]) _ (h.step x hx) (by simpa using hnd)
    simpa using this

theorem Inv.nil {ok : Q → Bool} {pattern : List Bool} : Inv ok pattern [] ([], []) := by
  refine ⟨fun q => ?_, ?_, ?_⟩
  · exact Tiles.empty
  · intro q qs k sh h; simp at h
  · intro qs sh h; simp at h

theorem sum_addWindow (pattern : List Bool) (items : List (List Q × List Nat))
    (st : BondInfo Q × Dict Q (FuseTable Q)) :
    (Dict.values (items.foldl (addWindow none pattern) st).1).sum =
      (Dict.values st.1).sum + (items.map fun x => x.2.prod).sum := by
  induction items generalizing st with
  | nil => simp
  | cons x t ih =>
    simp only [List.foldl_cons]
    rw [ih]
    simp [addWindow, Counter.sum_values_incr]
    omega

/-! ### `kron_sum` -/

theorem sumTable_some (l : List (List Q × List Nat)) (n : Nat) (t : FuseTable Q) (n' : Nat)
    (t' : FuseTable Q) (ht : Tiles (tableWin t) n) (h : sumTable l n t = some (n', t')) :
    Tiles (tableWin t') n' ∧ ∀ qs sh, (∃ k, Dict.get? t' qs = some (k, sh)) ↔
      (∃ k, Dict.get? t qs = some (k, sh)) ∨ (qs, sh) ∈ l := by
  induction l generalizing n t with
  | nil =>
    simp only [sumTable, Option.some.injEq, Prod.mk.injEq] at h
    obtain ⟨rfl, rfl⟩ := h
    exact ⟨ht, by simp⟩
  | cons x l ih =>
    obtain ⟨qs0, sh0⟩ := x
    simp only [sumTable] at h
    cases hg : Dict.get? t qs0 with
    | none =>
      rw [hg] at h
      have ht' : Tiles (tableWin (Dict.set t qs0 (n, sh0))) (n + sh0.prod) :=
        Tiles.extend ht qs0 (by simp [tableWin, hg]) (fun d => tableWin_set _ _ _ _ _)
      obtain ⟨h1, h2⟩ := ih _ _ ht' h
      refine ⟨h1, fun qs sh => ?_⟩
      rw [h2, List.mem_cons, Dict.get?_set]
      by_cases e : qs0 = qs
      · subst e
        simp only [if_true, Option.some.injEq, Prod.mk.injEq, hg, reduceCtorEq, exists_false,
          false_or, true_and]
        constructor
        · rintro (⟨k, _, h⟩ | h)
          · exact Or.inl h.symm
          · exact Or.inr h
        · rintro (h | h)
          · exact Or.inl ⟨n, rfl, h.symm⟩
          · exact Or.inr h
      · rw [if_neg e]
        have : ¬ ((qs, sh) = (qs0, sh0)) := fun h => e (Prod.mk.inj h).1.symm
        simp [this]
    | some e =>
      obtain ⟨k0, s0⟩ := e
      rw [hg] at h
      simp only at h
      split_ifs at h with hs
      subst hs
      obtain ⟨h1, h2⟩ := ih _ _ ht h
      refine ⟨h1, fun qs sh => ?_⟩
      rw [h2, List.mem_cons]
      constructor
      · rintro (h | h)
        · exact Or.inl h
        · exact Or.inr (Or.inr h)
      · rintro (h | h | h)
        · exact Or.inl h
        · rw [Prod.mk.injEq] at h
          obtain ⟨rfl, rfl⟩ := h
          exact Or.inl ⟨k0, hg⟩
        · exact Or.inr h

theorem sumTable_none (l : List (List Q × List Nat)) (n : Nat) (t : FuseTable Q)
    (h : sumTable l n t = none) :
    ∃ qs s s', s ≠ s' ∧ (qs, s) ∈ l ∧ ((qs, s') ∈ l ∨ ∃ k, Dict.get? t qs = some (k, s')) := by
  induction l generalizing n t with
  | nil => simp [sumTable] at h
  | cons x l ih =>
    obtain ⟨qs0, sh0⟩ := x
    simp only [sumTable] at h
    cases hg : Dict.get? t qs0 with
    | none =>
      rw [hg] at h
      obtain ⟨qs, s, s', hne, h1, h2⟩ := ih _ _ h
      refine ⟨qs, s, s', hne, List.mem_cons_of_mem _ h1, ?_⟩
      rcases h2 with h2 | ⟨k, h2⟩
      · exact Or.inl (List.mem_cons_of_mem _ h2)
      · rw [Dict.get?_set] at h2
        split_ifs at h2 with e
        · simp only [Option.some.injEq, Prod.mk.injEq] at h2
          subst e; obtain ⟨_, rfl⟩ := h2
          exact Or.inl List.mem_cons_self
        · exact Or.inr ⟨k, h2⟩
    | some e =>
      obtain ⟨k0, s0⟩ := e
      rw [hg] at h
      simp only at h
      split_ifs at h with hs
      · obtain ⟨qs, s, s', hne, h1, h2⟩ := ih _ _ h
        refine ⟨qs, s, s', hne, List.mem_cons_of_mem _ h1, ?_⟩
        rcases h2 with h2 | h2
        · exact Or.inl (List.mem_cons_of_mem _ h2)
        · exact Or.inr h2
      · exact ⟨qs0, sh0, s0, fun e => hs e.symm, List.mem_cons_self, Or.inr ⟨k0, hg⟩⟩

theorem collect_spec (ref : Option (BondInfo Q)) (pattern : List Bool)
    (items : List (List Q × List Nat)) :
    Dict.WF (collect ref pattern items) ∧
    (∀ q v, Dict.get? (collect ref pattern items) q = some v → ∀ it, it ∈ v ↔
      (it ∈ items ∧ combine it.1 pattern = q ∧ (ref.all fun r => Dict.has r q) = true)) ∧
    (∀ q, Dict.get? (collect ref pattern items) q = none → ∀ it ∈ items,
      ¬ (combine it.1 pattern = q ∧ (ref.all fun r => Dict.has r q) = true)) := by
  have key : ∀ (rest done : List (List Q × List Nat)) (c : Dict Q (List (List Q × List Nat))),
      (Dict.WF c ∧ (∀ q v, Dict.get? c q = some v → ∀ it, it ∈ v ↔
        (it ∈ done ∧ combine it.1 pattern = q ∧ (ref.all fun r => Dict.has r q) = true)) ∧
      (∀ q, Dict.get? c q = none → ∀ it ∈ done,
        ¬ (combine it.1 pattern = q ∧ (ref.all fun r => Dict.has r q) = true))) →
      (let c' := rest.foldl (fun c item =>
        let q := combine item.1 pattern
        if ref.all (fun r => Dict.has r q) then
          Dict.set c q ((Dict.get? c q).getD [] ++ [item])
        else c) c
      Dict.WF c' ∧ (∀ q v, Dict.get? c' q = some v → ∀ it, it ∈ v ↔
        (it ∈ done ++ rest ∧ combine it.1 pattern = q ∧ (ref.all fun r => Dict.has r q) = true)) ∧
      (∀ q, Dict.get? c' q = none → ∀ it ∈ done ++ rest,
        ¬ (combine it.1 pattern = q ∧ (ref.all fun r => Dict.has r q) = true))) := by
    intro rest
    induction rest with
    | nil => intro done c h; simpa using h
    | cons x rest ih =>
      intro done c ⟨hwf, hs, hn⟩
      simp only [List.foldl_cons]
      have := ih (done ++ [x]) (if ref.all (fun r => Dict.has r (combine x.1 pattern)) then
          Dict.set c (combine x.1 pattern) ((Dict.get? c (combine x.1 pattern)).getD [] ++ [x])
        else c) ?_
      · simpa using this
      · split_ifs with hok
        · refine ⟨hwf.set _ _, ?_, ?_⟩
          · intro q v hv it
            rw [Dict.get?_set] at hv
            split_ifs at hv with e
            · simp only [Option.some.injEq] at hv
              subst hv
              subst e
              cases hg : Dict.get? c (combine x.1 pattern) with
              | none =>
                have hn' := hn _ hg
                simp only [Option.getD_none, List.nil_append, List.mem_singleton, List.mem_append]
                constructor
                · rintro rfl; exact ⟨Or.inr rfl, rfl, hok⟩
                · rintro ⟨h | h, h2, h3⟩
                  · exact absurd ⟨h2, h3⟩ (hn' it h)
                  · exact h
              | some w =>
                have hs' := hs _ w hg it
                simp only [Option.getD_some, List.mem_append, hs', List.mem_singleton]
                constructor
                · rintro (⟨h1, h2, h3⟩ | rfl)
                  · exact ⟨Or.inl h1, h2, h3⟩
                  · exact ⟨Or.inr rfl, rfl, hok⟩
                · rintro ⟨h | h, h2, h3⟩
                  · exact Or.inl ⟨h, h2, h3⟩
                  · exact Or.inr h
            · rw [hs q v hv it, List.mem_append, List.mem_singleton]
              constructor
              · rintro ⟨h1, h2, h3⟩; exact ⟨Or.inl h1, h2, h3⟩
              · rintro ⟨h | rfl, h2, h3⟩
                · exact ⟨h, h2, h3⟩
                · exact absurd h2 e
          · intro q hq it hit
            rw [Dict.get?_set] at hq
            split_ifs at hq with e
            rcases List.mem_append.1 hit with hit | hit
            · exact hn q hq it hit
            · rw [List.mem_singleton] at hit
              subst hit
              exact fun h => e h.1
        · refine ⟨hwf, ?_, ?_⟩
          · intro q v hv it
            rw [hs q v hv it, List.mem_append, List.mem_singleton]
            constructor
            · rintro ⟨h1, h2, h3⟩; exact ⟨Or.inl h1, h2, h3⟩
            · rintro ⟨h | rfl, h2, h3⟩
              · exact ⟨h, h2, h3⟩
              · exact absurd (h2 ▸ h3) hok
          · intro q hq it hit
            rcases List.mem_append.1 hit with hit | hit
            · exact hn q hq it hit
            · rw [List.mem_singleton] at hit
              subst hit
              rintro ⟨h2, h3⟩
              exact hok (h2 ▸ h3)
  have := key items [] [] ⟨Dict.WF.nil, by simp, by simp⟩
  simpa [collect] using this

theorem sumTables_some (leL : List Q → List Q → Bool) (c : Dict Q (List (List Q × List Nat)))
    (st st' : BondInfo Q × Dict Q (FuseTable Q)) (hc : Dict.WF c)
    (hnew : ∀ q ∈ c.map Prod.fst, Counter.count st.1 q = 0)
    (h : sumTables leL c st = some st') (q : Q) :
    (Dict.get? c q = none → Dict.get? st'.2 q = Dict.get? st.2 q ∧
      Counter.count st'.1 q = Counter.count st.1 q) ∧
    (∀ v, Dict.get? c q = some v → ∃ t, Dict.get? st'.2 q = some t ∧
      sumTable (sortBy (fun x y => leL x.1 y.1) v) 0 [] = some (Counter.count st'.1 q, t)) := by
  induction c generalizing st with
  | nil =>
    simp only [sumTables, Option.some.injEq] at h
    subst h; simp
  | cons x c ih =>
    obtain ⟨q0, v0⟩ := x
    simp only [Dict.WF, List.map_cons, List.nodup_cons] at hc
    simp only [sumTables] at h
    have h0 := hnew q0 (by simp)
    rw [h0] at h
    cases hs : sumTable (sortBy (fun x y => leL x.1 y.1) v0) 0 [] with
    | none => rw [hs] at h; simp at h
    | some r =>
      obtain ⟨n, t⟩ := r
      rw [hs] at h
      simp only at h
      have := ih _ hc.2 (by
        intro q' hq'
        rw [Counter.count_set, if_neg (by rintro rfl; exact hc.1 hq')]
        exact hnew q' (List.mem_cons_of_mem _ hq')) h
      simp only [Dict.get?_cons]
      by_cases e : q0 = q
      · subst e
        have hn : Dict.get? c q0 = none := (Dict.get?_eq_none_iff c q0).2 hc.1
        obtain ⟨h1, h2⟩ := this.1 hn
        refine ⟨by simp, ?_⟩
        intro v hv
        simp only [if_true, Option.some.injEq] at hv
        subst hv
        refine ⟨t, by rw [h1]; simp, ?_⟩
        rw [hs, h2, Counter.count_set, if_pos rfl]
      · simp only [if_neg e]
        refine ⟨fun hn => ?_, this.2⟩
        obtain ⟨h1, h2⟩ := this.1 hn
        rw [h1, h2, Dict.get?_set_ne _ e, Counter.count_set, if_neg e]
        exact ⟨rfl, rfl⟩

theorem sumTables_none (leL : List Q → List Q → Bool) (c : Dict Q (List (List Q × List Nat)))
    (st : BondInfo Q × Dict Q (FuseTable Q)) (h : sumTables leL c st = none) :
    ∃ q v n, (q, v) ∈ c ∧ sumTable (sortBy (fun x y => leL x.1 y.1) v) n [] = none := by
  induction c generalizing st with
  | nil => simp [sumTables] at h
  | cons x c ih =>
    obtain ⟨q0, v0⟩ := x
    simp only [sumTables] at h
    cases hs : sumTable (sortBy (fun x y => leL x.1 y.1) v0) (Counter.count st.1 q0) [] with
    | none => exact ⟨q0, v0, _, List.mem_cons_self, hs⟩
    | some r =>
      rw [hs] at h
      obtain ⟨q, v, n, h1, h2⟩ := ih _ h
      exact ⟨q, v, n, List.mem_cons_of_mem _ h1, h2⟩

end BondFusingInfo
end Verif
