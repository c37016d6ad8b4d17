import Verif.Model.FuseMap
import Verif.Proof.Dict
import Mathlib.Data.List.Induction
import Mathlib.Data.List.Nodup
import Mathlib.Logic.Relation

/-!
Property C39: grouping of coupled labels is the transitive closure.
-/

set_option linter.unusedSectionVars false

namespace Verif
namespace FuseMap
variable {P : Type} [DecidableEq P]

/-! ### Specification -/

/-- The labels are connected by a chain of blocks. -/
def Connected (blocks : List (P × P)) : P → P → Prop := Relation.EqvGen fun p q => (p, q) ∈ blocks

/-- The label belongs to some block. -/
def Occurs (blocks : List (P × P)) (p : P) : Prop := ∃ b ∈ blocks, p = b.1 ∨ p = b.2

/-! ### Invariant -/

theorem get?_del {β : Type} (d : Dict P β) (k q : P) : Dict.get? (del d k) q = if q = k then none else Dict.get? d q := by
  unfold del
  induction d with
  | nil => simp
  | cons e t ih =>
    obtain ⟨a, v⟩ := e
    rw [List.filter_cons]
    by_cases ha : a = k
    · subst ha
      simp only [ne_eq, not_true, decide_false, Bool.false_eq_true, if_false, ih, Dict.get?_cons]
      by_cases hq : q = a
      · simp [hq]
      · simp [hq, Ne.symm hq]
    · simp only [ne_eq, ha, not_false_eq_true, decide_true, if_true, Dict.get?_cons, ih]
      by_cases hq : q = k
      · subst hq; simp [ha]
      · simp [hq]

theorem WF_del {β : Type} {d : Dict P β} (h : Dict.WF d) (k : P) : Dict.WF (del d k) :=
  h.sublist ((List.filter_sublist).map _)

/-- The state of the three dictionaries after the given blocks. -/
structure Inv (blocks : List (P × P)) (s : Groups P) : Prop where
  keys : ∀ p, (∃ a, Dict.get? s.toParent p = some a) → Occurs blocks p
  sound : ∀ p a, Dict.get? s.toParent p = some a → Connected blocks p a
  edge : ∀ b ∈ blocks, ∃ a, Dict.get? s.toParent b.1 = some a ∧ Dict.get? s.toParent b.2 = some a
  root : ∀ p a, Dict.get? s.toParent p = some a → Dict.get? s.toParent a = some a
  members : ∀ a, Dict.get? s.toParent a = some a →
    ∃ fs, Dict.get? s.fromParent a = some fs ∧ ∀ p, p ∈ fs ↔ Dict.get? s.toParent p = some a
  wf : Dict.WF s.dataMap
  dataKeys : ∀ a, Dict.get? s.toParent a = some a ↔ ∃ d, Dict.get? s.dataMap a = some d
  data : ∀ a d, Dict.get? s.dataMap a = some d →
    d.Nodup ∧ ∀ i, i ∈ d ↔ ∃ b, blocks[i]? = some b ∧ Dict.get? s.toParent b.1 = some a

theorem adopt_spec (p : P) (subs : List P) (tp : Dict P P) (fp : Dict P (List P)) (fs : List P)
    (h : Dict.get? fp p = some fs) :
    ∃ tp' fp', adopt p subs tp fp = some (tp', fp') ∧
      (∀ q, Dict.get? tp' q = if q ∈ subs then some p else Dict.get? tp q) ∧
      Dict.get? fp' p = some (fs ++ subs) ∧ ∀ q, q ≠ p → Dict.get? fp' q = Dict.get? fp q := by
  induction subs generalizing tp fp fs with
  | nil => exact ⟨tp, fp, rfl, by simp, by simpa using h, fun _ _ => rfl⟩
  | cons a t ih =>
    obtain ⟨tp', fp', h1, h2, h3, h4⟩ := ih (Dict.set tp a p) (Dict.set fp p (fs ++ [a])) (fs ++ [a]) (by simp)
    refine ⟨tp', fp', ?_, fun q => ?_, by simpa using h3, fun q hq => ?_⟩
    · unfold adopt at h1 ⊢
      rw [List.foldlM_cons, h]
      exact h1
    · rw [h2, Dict.get?_set]
      by_cases hq : q ∈ t
      · simp [hq]
      · by_cases hqa : a = q
        · simp [hqa]
        · simp [hq, hqa, Ne.symm hqa]
    · rw [h4 q hq, Dict.get?_set, if_neg (Ne.symm hq)]

theorem connected_mono (blocks : List (P × P)) (b : P × P) {p q : P} (h : Connected blocks p q) : Connected (blocks ++ [b]) p q :=
  Relation.EqvGen.mono (fun _ _ h => List.mem_append_left _ h) _ _ h

theorem occurs_mono (blocks : List (P × P)) (b : P × P) {p : P} (h : Occurs blocks p) : Occurs (blocks ++ [b]) p := by
  obtain ⟨c, hc, h⟩ := h
  exact ⟨c, List.mem_append_left _ hc, h⟩

theorem connected_new (blocks : List (P × P)) (l r : P) : Connected (blocks ++ [(l, r)]) l r :=
  Relation.EqvGen.rel _ _ (by simp)

/-- The invariant in the middle of a turn: the labels of the new block `(l, r)` have the parent `p`, the block is not stored yet. -/
structure Mid (blocks : List (P × P)) (l r : P) (s : Groups P) (p : P) : Prop where
  keys : ∀ q, (∃ a, Dict.get? s.toParent q = some a) → Occurs (blocks ++ [(l, r)]) q
  sound : ∀ q a, Dict.get? s.toParent q = some a → Connected (blocks ++ [(l, r)]) q a
  edge : ∀ b ∈ blocks, ∃ a, Dict.get? s.toParent b.1 = some a ∧ Dict.get? s.toParent b.2 = some a
  left : Dict.get? s.toParent l = some p
  right : Dict.get? s.toParent r = some p
  root : ∀ q a, Dict.get? s.toParent q = some a → Dict.get? s.toParent a = some a
  members : ∀ a, Dict.get? s.toParent a = some a →
    ∃ fs, Dict.get? s.fromParent a = some fs ∧ ∀ q, q ∈ fs ↔ Dict.get? s.toParent q = some a
  wf : Dict.WF s.dataMap
  dataKeys : ∀ a, Dict.get? s.toParent a = some a ↔ ∃ d, Dict.get? s.dataMap a = some d
  data : ∀ a d, Dict.get? s.dataMap a = some d →
    d.Nodup ∧ ∀ i, i ∈ d ↔ ∃ b, blocks[i]? = some b ∧ Dict.get? s.toParent b.1 = some a

/-- One label is new, the other has the parent `p`. -/
theorem attach (blocks : List (P × P)) (s : Groups P) (h : Inv blocks s) (l r x y p : P)
    (hxy : (x = l ∧ y = r) ∨ (x = r ∧ y = l)) (hx : Dict.get? s.toParent x = none) (hy : Dict.get? s.toParent y = some p)
    (fs : List P) (hfs : Dict.get? s.fromParent p = some fs) :
    Mid blocks l r ⟨Dict.set s.toParent x p, Dict.set s.fromParent p (fs ++ [x]), s.dataMap⟩ p := by
  have hg : ∀ q, Dict.get? (Dict.set s.toParent x p) q = if q = x then some p else Dict.get? s.toParent q := by
    intro q
    rw [Dict.get?_set]
    simp only [eq_comm]
  have hp := h.root y p hy
  have hne : ∀ q a, Dict.get? s.toParent q = some a → a ≠ x ∧ q ≠ x := by
    intro q a hq
    have := h.root q a hq
    refine ⟨?_, ?_⟩ <;> rintro rfl <;> simp_all
  have hold : ∀ q a, Dict.get? s.toParent q = some a → Dict.get? (Dict.set s.toParent x p) q = some a := by
    intro q a hq
    rw [hg, if_neg (hne q a hq).2, hq]
  have hxp := (hne y p hy).1
  have conn : Connected (blocks ++ [(l, r)]) x y := by
    rcases hxy with ⟨rfl, rfl⟩ | ⟨rfl, rfl⟩
    · exact connected_new blocks _ _
    · exact Relation.EqvGen.symm _ _ (connected_new blocks _ _)
  have hnew : Dict.get? (Dict.set s.toParent x p) x = some p := by rw [hg, if_pos rfl]
  constructor <;> dsimp only
  · rintro q ⟨a, hq⟩
    rw [hg] at hq
    split_ifs at hq with hc
    · subst hc
      rcases hxy with ⟨rfl, rfl⟩ | ⟨rfl, rfl⟩
      · exact ⟨_, List.mem_append_right _ (List.mem_singleton.2 rfl), Or.inl rfl⟩
      · exact ⟨_, List.mem_append_right _ (List.mem_singleton.2 rfl), Or.inr rfl⟩
    · exact occurs_mono _ _ (h.keys q ⟨a, hq⟩)
  · intro q a hq
    rw [hg] at hq
    split_ifs at hq with hc
    · obtain rfl := Option.some.inj hq
      rw [hc]
      exact Relation.EqvGen.trans _ _ _ conn (connected_mono _ _ (h.sound y p hy))
    · exact connected_mono _ _ (h.sound q a hq)
  · intro b hb
    obtain ⟨a, h1, h2⟩ := h.edge b hb
    exact ⟨a, hold _ _ h1, hold _ _ h2⟩
  · rcases hxy with ⟨rfl, rfl⟩ | ⟨rfl, rfl⟩
    · exact hnew
    · exact hold _ _ hy
  · rcases hxy with ⟨rfl, rfl⟩ | ⟨rfl, rfl⟩
    · exact hold _ _ hy
    · exact hnew
  · intro q a hq
    rw [hg] at hq
    split_ifs at hq with hc
    · obtain rfl := Option.some.inj hq
      exact hold _ _ hp
    · exact hold _ _ (h.root q a hq)
  · intro a ha
    have hax : a ≠ x := by
      rintro rfl
      rw [hnew] at ha
      exact hxp (Option.some.inj ha)
    rw [hg, if_neg hax] at ha
    obtain ⟨gs, h1, h2⟩ := h.members a ha
    rw [Dict.get?_set]
    by_cases hap : p = a
    · subst hap
      rw [if_pos rfl]
      rw [hfs] at h1
      obtain rfl := Option.some.inj h1
      refine ⟨_, rfl, fun q => ?_⟩
      rw [List.mem_append, List.mem_singleton, h2, hg]
      by_cases hq : q = x
      · simp [hq]
      · simp [hq]
    · rw [if_neg hap]
      refine ⟨gs, h1, fun q => ?_⟩
      rw [h2, hg]
      by_cases hq : q = x
      · subst hq
        simp [hx, hap]
      · simp [hq]
  · exact h.wf
  · intro a
    rw [← h.dataKeys, hg]
    by_cases hax : a = x
    · subst hax
      rw [if_pos rfl, hx]
      simp [hxp]
    · rw [if_neg hax]
  · intro a d hd
    obtain ⟨h1, h2⟩ := h.data a d hd
    refine ⟨h1, fun i => ?_⟩
    rw [h2]
    constructor
    · rintro ⟨b, hb, hq⟩
      exact ⟨b, hb, hold _ _ hq⟩
    · rintro ⟨b, hb, hq⟩
      obtain ⟨a', h1', _⟩ := h.edge b (List.mem_of_getElem? hb)
      rw [hold _ _ h1'] at hq
      exact ⟨b, hb, by rw [h1', hq]⟩

theorem fuse_spec (blocks : List (P × P)) (s : Groups P) (h : Inv blocks s) (l r : P) :
    ∃ s' p, fuse l r s = some (s', p) ∧ Mid blocks l r s' p := by
  have occL : Occurs (blocks ++ [(l, r)]) l := ⟨(l, r), by simp, Or.inl rfl⟩
  have occR : Occurs (blocks ++ [(l, r)]) r := ⟨(l, r), by simp, Or.inr rfl⟩
  have conn := connected_new blocks l r
  cases hl : Dict.get? s.toParent l with
  | none =>
    cases hr : Dict.get? s.toParent r with
    | none =>
      have hg : ∀ q, Dict.get? (Dict.set (Dict.set s.toParent l l) r l) q =
          if q = l ∨ q = r then some l else Dict.get? s.toParent q := by
        intro q
        rw [Dict.get?_set, Dict.get?_set]
        by_cases h1 : r = q
        · simp [h1]
        · by_cases h2 : l = q
          · simp [h2]
          · simp [h1, h2, Ne.symm h1, Ne.symm h2]
      have hne : ∀ q a, Dict.get? s.toParent q = some a → a ≠ l ∧ a ≠ r ∧ q ≠ l ∧ q ≠ r := by
        intro q a hq
        have := h.root q a hq
        refine ⟨?_, ?_, ?_, ?_⟩ <;> rintro rfl <;> simp_all
      refine ⟨_, l, by unfold fuse; rw [hl, hr], ?_⟩
      constructor <;> dsimp only
      · rintro q ⟨a, hq⟩
        rw [hg] at hq
        split_ifs at hq with hc
        · rcases hc with rfl | rfl
          · exact occL
          · exact occR
        · exact occurs_mono _ _ (h.keys q ⟨a, hq⟩)
      · intro q a hq
        rw [hg] at hq
        split_ifs at hq with hc
        · obtain rfl := Option.some.inj hq
          rcases hc with rfl | rfl
          · exact Relation.EqvGen.refl _
          · exact Relation.EqvGen.symm _ _ conn
        · exact connected_mono _ _ (h.sound q a hq)
      · intro b hb
        obtain ⟨a, h1, h2⟩ := h.edge b hb
        have e1 := hne _ _ h1
        have e2 := hne _ _ h2
        refine ⟨a, ?_, ?_⟩
        · rw [hg, if_neg (by rintro (h | h); exacts [e1.2.2.1 h, e1.2.2.2 h]), h1]
        · rw [hg, if_neg (by rintro (h | h); exacts [e2.2.2.1 h, e2.2.2.2 h]), h2]
      · rw [hg, if_pos (Or.inl rfl)]
      · rw [hg, if_pos (Or.inr rfl)]
      · intro q a hq
        rw [hg] at hq
        split_ifs at hq with hc
        · obtain rfl := Option.some.inj hq
          rw [hg, if_pos (Or.inl rfl)]
        · have e := hne _ _ hq
          rw [hg, if_neg (by rintro (h | h); exacts [e.1 h, e.2.1 h]), h.root q a hq]
      · intro a ha
        rw [Dict.get?_set]
        by_cases hal : l = a
        · subst hal
          rw [if_pos rfl]
          refine ⟨_, rfl, fun q => ?_⟩
          rw [hg]
          constructor
          · intro hq
            rw [if_pos]
            split_ifs at hq with hrl
            · simpa using hq
            · exact Or.inl (by simpa using hq)
          · intro hq
            split_ifs at hq with hc
            · rcases hc with rfl | rfl
              · split_ifs <;> simp
              · split_ifs with hrl
                · simp
                · simpa using (not_not.1 hrl)
            · exact absurd rfl (hne _ _ hq).1
        · rw [if_neg hal]
          rw [hg] at ha
          split_ifs at ha with hc
          · exact absurd (Option.some.inj ha) hal
          · obtain ⟨fs, h1, h2⟩ := h.members a ha
            refine ⟨fs, h1, fun q => ?_⟩
            rw [h2, hg]
            constructor
            · intro hq
              have e := hne _ _ hq
              rw [if_neg (by rintro (h | h); exacts [e.2.2.1 h, e.2.2.2 h]), hq]
            · intro hq
              split_ifs at hq with hc'
              · exact absurd (Option.some.inj hq) hal
              · exact hq
      · exact h.wf.set _ _
      · intro a
        rw [hg, Dict.get?_set]
        by_cases hal : l = a
        · subst hal
          simp
        · rw [if_neg hal]
          by_cases har : a = r
          · subst har
            rw [if_pos (Or.inr rfl), ← h.dataKeys, hr]
            simp [hal]
          · rw [if_neg (by rintro (h | h); exacts [hal h.symm, har h])]
            exact h.dataKeys a
      · intro a d hd
        rw [Dict.get?_set] at hd
        by_cases hal : l = a
        · subst hal
          rw [if_pos rfl] at hd
          obtain rfl := Option.some.inj hd
          refine ⟨List.nodup_nil, fun i => ?_⟩
          simp only [List.not_mem_nil, false_iff]
          rintro ⟨b, hb, hq⟩
          obtain ⟨a', h1, _⟩ := h.edge b (List.mem_of_getElem? hb)
          have e := hne _ _ h1
          rw [hg, if_neg (by rintro (h | h); exacts [e.2.2.1 h, e.2.2.2 h]), h1] at hq
          exact e.1 (Option.some.inj hq)
        · rw [if_neg hal] at hd
          obtain ⟨h1, h2⟩ := h.data a d hd
          refine ⟨h1, fun i => ?_⟩
          rw [h2]
          constructor
          · rintro ⟨b, hb, hq⟩
            have e := hne _ _ hq
            exact ⟨b, hb, by rw [hg, if_neg (by rintro (h | h); exacts [e.2.2.1 h, e.2.2.2 h]), hq]⟩
          · rintro ⟨b, hb, hq⟩
            rw [hg] at hq
            split_ifs at hq with hc
            · exact absurd (Option.some.inj hq) hal
            · exact ⟨b, hb, hq⟩
    | some p =>
      obtain ⟨fs, hfs, _⟩ := h.members p (h.root r p hr)
      exact ⟨_, p, by unfold fuse; rw [hl, hr]; simp only [hfs, Option.map_some],
        attach blocks s h l r l r p (Or.inl ⟨rfl, rfl⟩) hl hr fs hfs⟩
  | some p =>
    cases hr : Dict.get? s.toParent r with
    | none =>
      obtain ⟨fs, hfs, _⟩ := h.members p (h.root l p hl)
      exact ⟨_, p, by unfold fuse; rw [hl, hr]; simp only [hfs, Option.map_some],
        attach blocks s h l r r l p (Or.inr ⟨rfl, rfl⟩) hr hl fs hfs⟩
    | some pb =>
      have hp := h.root l p hl
      have hpb := h.root r pb hr
      by_cases he : p = pb
      · subst he
        refine ⟨s, p, by unfold fuse; rw [hl, hr]; simp, ?_⟩
        exact ⟨fun q hq => occurs_mono _ _ (h.keys q hq), fun q a hq => connected_mono _ _ (h.sound q a hq), h.edge, hl, hr, h.root,
          h.members, h.wf, h.dataKeys, h.data⟩
      · obtain ⟨fs, hfs, hfs'⟩ := h.members p hp
        obtain ⟨subs, hsubs, hsubs'⟩ := h.members pb hpb
        obtain ⟨dp, hdp⟩ := (h.dataKeys p).1 hp
        obtain ⟨db, hdb⟩ := (h.dataKeys pb).1 hpb
        obtain ⟨tp, fp, h1, h2, h3, h4⟩ := adopt_spec p subs s.toParent s.fromParent fs hfs
        refine ⟨_, p, by unfold fuse; rw [hl, hr]; simp only [he, if_false, hsubs, h1, hdp, hdb, Option.bind_some, Option.map_some]; rfl, ?_⟩
        -- parents are renamed
        have hg : ∀ q a, Dict.get? tp q = some a ↔
            (a = p ∧ Dict.get? s.toParent q = some pb) ∨ (a ≠ pb ∧ Dict.get? s.toParent q = some a) := by
          intro q a
          rw [h2]
          by_cases hq : q ∈ subs
          · have := (hsubs' q).1 hq
            rw [if_pos hq, this]
            constructor
            · intro h; exact Or.inl ⟨(Option.some.inj h).symm, rfl⟩
            · rintro (⟨rfl, _⟩ | ⟨h, h'⟩)
              · rfl
              · exact absurd (Option.some.inj h').symm h
          · have : Dict.get? s.toParent q ≠ some pb := fun h => hq ((hsubs' q).2 h)
            rw [if_neg hq]
            constructor
            · intro h
              refine Or.inr ⟨?_, h⟩
              rintro rfl
              exact this h
            · rintro (⟨_, h⟩ | ⟨_, h⟩)
              · exact absurd h this
              · exact h
        have conn := connected_new blocks l r
        have cl := connected_mono blocks (l, r) (h.sound l p hl)
        have cr := connected_mono blocks (l, r) (h.sound r pb hr)
        have cpp : Connected (blocks ++ [(l, r)]) pb p :=
          Relation.EqvGen.trans _ _ _ (Relation.EqvGen.symm _ _ cr)
            (Relation.EqvGen.trans _ _ _ (Relation.EqvGen.symm _ _ conn) cl)
        have hroot : ∀ a, Dict.get? tp a = some a ↔ (a ≠ pb ∧ Dict.get? s.toParent a = some a) := by
          intro a
          rw [hg]
          constructor
          · rintro (⟨rfl, h'⟩ | h')
            · rw [hp] at h'
              exact absurd (Option.some.inj h') he
            · exact h'
          · exact Or.inr
        constructor <;> dsimp only
        · rintro q ⟨a, hq⟩
          rcases (hg q a).1 hq with ⟨_, h'⟩ | ⟨_, h'⟩ <;> exact occurs_mono _ _ (h.keys q ⟨_, h'⟩)
        · intro q a hq
          rcases (hg q a).1 hq with ⟨rfl, h'⟩ | ⟨_, h'⟩
          · exact Relation.EqvGen.trans _ _ _ (connected_mono _ _ (h.sound q pb h')) cpp
          · exact connected_mono _ _ (h.sound q a h')
        · intro b hb
          obtain ⟨a, e1, e2⟩ := h.edge b hb
          by_cases ha : a = pb
          · subst ha
            exact ⟨p, (hg _ _).2 (Or.inl ⟨rfl, e1⟩), (hg _ _).2 (Or.inl ⟨rfl, e2⟩)⟩
          · exact ⟨a, (hg _ _).2 (Or.inr ⟨ha, e1⟩), (hg _ _).2 (Or.inr ⟨ha, e2⟩)⟩
        · exact (hg _ _).2 (Or.inr ⟨he, hl⟩)
        · exact (hg _ _).2 (Or.inl ⟨rfl, hr⟩)
        · intro q a hq
          rw [hroot]
          rcases (hg q a).1 hq with ⟨rfl, h'⟩ | ⟨h'', h'⟩
          · exact ⟨he, hp⟩
          · exact ⟨h'', h.root q a h'⟩
        · intro a ha
          rw [hroot] at ha
          by_cases hap : a = p
          · subst hap
            refine ⟨_, h3, fun q => ?_⟩
            rw [List.mem_append, hfs', hsubs', hg]
            constructor
            · rintro (h' | h')
              · exact Or.inr ⟨he, h'⟩
              · exact Or.inl ⟨rfl, h'⟩
            · rintro (⟨_, h'⟩ | ⟨_, h'⟩)
              · exact Or.inr h'
              · exact Or.inl h'
          · obtain ⟨gs, e1, e2⟩ := h.members a ha.2
            refine ⟨gs, by rw [h4 a hap, e1], fun q => ?_⟩
            rw [e2, hg]
            constructor
            · intro h'; exact Or.inr ⟨ha.1, h'⟩
            · rintro (⟨h', _⟩ | ⟨_, h'⟩)
              · exact absurd h' hap
              · exact h'
        · exact WF_del (h.wf.set _ _) _
        · intro a
          rw [hroot, get?_del, Dict.get?_set, h.dataKeys]
          by_cases ha : a = pb
          · simp [ha]
          · rw [if_neg ha]
            by_cases hap : p = a
            · subst hap
              simp [ha, hdp]
            · simp [ha, hap]
        · intro a d hd
          rw [get?_del, Dict.get?_set] at hd
          by_cases ha : a = pb
          · simp [ha] at hd
          · rw [if_neg ha] at hd
            by_cases hap : p = a
            · subst hap
              rw [if_pos rfl] at hd
              obtain rfl := Option.some.inj hd
              obtain ⟨n1, m1⟩ := h.data p dp hdp
              obtain ⟨n2, m2⟩ := h.data pb db hdb
              refine ⟨?_, fun i => ?_⟩
              · refine List.nodup_append.2 ⟨n1, n2, ?_⟩
                rintro i hi j hj rfl
                obtain ⟨b, hb, hq⟩ := (m1 i).1 hi
                obtain ⟨b', hb', hq'⟩ := (m2 i).1 hj
                rw [hb] at hb'
                obtain rfl := Option.some.inj hb'
                rw [hq] at hq'
                exact he (Option.some.inj hq')
              · rw [List.mem_append, m1, m2]
                constructor
                · rintro (⟨b, hb, hq⟩ | ⟨b, hb, hq⟩)
                  · exact ⟨b, hb, (hg _ _).2 (Or.inr ⟨he, hq⟩)⟩
                  · exact ⟨b, hb, (hg _ _).2 (Or.inl ⟨rfl, hq⟩)⟩
                · rintro ⟨b, hb, hq⟩
                  rcases (hg _ _).1 hq with ⟨_, h'⟩ | ⟨_, h'⟩
                  · exact Or.inr ⟨b, hb, h'⟩
                  · exact Or.inl ⟨b, hb, h'⟩
            · rw [if_neg hap] at hd
              obtain ⟨n1, m1⟩ := h.data a d hd
              refine ⟨n1, fun i => ?_⟩
              rw [m1]
              constructor
              · rintro ⟨b, hb, hq⟩
                exact ⟨b, hb, (hg _ _).2 (Or.inr ⟨ha, hq⟩)⟩
              · rintro ⟨b, hb, hq⟩
                rcases (hg _ _).1 hq with ⟨h', _⟩ | ⟨_, h'⟩
                · exact absurd h'.symm hap
                · exact ⟨b, hb, h'⟩

theorem group_append (blocks : List (P × P)) (b : P × P) :
    group (blocks ++ [b]) = (group blocks).bind fun s => (fuse b.1 b.2 s).bind fun sp =>
      (Dict.get? sp.1.dataMap sp.2).map fun d => { sp.1 with dataMap := Dict.set sp.1.dataMap sp.2 (d ++ [blocks.length]) } := by
  unfold group
  rw [List.zipIdx_append, List.foldlM_append]
  simp only [Nat.zero_add, List.zipIdx_cons, List.zipIdx_nil, List.foldlM_cons, List.foldlM_nil, Option.bind_eq_bind, Option.pure_def]
  congr 1
  funext s
  exact Option.bind_fun_some _

theorem group_inv (blocks : List (P × P)) : ∃ s, group blocks = some s ∧ Inv blocks s := by
  induction blocks using List.reverseRecOn with
  | nil =>
    refine ⟨_, rfl, ?_⟩
    constructor <;> simp [Dict.WF]
  | append_singleton t b ih =>
    obtain ⟨s, hs, h⟩ := ih
    obtain ⟨l, r⟩ := b
    obtain ⟨s', p, hf, m⟩ := fuse_spec t s h l r
    obtain ⟨d, hd⟩ := (m.dataKeys p).1 (m.root l p m.left)
    refine ⟨_, by rw [group_append, hs]; simp only [Option.bind_some, hf, hd, Option.map_some]; rfl, ?_⟩
    have hlen : ∀ i b, (t ++ [(l, r)])[i]? = some b ↔ t[i]? = some b ∨ (i = t.length ∧ b = (l, r)) := by
      intro i b
      rcases Nat.lt_trichotomy i t.length with hi | hi | hi
      · rw [List.getElem?_append_left hi]
        simp [Nat.ne_of_lt hi]
      · subst hi
        simp [eq_comm]
      · rw [List.getElem?_eq_none (by simp; omega), List.getElem?_eq_none (by omega)]
        simp; omega
    constructor <;> dsimp only
    · exact m.keys
    · exact m.sound
    · intro b hb
      rcases List.mem_append.1 hb with hb | hb
      · exact m.edge b hb
      · rw [List.mem_singleton] at hb
        subst hb
        exact ⟨p, m.left, m.right⟩
    · exact m.root
    · exact m.members
    · exact m.wf.set _ _
    · intro a
      rw [m.dataKeys, Dict.get?_set]
      by_cases hap : p = a
      · subst hap; simp [hd]
      · simp [hap]
    · intro a e he
      rw [Dict.get?_set] at he
      by_cases hap : p = a
      · subst hap
        rw [if_pos rfl] at he
        obtain rfl := Option.some.inj he
        obtain ⟨n, m1⟩ := m.data p d hd
        refine ⟨?_, fun i => ?_⟩
        · refine List.nodup_append.2 ⟨n, by simp, ?_⟩
          rintro i hi j hj rfl
          rw [List.mem_singleton] at hj
          obtain ⟨b, hb, _⟩ := (m1 i).1 hi
          rw [List.getElem?_eq_none (by omega)] at hb
          exact absurd hb (by simp)
        · rw [List.mem_append, m1, List.mem_singleton]
          constructor
          · rintro (⟨b, hb, hq⟩ | rfl)
            · exact ⟨b, (hlen _ _).2 (Or.inl hb), hq⟩
            · exact ⟨(l, r), (hlen _ _).2 (Or.inr ⟨rfl, rfl⟩), m.left⟩
          · rintro ⟨b, hb, hq⟩
            rcases (hlen _ _).1 hb with hb | ⟨hb, _⟩
            · exact Or.inl ⟨b, hb, hq⟩
            · exact Or.inr hb
      · rw [if_neg hap] at he
        obtain ⟨n, m1⟩ := m.data a e he
        refine ⟨n, fun i => ?_⟩
        rw [m1]
        constructor
        · rintro ⟨b, hb, hq⟩
          exact ⟨b, (hlen _ _).2 (Or.inl hb), hq⟩
        · rintro ⟨b, hb, hq⟩
          rcases (hlen _ _).1 hb with hb | ⟨_, rfl⟩
          · exact ⟨b, hb, hq⟩
          · rw [m.left] at hq
            exact absurd (Option.some.inj hq) hap

theorem connected_parent {blocks : List (P × P)} {s : Groups P} (h : Inv blocks s) {p q : P} (hpq : Connected blocks p q) :
    Dict.get? s.toParent p = Dict.get? s.toParent q := by
  induction hpq with
  | rel x y hxy =>
    obtain ⟨a, h1, h2⟩ := h.edge _ hxy
    rw [h1, h2]
  | refl x => rfl
  | symm x y _ ih => exact ih.symm
  | trans x y z _ _ ih1 ih2 => exact ih1.trans ih2

/-! ### Theorems -/

/-- **C39**: for every list of blocks the grouping succeeds, two labels get the same parent exactly when a chain of blocks connects
them, and a label has a parent exactly when it belongs to some block. -/
theorem C39_labels (blocks : List (P × P)) :
    ∃ s, group blocks = some s ∧
      (∀ p, (∃ a, Dict.get? s.toParent p = some a) ↔ Occurs blocks p) ∧
      ∀ p q, Occurs blocks p → (Dict.get? s.toParent p = Dict.get? s.toParent q ↔ Connected blocks p q) := by
  obtain ⟨s, hs, h⟩ := group_inv blocks
  have hk : ∀ p, (∃ a, Dict.get? s.toParent p = some a) ↔ Occurs blocks p := by
    refine fun p => ⟨h.keys p, ?_⟩
    rintro ⟨b, hb, rfl | rfl⟩
    · obtain ⟨a, h1, _⟩ := h.edge b hb; exact ⟨a, h1⟩
    · obtain ⟨a, _, h2⟩ := h.edge b hb; exact ⟨a, h2⟩
  refine ⟨s, hs, hk, fun p q hp => ⟨fun e => ?_, connected_parent h⟩⟩
  obtain ⟨a, ha⟩ := (hk p).2 hp
  exact Relation.EqvGen.trans _ _ _ (h.sound p a ha) (Relation.EqvGen.symm _ _ (h.sound q a (by rw [← e, ha])))

/-- **C39**: the groups of blocks that are exponentiated together.  Every block is in exactly one group, no group is empty, and two
blocks are in the same group exactly when their labels are connected by a chain of blocks. -/
theorem C39_groups (blocks : List (P × P)) :
    ∃ s, group blocks = some s ∧
      (s.dataMap.map Prod.snd).flatten.Perm (List.range blocks.length) ∧
      (∀ d ∈ s.dataMap.map Prod.snd, d ≠ []) ∧
      ∀ d ∈ s.dataMap.map Prod.snd, ∀ i ∈ d, ∀ b, blocks[i]? = some b → ∀ j c, blocks[j]? = some c →
        (j ∈ d ↔ Connected blocks b.1 c.1) := by
  obtain ⟨s, hs, h⟩ := group_inv blocks
  have hget : ∀ e ∈ s.dataMap, Dict.get? s.dataMap e.1 = some e.2 := fun e he => Dict.get?_of_mem h.wf he
  refine ⟨s, hs, ?_, ?_, ?_⟩
  · rw [List.perm_ext_iff_of_nodup _ List.nodup_range]
    · intro i
      simp only [List.mem_flatten, List.mem_map, List.mem_range]
      constructor
      · rintro ⟨d, ⟨e, he, rfl⟩, hi⟩
        obtain ⟨b, hb, _⟩ := ((h.data _ _ (hget e he)).2 i).1 hi
        exact (List.getElem?_eq_some_iff.1 hb).1
      · intro hi
        obtain ⟨a, h1, _⟩ := h.edge blocks[i] (List.getElem_mem hi)
        obtain ⟨d, hd⟩ := (h.dataKeys a).1 (h.root _ _ h1)
        exact ⟨d, ⟨(a, d), Dict.mem_of_get? hd, rfl⟩, ((h.data a d hd).2 i).2 ⟨_, List.getElem?_eq_getElem hi, h1⟩⟩
    · rw [List.nodup_flatten]
      refine ⟨?_, ?_⟩
      · intro d hd
        obtain ⟨e, he, rfl⟩ := List.mem_map.1 hd
        exact (h.data _ _ (hget e he)).1
      · have hw : (s.dataMap).Pairwise fun x y => x.1 ≠ y.1 := by
          have := h.wf
          unfold Dict.WF at this
          exact List.pairwise_map.1 this
        rw [List.pairwise_map]
        refine hw.imp_of_mem ?_
        intro x y hx hy hxy i hi hj
        obtain ⟨b, hb, hq⟩ := ((h.data _ _ (hget x hx)).2 i).1 hi
        obtain ⟨c, hc, hq'⟩ := ((h.data _ _ (hget y hy)).2 i).1 hj
        rw [hb] at hc
        obtain rfl := Option.some.inj hc
        rw [hq] at hq'
        exact hxy (Option.some.inj hq')
  · intro d hd
    obtain ⟨e, he, rfl⟩ := List.mem_map.1 hd
    have ha := (h.dataKeys e.1).2 ⟨_, hget e he⟩
    obtain ⟨b, hb, hor⟩ := h.keys e.1 ⟨_, ha⟩
    obtain ⟨a, h1, h2⟩ := h.edge b hb
    have : a = e.1 := by
      rcases hor with hor | hor
      · rw [← hor, ha] at h1; exact (Option.some.inj h1).symm
      · rw [← hor, ha] at h2; exact (Option.some.inj h2).symm
    rw [this] at h1
    obtain ⟨i, hi⟩ := List.mem_iff_getElem?.1 hb
    intro hnil
    have := ((h.data _ _ (hget e he)).2 i).2 ⟨b, hi, h1⟩
    rw [hnil] at this
    simp at this
  · intro d hd i hi b hb j c hc
    obtain ⟨e, he, rfl⟩ := List.mem_map.1 hd
    obtain ⟨b', hb', hq⟩ := ((h.data _ _ (hget e he)).2 i).1 hi
    rw [hb] at hb'
    obtain rfl := Option.some.inj hb'
    rw [(h.data _ _ (hget e he)).2 j]
    constructor
    · rintro ⟨c', hc', hq'⟩
      rw [hc] at hc'
      obtain rfl := Option.some.inj hc'
      exact Relation.EqvGen.trans _ _ _ (h.sound _ _ hq) (Relation.EqvGen.symm _ _ (h.sound _ _ hq'))
    · intro hcn
      exact ⟨c, hc, by rw [← connected_parent h hcn, hq]⟩

/-- Six labels in two chains: the fourth block joins the groups of 1 and 3, the fifth is a group of its own. -/
example : (group [(1, 2), (3, 4), (3, 3), (4, 2), (6, 5)]).map (fun s => s.dataMap) = some [(3, [1, 2, 0, 3]), (6, [4])] := by
  decide

example : Connected [(1, 2), (3, 4), (3, 3), (4, 2), (6, 5)] 1 3 :=
  .trans _ 2 _ (.rel _ _ (by decide)) (.trans _ 4 _ (.symm _ _ (.rel _ _ (by decide))) (.symm _ _ (.rel _ _ (by decide))))

end FuseMap
end Verif
