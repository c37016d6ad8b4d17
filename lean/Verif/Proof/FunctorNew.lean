import Verif.Proof.FunctorProd
import Verif.Spec.Functor

/-! Lemmas for C67: what `__init__` of a functor gives. -/

set_option linter.unusedSectionVars false

namespace Verif
open Functor

section
variable {Q K : Type} [DecidableEq Q] [AddCommGroup Q]

/-- The label occurs in the bond. -/
def HasLabel (d : BondInfo Q) (q : Q) : Prop := ∃ n, Dict.get? d q = some n

theorem isCombination_exists {infos : List (BondInfo Q)} {q : List Q} : (∃ s, IsCombination infos q s) ↔ List.Forall₂ HasLabel infos q := by
  constructor
  · rintro ⟨s, h⟩
    induction h with
    | nil => exact .nil
    | cons h1 _ ih => exact .cons ⟨_, h1⟩ ih
  · intro h
    induction h with
    | nil => exact ⟨[], .nil⟩
    | cons h1 _ ih =>
      obtain ⟨n, hn⟩ := h1
      obtain ⟨s, hs⟩ := ih
      exact ⟨n :: s, .cons hn hs⟩

theorem forall₂_range' {α β : Type} {R : α → β → Prop} {f : Nat → α} {a : Nat} {l : List β} (d : β) (h : ∀ i < l.length, R (f (a + i)) (l.getD i d)) :
    List.Forall₂ R ((List.range' a l.length).map f) l := by
  induction l generalizing a with
  | nil => exact .nil
  | cons x t ih =>
    rw [List.length_cons, List.range'_succ, List.map_cons]
    refine .cons (by simpa using h 0 (by simp)) (ih fun i hi => ?_)
    have := h (i + 1) (by simpa using hi)
    rw [List.getD_cons_succ] at this
    rwa [show a + 1 + i = a + (i + 1) by omega]

theorem getD_middle {α : Type} (x s y : List α) (d : α) {i : Nat} (hi : i < s.length) : (x ++ s ++ y).getD (x.length + i) d = s.getD i d := by
  rw [List.getD_eq_getElem?_getD, List.getD_eq_getElem?_getD, List.append_assoc, List.getElem?_append_right (by omega), Nat.add_sub_cancel_left, List.getElem?_append_left hi]

section
variable {W : FlatOp Q K} {x s y : List (BondInfo Q)}

theorem legDicts_sub (h : ∀ r ∈ W.rows, IsCombination (x ++ s ++ y) r.1 r.2) : List.Forall₂ SubInfo ((List.range' x.length s.length).map (legDict W)) s := by
  refine forall₂_range' [] fun i hi => ?_
  have := (legDict_spec h (i := x.length + i) (by simp; omega)).1
  rwa [getD_middle x s y [] hi] at this

theorem legDicts_has (h : ∀ r ∈ W.rows, IsCombination (x ++ s ++ y) r.1 r.2) {q : List Q} (hq : q.length = s.length)
    (hr : ∀ i < s.length, ∃ r ∈ W.rows, r.1.getD (x.length + i) 0 = q.getD i 0) : List.Forall₂ HasLabel ((List.range' x.length s.length).map (legDict W)) q := by
  rw [← hq]
  refine forall₂_range' 0 fun i hi => ?_
  exact ((legDict_spec h (i := x.length + i) (by simp; omega)).2 _).2 (hr i (by omega))

theorem legDicts_row (h : ∀ r ∈ W.rows, IsCombination (x ++ s ++ y) r.1 r.2) {qx q qy : List Q} {sh : List Nat} (hr : (qx ++ q ++ qy, sh) ∈ W.rows) (hx : qx.length = x.length)
    (hq : q.length = s.length) : List.Forall₂ HasLabel ((List.range' x.length s.length).map (legDict W)) q :=
  legDicts_has h hq fun i hi => ⟨_, hr, by rw [← hx, getD_middle qx q qy 0 (by omega)]⟩

end

/-- Legs of the two operator tensors. -/
structure OpLegs (u0 d0 u1 d1 : List (BondInfo Q)) (m : BondInfo Q) (L R : FlatOp Q K) : Prop where
  hL : ∀ r ∈ L.rows, IsCombination ([(0, 1)] :: u0 ++ d0 ++ [m]) r.1 r.2
  hR : ∀ r ∈ R.rows, IsCombination (m :: u1 ++ d1 ++ [[(0, 1)]]) r.1 r.2
  lenL : u0.length = d0.length
  lenR : u1.length = d1.length
  wL : L.odd.WellFormed ∧ L.even.WellFormed
  wR : R.odd.WellFormed ∧ R.even.WellFormed

theorem functor_ndim {W : FlatOp Q K} {legs : List (BondInfo Q)} (w : W.odd.WellFormed ∧ W.even.WellFormed) (h : ∀ r ∈ W.rows, IsCombination legs r.1 r.2) (hne : noBlocks W = false) :
    ndim W = legs.length := by
  have key : ∀ F : Flat Q K, F.WellFormed → (∀ r ∈ F.rows, IsCombination legs r.1 r.2) → F.qs ≠ [] → (F.qs.headD []).length = legs.length := by
    intro F wF hF hn
    obtain ⟨q, t, e⟩ := List.exists_cons_of_ne_nil hn
    rw [e, List.headD_cons]
    have : q ∈ F.rows.map Prod.fst := by
      rw [Flat.rows_fst wF, e]
      exact List.mem_cons_self
    obtain ⟨b, hb, rfl⟩ := List.mem_map.1 this
    exact (hF b hb).lengths.1
  unfold ndim
  by_cases ho : W.odd.qs.length ≠ 0
  · rw [if_pos ho]
    exact key _ w.1 (fun r hr => h r (List.mem_append_left _ hr)) (fun e => ho (by rw [e]; rfl))
  · rw [if_neg ho]
    refine key _ w.2 (fun r hr => h r (List.mem_append_right _ hr)) fun e => ?_
    unfold noBlocks at hne
    have ho' : W.odd.qs = [] := by simpa using ho
    rw [e, ho'] at hne
    simp at hne

theorem nphys_eq {W : FlatOp Q K} {a b : BondInfo Q} {u d : List (BondInfo Q)} (w : W.odd.WellFormed ∧ W.even.WellFormed) (h : ∀ r ∈ W.rows, IsCombination (a :: u ++ d ++ [b]) r.1 r.2)
    (hl : u.length = d.length) (hne : noBlocks W = false) : nphys W = d.length ∧ ndim W = 1 + d.length + d.length + 1 := by
  have := functor_ndim w h hne
  simp only [List.length_append, List.length_cons, List.length_nil] at this
  unfold nphys
  rw [this, hl]
  constructor <;> omega

section
variable {u0 d0 u1 d1 : List (BondInfo Q)} {m : BondInfo Q} {L R : FlatOp Q K}

theorem rows_ne {W : FlatOp Q K} (w : W.odd.WellFormed ∧ W.even.WellFormed) (h : noBlocks W = false) : ∃ r, r ∈ W.rows := by
  by_contra hn
  push Not at hn
  have h1 : W.odd.qs = [] := by
    rw [← Flat.rows_fst w.1]
    rw [List.map_eq_nil_iff, List.eq_nil_iff_forall_not_mem]
    exact fun r hr => hn r (List.mem_append_left _ hr)
  have h2 : W.even.qs = [] := by
    rw [← Flat.rows_fst w.2]
    rw [List.map_eq_nil_iff, List.eq_nil_iff_forall_not_mem]
    exact fun r hr => hn r (List.mem_append_right _ hr)
  unfold noBlocks at h
  rw [h1, h2] at h
  simp at h

theorem legDict_ne {W : FlatOp Q K} (w : W.odd.WellFormed ∧ W.even.WellFormed) (h : noBlocks W = false) (i : Nat) {legs : List (BondInfo Q)}
    (hr : ∀ r ∈ W.rows, IsCombination legs r.1 r.2) (hi : i < legs.length) : legDict W i ≠ [] := by
  obtain ⟨r, hm⟩ := rows_ne w h
  obtain ⟨n, hn⟩ := ((legDict_spec hr hi).2 (r.1.getD i 0)).2 ⟨r, hm, rfl⟩
  intro e
  rw [e] at hn
  simp at hn

/-- The four parts of the list of bonds. -/
theorem functor_infos (h : OpLegs u0 d0 u1 d1 m L R) (nL : noBlocks L = false) (nR : noBlocks R = false) :
    cinfos L R = (List.range' 0 1).map (legDict L) ++ (List.range' ([(0, 1)] :: u0).length d0.length).map (legDict L) ++
      (List.range' (m :: u1).length d1.length).map (legDict R) ++ (List.range' (m :: u1 ++ d1).length 1).map (legDict R) ∧
    vinfos L R = (List.range' 0 1).map (legDict L) ++ (List.range' [[((0 : Q), 1)]].length u0.length).map (legDict L) ++
      (List.range' [m].length u1.length).map (legDict R) ++ (List.range' (m :: u1 ++ d1).length 1).map (legDict R) := by
  obtain ⟨e1, e2⟩ := nphys_eq h.wL h.hL h.lenL nL
  obtain ⟨e3, e4⟩ := nphys_eq h.wR h.hR h.lenR nR
  unfold cinfos vinfos
  rw [e1, e3, e4]
  simp only [List.length_cons, List.length_append, List.length_nil, h.lenL, h.lenR]
  constructor
  · simp [Nat.add_comm]
  · simp [Nat.add_comm]

theorem cinfos_sub (h : OpLegs u0 d0 u1 d1 m L R) (nL : noBlocks L = false) (nR : noBlocks R = false) :
    List.Forall₂ SubInfo (cinfos L R) ([(0, 1)] :: (d0 ++ d1) ++ [[(0, 1)]]) := by
  rw [(functor_infos h nL nR).1]
  have a1 := legDicts_sub (W := L) (x := []) (s := [[((0 : Q), 1)]]) (y := u0 ++ d0 ++ [m]) (by simpa using h.hL)
  have a2 := legDicts_sub (W := L) (x := [((0 : Q), 1)] :: u0) (s := d0) (y := [m]) (by simpa using h.hL)
  have a3 := legDicts_sub (W := R) (x := m :: u1) (s := d1) (y := [[((0 : Q), 1)]]) (by simpa using h.hR)
  have a4 := legDicts_sub (W := R) (x := m :: u1 ++ d1) (s := [[((0 : Q), 1)]]) (y := []) (by simpa using h.hR)
  have := List.rel_append (List.rel_append (List.rel_append a1 a2) a3) a4
  simpa using this

theorem vinfos_sub (h : OpLegs u0 d0 u1 d1 m L R) (nL : noBlocks L = false) (nR : noBlocks R = false) :
    List.Forall₂ SubInfo (vinfos L R) ([(0, 1)] :: (u0 ++ u1) ++ [[(0, 1)]]) := by
  rw [(functor_infos h nL nR).2]
  have a1 := legDicts_sub (W := L) (x := []) (s := [[((0 : Q), 1)]]) (y := u0 ++ d0 ++ [m]) (by simpa using h.hL)
  have a2 := legDicts_sub (W := L) (x := [[((0 : Q), 1)]]) (s := u0) (y := d0 ++ [m]) (by simpa using h.hL)
  have a3 := legDicts_sub (W := R) (x := [m]) (s := u1) (y := d1 ++ [[((0 : Q), 1)]]) (by simpa using h.hR)
  have a4 := legDicts_sub (W := R) (x := m :: u1 ++ d1) (s := [[((0 : Q), 1)]]) (y := []) (by simpa using h.hR)
  have := List.rel_append (List.rel_append (List.rel_append a1 a2) a3) a4
  simpa using this

theorem cinfos_has (h : OpLegs u0 d0 u1 d1 m L R) (nL : noBlocks L = false) (nR : noBlocks R = false) {p q : List Q} (hp : p.length = d0.length) (hq : q.length = d1.length)
    (sp : ∀ i < d0.length, ∃ r ∈ L.rows, r.1.getD (1 + d0.length + i) 0 = p.getD i 0) (sq : ∀ i < d1.length, ∃ r ∈ R.rows, r.1.getD (1 + d1.length + i) 0 = q.getD i 0) :
    List.Forall₂ HasLabel (cinfos L R) (0 :: (p ++ q) ++ [0]) := by
  obtain ⟨rl, hl⟩ := rows_ne h.wL nL
  obtain ⟨rr, hr⟩ := rows_ne h.wR nR
  obtain ⟨l', -, el, -, -⟩ := isCombination_tail (h.hL rl hl)
  obtain ⟨r', -, er, -, -⟩ := isCombination_init (h.hR rr hr)
  have lr := (h.hR rr hr).lengths.1
  rw [er] at lr
  have lr' : r'.length = (m :: u1 ++ d1).length := by
    simp only [List.length_append, List.length_cons, List.length_nil] at lr ⊢
    omega
  rw [(functor_infos h nL nR).1]
  have a1 := legDicts_has (W := L) (x := []) (s := [[((0 : Q), 1)]]) (y := u0 ++ d0 ++ [m]) (by simpa using h.hL) (q := [0]) rfl
    (fun i hi => ⟨rl, hl, by
      have : i = 0 := by simpa using hi
      subst this
      rw [el]
      rfl⟩)
  have a2 := legDicts_has (W := L) (x := [((0 : Q), 1)] :: u0) (s := d0) (y := [m]) (by simpa using h.hL) (q := p) hp
    (fun i hi => by
      obtain ⟨r, hr, e⟩ := sp i hi
      exact ⟨r, hr, by rw [← e, List.length_cons, h.lenL, Nat.add_comm 1]⟩)
  have a3 := legDicts_has (W := R) (x := m :: u1) (s := d1) (y := [[((0 : Q), 1)]]) (by simpa using h.hR) (q := q) hq
    (fun i hi => by
      obtain ⟨r, hr, e⟩ := sq i hi
      exact ⟨r, hr, by rw [← e, List.length_cons, h.lenR, Nat.add_comm 1]⟩)
  have a4 := legDicts_has (W := R) (x := m :: u1 ++ d1) (s := [[((0 : Q), 1)]]) (y := []) (by simpa using h.hR) (q := [0]) rfl
    (fun i hi => ⟨rr, hr, by
      have : i = 0 := by simpa using hi
      subst this
      rw [er, ← lr']
      simp⟩)
  have := List.rel_append (List.rel_append (List.rel_append a1 a2) a3) a4
  simpa using this

theorem vinfos_has (h : OpLegs u0 d0 u1 d1 m L R) (nL : noBlocks L = false) (nR : noBlocks R = false) {p q : List Q} (hp : p.length = u0.length) (hq : q.length = u1.length)
    (sp : ∀ i < u0.length, ∃ r ∈ L.rows, r.1.getD (1 + i) 0 = p.getD i 0) (sq : ∀ i < u1.length, ∃ r ∈ R.rows, r.1.getD (1 + i) 0 = q.getD i 0) :
    List.Forall₂ HasLabel (vinfos L R) (0 :: (p ++ q) ++ [0]) := by
  obtain ⟨rl, hl⟩ := rows_ne h.wL nL
  obtain ⟨rr, hr⟩ := rows_ne h.wR nR
  obtain ⟨l', -, el, -, -⟩ := isCombination_tail (h.hL rl hl)
  obtain ⟨r', -, er, -, -⟩ := isCombination_init (h.hR rr hr)
  have lr := (h.hR rr hr).lengths.1
  rw [er] at lr
  have lr' : r'.length = (m :: u1 ++ d1).length := by
    simp only [List.length_append, List.length_cons, List.length_nil] at lr ⊢
    omega
  rw [(functor_infos h nL nR).2]
  have a1 := legDicts_has (W := L) (x := []) (s := [[((0 : Q), 1)]]) (y := u0 ++ d0 ++ [m]) (by simpa using h.hL) (q := [0]) rfl
    (fun i hi => ⟨rl, hl, by
      have : i = 0 := by simpa using hi
      subst this
      rw [el]
      rfl⟩)
  have a2 := legDicts_has (W := L) (x := [[((0 : Q), 1)]]) (s := u0) (y := d0 ++ [m]) (by simpa using h.hL) (q := p) hp (fun i hi => by simpa using sp i hi)
  have a3 := legDicts_has (W := R) (x := [m]) (s := u1) (y := d1 ++ [[((0 : Q), 1)]]) (by simpa using h.hR) (q := q) hq (fun i hi => by simpa using sq i hi)
  have a4 := legDicts_has (W := R) (x := m :: u1 ++ d1) (s := [[((0 : Q), 1)]]) (y := []) (by simpa using h.hR) (q := [0]) rfl
    (fun i hi => ⟨rr, hr, by
      have : i = 0 := by simpa using hi
      subst this
      rw [er, ← lr']
      simp⟩)
  have := List.rel_append (List.rel_append (List.rel_append a1 a2) a3) a4
  simpa using this

theorem infos_wf (L R : FlatOp Q K) : (∀ b ∈ cinfos L R, Dict.WF b) ∧ ∀ b ∈ vinfos L R, Dict.WF b := by
  constructor
  · intro b hb
    unfold cinfos at hb
    simp only [List.cons_append, List.mem_cons, List.mem_append, List.mem_map, List.not_mem_nil, or_false] at hb
    rcases hb with rfl | (⟨i, -, rfl⟩ | ⟨i, -, rfl⟩) | rfl <;> exact legDict_wf _ _
  · intro b hb
    unfold vinfos at hb
    simp only [List.cons_append, List.mem_cons, List.mem_append, List.mem_map, List.not_mem_nil, or_false] at hb
    rcases hb with rfl | (⟨i, -, rfl⟩ | ⟨i, -, rfl⟩) | rfl <;> exact legDict_wf _ _

theorem has_ne {infos : List (BondInfo Q)} {q : List Q} (h : List.Forall₂ HasLabel infos q) : ∀ b ∈ infos, b ≠ [] := by
  induction h with
  | nil => exact fun b hb => absurd hb (by simp)
  | cons h1 _ ih =>
    intro b hb
    rcases List.mem_cons.1 hb with rfl | hb
    · obtain ⟨n, hn⟩ := h1
      rintro rfl
      simp at hn
    · exact ih b hb

theorem infos_ne (h : OpLegs u0 d0 u1 d1 m L R) (nL : noBlocks L = false) (nR : noBlocks R = false) : (∀ b ∈ cinfos L R, b ≠ []) ∧ ∀ b ∈ vinfos L R, b ≠ [] := by
  obtain ⟨rl, hl⟩ := rows_ne h.wL nL
  obtain ⟨rr, hr⟩ := rows_ne h.wR nR
  constructor
  · refine has_ne (cinfos_has h nL nR (p := (List.range d0.length).map fun i => rl.1.getD (1 + d0.length + i) 0)
      (q := (List.range d1.length).map fun i => rr.1.getD (1 + d1.length + i) 0) (by simp) (by simp) (fun i hi => ⟨rl, hl, ?_⟩) fun i hi => ⟨rr, hr, ?_⟩)
    · simp [hi]
    · simp [hi]
  · refine has_ne (vinfos_has h nL nR (p := (List.range u0.length).map fun i => rl.1.getD (1 + i) 0)
      (q := (List.range u1.length).map fun i => rr.1.getD (1 + i) 0) (by simp) (by simp) (fun i hi => ⟨rl, hl, ?_⟩) fun i hi => ⟨rr, hr, ?_⟩)
    · simp [hi]
    · simp [hi]

theorem or_sub {xs ys bs : List (BondInfo Q)} (hx : List.Forall₂ SubInfo xs bs) (hy : List.Forall₂ SubInfo ys bs) (wy : ∀ b ∈ ys, Dict.WF b) :
    List.Forall₂ SubInfo (List.zipWith orInfo xs ys) bs ∧
      ∀ q, List.Forall₂ HasLabel (List.zipWith orInfo xs ys) q ↔ q.length = bs.length ∧ ∀ i < bs.length, HasLabel (xs.getD i []) (q.getD i 0) ∨ HasLabel (ys.getD i []) (q.getD i 0) := by
  induction hx generalizing ys with
  | nil =>
    cases hy
    refine ⟨.nil, fun q => ⟨?_, ?_⟩⟩
    · intro h
      cases h
      simp
    · intro h
      rw [List.length_eq_zero_iff.1 h.1]
      exact .nil
  | @cons x b xs bs h1 h2 ih =>
    cases hy with
    | @cons y _ ys _ g1 g2 =>
      obtain ⟨i1, i2⟩ := ih g2 fun b hb => wy b (List.mem_cons_of_mem _ hb)
      obtain ⟨o1, o2⟩ := orInfo_spec x y h1 (wy y List.mem_cons_self) g1
      refine ⟨.cons o1 i1, fun q => ?_⟩
      rw [List.zipWith_cons_cons]
      cases q with
      | nil =>
        constructor
        · intro h
          cases h
        · intro h
          simp at h
      | cons a q =>
        rw [List.forall₂_cons, i2 q]
        have : HasLabel (orInfo x y) a ↔ HasLabel x a ∨ HasLabel y a := o2 a
        rw [this]
        constructor
        · rintro ⟨e1, e2, e3⟩
          refine ⟨by simp [e2], fun i hi => ?_⟩
          cases i with
          | zero => simpa using e1
          | succ i => simpa using e3 i (by simpa using hi)
        · rintro ⟨e1, e2⟩
          refine ⟨by simpa using e2 0 (by simp), by simpa using e1, fun i hi => ?_⟩
          simpa using e2 (i + 1) (by simpa using hi)

theorem or_wf {xs ys : List (BondInfo Q)} (hx : ∀ b ∈ xs, Dict.WF b) : ∀ b ∈ List.zipWith orInfo xs ys, Dict.WF b := by
  induction xs generalizing ys with
  | nil => intro b hb; simp at hb
  | cons x xs ih =>
    cases ys with
    | nil => intro b hb; simp at hb
    | cons y ys =>
      intro b hb
      rw [List.zipWith_cons_cons] at hb
      rcases List.mem_cons.1 hb with rfl | hb
      · exact orInfo_wf _ _ (hx x List.mem_cons_self)
      · exact ih (fun b hb => hx b (List.mem_cons_of_mem _ hb)) b hb

theorem has_getD {infos : List (BondInfo Q)} {q : List Q} (h : List.Forall₂ HasLabel infos q) {i : Nat} (hi : i < infos.length) : HasLabel (infos.getD i []) (q.getD i 0) := by
  induction h generalizing i with
  | nil => simp at hi
  | cons h1 _ ih =>
    cases i with
    | zero => simpa using h1
    | succ i => simpa using ih (by simpa using hi)

/-- A tensor of zeros with all allowed blocks. -/
structure Zeros [AddCommMonoid K] (legs : List (BondInfo Q)) (F : Flat Q K) : Prop where
  wf : F.WellFormed
  legs : Conforms legs (F.toSparse id)
  nodup : F.qs.Nodup
  zero : F.data = List.replicate F.data.length 0

theorem mats_spec [AddCommMonoid K] (le : Q → Q → Bool) (h : OpLegs u0 d0 u1 d1 m L R) (nL : noBlocks L = false) (nR : noBlocks R = false) {pattern : List Bool} {dq : Option Q}
    {sym : Bool} (hs : sym = true → u0 = d0 ∧ u1 = d1) (hp : pattern.length = d0.length + d1.length + 2) :
    ∃ c v : Flat Q K, FlatFunctor.initMats le L R pattern dq sym = some (c, v) ∧ Zeros ([(0, 1)] :: (d0 ++ d1) ++ [[(0, 1)]]) c ∧ Zeros ([(0, 1)] :: (u0 ++ u1) ++ [[(0, 1)]]) v ∧
      (∀ q, List.Forall₂ HasLabel (cinfos L R) q → signedSum pattern q = dq.getD 0 → q ∈ c.qs) ∧
      (∀ q, List.Forall₂ HasLabel (vinfos L R) q → signedSum pattern q = dq.getD 0 → q ∈ v.qs) ∧
      (∀ q ∈ c.qs, signedSum pattern q = dq.getD 0) ∧
      (sym = true → c = v ∧ ∀ q : List Q, q.length = d0.length + d1.length + 2 →
        (∀ i < d0.length + d1.length + 2, HasLabel ((cinfos L R).getD i []) (q.getD i 0) ∨ HasLabel ((vinfos L R).getD i []) (q.getD i 0)) → signedSum pattern q = dq.getD 0 → q ∈ c.qs) := by
  have cs := cinfos_sub h nL nR
  have vs := vinfos_sub h nL nR
  have cl : (cinfos L R).length = d0.length + d1.length + 2 := by rw [cs.length_eq]; simp; omega
  have vl : (vinfos L R).length = d0.length + d1.length + 2 := by rw [vs.length_eq]; simp [h.lenL, h.lenR]; omega
  have zr : ∀ {F : Flat Q K} {n : Nat}, F.data = List.replicate n 0 → F.data = List.replicate F.data.length 0 := by
    intro F n e
    rw [e]
    simp
  cases sym with
  | false =>
    obtain ⟨c, ec, c1, c2, c3, ⟨nc, c4⟩, c5⟩ := zeros_spec (K := K) le (dq := dq) (pattern := pattern) cs (infos_wf L R).1 (infos_ne h nL nR).1 (by omega) (by omega)
    obtain ⟨v, ev, v1, v2, v3, ⟨nv, v4⟩, v5⟩ := zeros_spec (K := K) le (dq := dq) (pattern := pattern) vs (infos_wf L R).2 (infos_ne h nL nR).2 (by omega) (by omega)
    refine ⟨c, v, ?_, ⟨c1, c2, c3, zr c4⟩, ⟨v1, v2, v3, zr v4⟩, fun q hq hs => (c5 q).2 ⟨isCombination_exists.2 hq, hs⟩,
      fun q hq hs => (v5 q).2 ⟨isCombination_exists.2 hq, hs⟩, fun q hq => ((c5 q).1 hq).2, fun h => absurd h (by simp)⟩
    unfold FlatFunctor.initMats
    rw [if_neg (by simp), ec, ev]
    rfl
  | true =>
    obtain ⟨rfl, rfl⟩ := hs rfl
    obtain ⟨o1, o2⟩ := or_sub cs vs (infos_wf L R).2
    have ol : (List.zipWith orInfo (cinfos L R) (vinfos L R)).length = u0.length + u1.length + 2 := by rw [List.length_zipWith, cl, vl]; omega
    have lt : ∀ q : List Q, List.Forall₂ HasLabel (cinfos L R) q → List.Forall₂ HasLabel (List.zipWith orInfo (cinfos L R) (vinfos L R)) q := by
      intro q hq
      exact (o2 q).2 ⟨by rw [← hq.length_eq, cs.length_eq], fun i hi => .inl (has_getD hq (by rw [cs.length_eq]; exact hi))⟩
    have rt : ∀ q : List Q, List.Forall₂ HasLabel (vinfos L R) q → List.Forall₂ HasLabel (List.zipWith orInfo (cinfos L R) (vinfos L R)) q := by
      intro q hq
      exact (o2 q).2 ⟨by rw [← hq.length_eq, vs.length_eq], fun i hi => .inr (has_getD hq (by rw [vs.length_eq]; exact hi))⟩
    have one : ∃ q, List.Forall₂ HasLabel (cinfos L R) q := by
      obtain ⟨rl, hl⟩ := rows_ne h.wL nL
      obtain ⟨rr, hr⟩ := rows_ne h.wR nR
      exact ⟨_, cinfos_has h nL nR (p := (List.range u0.length).map fun i => rl.1.getD (1 + u0.length + i) 0)
        (q := (List.range u1.length).map fun i => rr.1.getD (1 + u1.length + i) 0) (by simp) (by simp) (fun i hi => ⟨rl, hl, by simp [hi]⟩) fun i hi => ⟨rr, hr, by simp [hi]⟩⟩
    obtain ⟨q0, hq0⟩ := one
    obtain ⟨c, ec, c1, c2, c3, ⟨nc, c4⟩, c5⟩ := zeros_spec (K := K) le (dq := dq) (pattern := pattern) o1 (or_wf (infos_wf L R).1) (has_ne (lt q0 hq0)) (by omega) (by omega)
    refine ⟨c, c, ?_, ⟨c1, c2, c3, zr c4⟩, ⟨c1, c2, c3, zr c4⟩, fun q hq hs => (c5 q).2 ⟨isCombination_exists.2 (lt q hq), hs⟩,
      fun q hq hs => (c5 q).2 ⟨isCombination_exists.2 (rt q hq), hs⟩, fun q hq => ((c5 q).1 hq).2, fun _ => ⟨rfl, fun q hl hq hs => (c5 q).2 ⟨isCombination_exists.2 ((o2 q).2 ⟨?_, ?_⟩), hs⟩⟩⟩
    · unfold FlatFunctor.initMats
      rw [if_pos rfl, ec]
      rfl
    · simp [hl]; omega
    · intro i hi
      exact hq i (by simp at hi; omega)

/-- The rows of the intermediate tensor. -/
theorem work_rows {c : Flat Q K} [AddCommMonoid K] (h : OpLegs u0 d0 u1 d1 m L R) (nL : noBlocks L = false) (nR : noBlocks R = false) (hc : Zeros ([(0, 1)] :: (d0 ++ d1) ++ [[(0, 1)]]) c) :
    (FlatFunctor.initWork L R c).WellFormed ∧
    (∀ r ∈ (FlatFunctor.initWork L R c).rows, ∃ z b p q zs bs ps qs, r = (z :: b ++ p, zs :: bs ++ ps) ∧ (z :: b ++ q ++ [0], zs :: bs ++ qs ++ [1]) ∈ R.rows ∧
      (0 :: (p ++ q) ++ [0], 1 :: (ps ++ qs) ++ [1]) ∈ c.rows ∧ IsCombination [m] [z] [zs] ∧ IsCombination u1 b bs ∧ IsCombination d0 p ps ∧ IsCombination d1 q qs) ∧
    ∀ z b p q, b.length = u1.length → p.length = d0.length → q.length = d1.length → z :: b ++ q ++ [0] ∈ R.rows.map Prod.fst → 0 :: (p ++ q) ++ [0] ∈ c.qs →
      z :: b ++ p ∈ (FlatFunctor.initWork L R c).qs := by
  obtain ⟨e1, -⟩ := nphys_eq h.wL h.hL h.lenL nL
  obtain ⟨e3, -⟩ := nphys_eq h.wR h.hR h.lenR nR
  have l1 : 1 + d1.length = (m :: u1).length := by simp [h.lenR, Nat.add_comm]
  have cR : ∀ F ∈ [R.odd, R.even], F.WellFormed ∧ Conforms ((m :: u1 ++ d1) ++ [[(0, 1)]]) (F.toSparse id) := by
    intro F hF
    rw [Flat.conforms_rows]
    simp only [List.mem_cons, List.not_mem_nil, or_false] at hF
    rcases hF with rfl | rfl
    · exact ⟨h.wR.1, fun r hr => h.hR r (List.mem_append_left _ hr)⟩
    · exact ⟨h.wR.2, fun r hr => h.hR r (List.mem_append_right _ hr)⟩
  have r1 : (initLegs R.odd).rows ++ (initLegs R.even).rows = R.rows.map fun r => (r.1.dropLast, r.2.dropLast) := by
    rw [(init_spec (cR _ (by simp)).1 (cR _ (by simp)).2).2.2.1, (init_spec (cR _ (by simp)).1 (cR R.even (by simp)).2).2.2.1, ← List.map_append]
    rfl
  have r2 := (inner_spec hc.wf (legs := d0 ++ d1) hc.legs).2.2.1
  set sk := tdSkeleton ((initLegs R.odd).rows ++ (initLegs R.even).rows) (innerLegs c).rows (List.range' (1 + nphys R) (nphys R)) (List.range' (nphys L) (nphys R)) with hsk
  have hw : FlatFunctor.initWork L R c = Flat.mk' (sk.map Prod.fst) (sk.map Prod.snd) (List.replicate ((sk.map fun b => b.2.prod).sum) 0) := rfl
  have hrows : (FlatFunctor.initWork L R c).rows = sk := by
    rw [hw]
    simp only [Flat.rows, Flat.mk']
    rw [List.zip_map']
    simp
  have hqs : (FlatFunctor.initWork L R c).qs = sk.map Prod.fst := rfl
  rw [hrows, hqs]
  have td := td_spec ((initLegs R.odd).rows ++ (initLegs R.even).rows) (innerLegs c).rows (List.range' (1 + nphys R) (nphys R)) (List.range' (nphys L) (nphys R))
  rw [← hsk, r1, r2, e1, e3, l1] at td
  have hcc := Flat.conforms_rows.1 hc.legs
  refine ⟨⟨by simp [hw, Flat.mk'], Flat.offsets_eq _, ?_⟩, ?_, ?_⟩
  · simp only [hw, Flat.mk', List.length_replicate, List.map_map]
    rfl
  · intro r hr
    obtain ⟨x, hx, y, hy, e, rfl⟩ := td.1 r hr
    obtain ⟨x', hx', rfl⟩ := List.mem_map.1 hx
    obtain ⟨y', hy', rfl⟩ := List.mem_map.1 hy
    obtain ⟨xq, xs, ex1, ex2, cx⟩ := isCombination_init (h.hR x' hx')
    obtain ⟨yq0, ys0, ey1, ey2, cy⟩ := isCombination_tail (hcc y' hy')
    obtain ⟨yq, ys, ey1', ey2', cy⟩ := isCombination_init cy
    obtain ⟨zb, q, zbs, qs, rfl, rfl, c1, c2⟩ := combination_split (l1 := m :: u1) cx
    obtain ⟨z, b, zs, bs, rfl, rfl, c3, c4⟩ := combination_split (l1 := [m]) c1
    obtain ⟨p, q', ps, qs', rfl, rfl, c5, c6⟩ := combination_split cy
    cases c3 with
    | cons hz hnil =>
      cases hnil
      rename_i z zs
      have ex : x' = (([z] ++ b ++ q) ++ [0], ([zs] ++ bs ++ qs) ++ [1]) := Prod.ext ex1 ex2
      have ey : y' = (0 :: ((p ++ q') ++ [0]), 1 :: ((ps ++ qs') ++ [1])) := Prod.ext (by rw [ey1, ey1']) (by rw [ey2, ey2'])
      rw [ex, ey] at e ⊢
      simp only [List.dropLast_concat, List.tail_cons] at e ⊢
      have lb := c4.lengths
      have lp := c5.lengths
      have lq := c2.lengths
      have lq' := c6.lengths
      have pm1 := pick_mid (m :: u1) d1 [] (x1 := [z] ++ b) (xp := q) (x2 := []) (by simp [lb.1]) lq.1
      have pm2 := pick_mid d0 d1 [] (x1 := p) (xp := q') (x2 := []) lp.1 lq'.1
      rw [List.append_nil] at pm1 pm2
      rw [pm1, pm2] at e
      subst e
      have := c6.shape_unique c2
      subst this
      have po1 := pick_rest (m :: u1) d1 [] (x1 := [z] ++ b) (xp := q') (x2 := []) (by simp [lb.1]) lq.1
      have po2 := pick_rest d0 d1 [] (x1 := p) (xp := q') (x2 := []) lp.1 lq'.1
      have po3 := pick_rest (m :: u1) d1 [] (x1 := [zs] ++ bs) (xp := qs') (x2 := []) (by simp [lb.2]) lq.2
      have po4 := pick_rest d0 d1 [] (x1 := ps) (xp := qs') (x2 := []) lp.2 lq'.2
      simp only [List.append_nil] at po1 po2 po3 po4
      refine ⟨z, b, p, q', zs, bs, ps, qs', ?_, ?_, ?_, .cons hz .nil, c4, c5, c6⟩
      · unfold outRow
        rw [po1, po2, po3, po4]
        rfl
      · rw [ex] at hx'
        exact hx'
      · rw [ey] at hy'
        exact hy'
  · intro z b p q lb lp lq hR hC
    obtain ⟨x', hx', ex⟩ := List.mem_map.1 hR
    rw [← Flat.rows_fst hc.wf] at hC
    obtain ⟨y', hy', ey⟩ := List.mem_map.1 hC
    have pm1 := pick_mid (m :: u1) d1 [] (x1 := z :: b) (xp := q) (x2 := []) (by simp [lb]) lq
    have pm2 := pick_mid d0 d1 [] (x1 := p) (xp := q) (x2 := []) lp lq
    have po1 := pick_rest (m :: u1) d1 [] (x1 := z :: b) (xp := q) (x2 := []) (by simp [lb]) lq
    have po2 := pick_rest d0 d1 [] (x1 := p) (xp := q) (x2 := []) lp lq
    simp only [List.append_nil] at pm1 pm2 po1 po2
    have := td.2 _ (List.mem_map.2 ⟨x', hx', rfl⟩) _ (List.mem_map.2 ⟨y', hy', rfl⟩)
    dsimp only at this
    rw [ex, ey] at this
    simp only [List.cons_append, List.tail_cons] at this
    rw [← List.cons_append, ← List.cons_append, List.dropLast_concat, List.dropLast_concat, pm1, pm2] at this
    have := this rfl
    unfold outRow at this
    rw [po1, po2] at this
    exact this

theorem new_ok [CommRing K] (isF : Q → Bool) (le : Q → Q → Bool) (h : OpLegs u0 d0 u1 d1 m L R) {pattern : List Bool} {dq : Option Q}
    {sym : Bool} {const : K} {c v : Flat Q K} (hm : FlatFunctor.initMats le L R pattern dq sym = some (c, v)) (hc : Zeros ([(0, 1)] :: (d0 ++ d1) ++ [[(0, 1)]]) c)
    (hv : Zeros ([(0, 1)] :: (u0 ++ u1) ++ [[(0, 1)]]) v) {f : FlatFunctor Q K} (hf : FlatFunctor.new isF le L R const pattern dq sym = some f) :
    FunctorOk isF u0 d0 u1 d1 m f ∧ f.l = L ∧ f.r = R ∧ f.const = const ∧ f.cmat = c ∧ f.vmat = v := by
  unfold FlatFunctor.new at hf
  by_cases hn : (noBlocks L || noBlocks R) = true
  · rw [if_pos hn] at hf
    simp at hf
  rw [if_neg hn, hm, Option.bind_some] at hf
  have hn' : noBlocks L = false ∧ noBlocks R = false := by simpa using hn
  obtain ⟨e1, -⟩ := nphys_eq h.wL h.hL h.lenL hn'.1
  obtain ⟨e3, -⟩ := nphys_eq h.wR h.hR h.lenR hn'.2
  obtain ⟨w1, w2, -⟩ := work_rows h hn'.1 hn'.2 hc
  dsimp only at hf
  rw [e1, e3] at hf
  obtain ⟨ro, pro, hf⟩ := Option.bind_eq_some_iff.1 hf
  obtain ⟨re, pre, hf⟩ := Option.bind_eq_some_iff.1 hf
  obtain ⟨lo, plo, hf⟩ := Option.bind_eq_some_iff.1 hf
  obtain ⟨lev, ple, rfl⟩ := Option.map_eq_some_iff.1 hf
  refine ⟨⟨⟨h.wL.1, ?_⟩, ⟨h.wL.2, ?_⟩, ⟨h.wR.1, ?_⟩, ⟨h.wR.2, ?_⟩, hc.wf, hc.legs, hv.wf, hv.legs, w1, ?_, rfl, pro, pre, plo, ple⟩, rfl, rfl, rfl, rfl, rfl⟩
  · exact Flat.conforms_rows.2 fun r hr => h.hL r (List.mem_append_left _ hr)
  · exact Flat.conforms_rows.2 fun r hr => h.hL r (List.mem_append_right _ hr)
  · exact Flat.conforms_rows.2 fun r hr => h.hR r (List.mem_append_left _ hr)
  · exact Flat.conforms_rows.2 fun r hr => h.hR r (List.mem_append_right _ hr)
  · refine Flat.conforms_rows.2 fun r hr => ?_
    obtain ⟨z, b, p, q, zs, bs, ps, qs, rfl, -, -, c1, c2, c3, -⟩ := w2 r hr
    exact (c1.append c2).append c3

/-- The rows have equal signed sums on both sides of a product. -/
structure ChargeOk (P0 P1 : List Bool) (o0 o1 : Bool) (u0 u1 : List (BondInfo Q)) (L R : FlatOp Q K) : Prop where
  len0 : P0.length = u0.length
  len1 : P1.length = u1.length
  cL : ∀ r ∈ L.rows, signedSum (true :: P0 ++ P0.map (!·) ++ [false]) r.1 = 0
  cR : ∀ r ∈ R.rows, signedSum (true :: P1 ++ P1.map (!·) ++ [false]) r.1 = 0

theorem charge_eq {P0 P1 : List Bool} {o0 o1 : Bool} {a p b q : List Q} {z : Q} (l0 : P0.length = a.length) (l0' : P0.length = p.length) (l1 : P1.length = b.length)
    (l1' : P1.length = q.length) (hL : signedSum (true :: P0 ++ P0.map (!·) ++ [false]) (0 :: a ++ p ++ [z]) = 0)
    (hR : signedSum (true :: P1 ++ P1.map (!·) ++ [false]) (z :: b ++ q ++ [0]) = 0) :
    signedSum (o0 :: (P0 ++ P1) ++ [o1]) (0 :: (a ++ b) ++ [0]) = signedSum (o0 :: (P0 ++ P1) ++ [o1]) (0 :: (p ++ q) ++ [0]) := by
  have one : ∀ (s : Bool) (x : Q), signedSum [s] [x] = if s then x else -x := fun s x => by simp [signedSum]
  have hcons : ∀ (s : Bool) (l : List Bool) (x : Q) (y : List Q), signedSum (s :: l) (x :: y) = (if s then x else -x) + signedSum l y := fun s l x y => by simp [signedSum]
  have hflip : ∀ (l : List Bool) (y : List Q), signedSum (l.map (!·)) y = -signedSum l y := by
    intro l
    induction l with
    | nil => intro y; simp [signedSum]
    | cons s l ih =>
      intro y
      cases y with
      | nil => simp [signedSum]
      | cons x y =>
        rw [List.map_cons, hcons, hcons, ih]
        cases s <;> simp <;> abel
  rw [signedSum_append _ _ _ _ (by simp [← l0, ← l0']), signedSum_append _ _ _ _ (by simp [l0]), hcons, one, hflip] at hL
  rw [signedSum_append _ _ _ _ (by simp [← l1, ← l1']), signedSum_append _ _ _ _ (by simp [l1]), hcons, one, hflip] at hR
  rw [signedSum_append _ _ _ _ (by simp [l0, l1]), signedSum_append _ _ _ _ (by simp [l0', l1']), one, hcons, hcons, signedSum_append _ _ _ _ l0, signedSum_append _ _ _ _ l0']
  have z1 : (if o0 = true then (0 : Q) else -0) = 0 := by simp
  have z2 : (if o1 = true then (0 : Q) else -0) = 0 := by simp
  rw [z1, z2]
  simp only [if_true, Bool.false_eq_true, if_false, neg_zero, add_zero, zero_add] at hL hR ⊢
  have e1 : signedSum P0 a = signedSum P0 p + z := by
    rw [← sub_eq_zero, ← hL]
    abel
  have e2 : signedSum P1 b = signedSum P1 q - z := by
    rw [← sub_eq_zero, ← hR]
    abel
  rw [e1, e2]
  abel

theorem new_some [CommRing K] (isF : Q → Bool) (le : Q → Q → Bool) (h : OpLegs u0 d0 u1 d1 m L R) {P0 P1 : List Bool} {o0 o1 : Bool} (hq : ChargeOk P0 P1 o0 o1 u0 u1 L R) {dq : Option Q}
    {sym : Bool} {const : K} {c v : Flat Q K} (hd0 : d0 ≠ []) (hd1 : d1 ≠ []) (hm : FlatFunctor.initMats le L R (o0 :: (P0 ++ P1) ++ [o1]) dq sym = some (c, v)) (hc : Zeros ([(0, 1)] :: (d0 ++ d1) ++ [[(0, 1)]]) c)
    (hv : Zeros ([(0, 1)] :: (u0 ++ u1) ++ [[(0, 1)]]) v) (mv : ∀ q, List.Forall₂ HasLabel (vinfos L R) q → signedSum (o0 :: (P0 ++ P1) ++ [o1]) q = dq.getD 0 → q ∈ v.qs)
    (mc : ∀ q ∈ c.qs, signedSum (o0 :: (P0 ++ P1) ++ [o1]) q = dq.getD 0)
    (nL : noBlocks L = false) (nR : noBlocks R = false) (nc : c.qs ≠ []) (nw : (FlatFunctor.initWork L R c).qs ≠ []) :
    ∃ f, FlatFunctor.new isF le L R const (o0 :: (P0 ++ P1) ++ [o1]) dq sym = some f := by
  obtain ⟨e1, -⟩ := nphys_eq h.wL h.hL h.lenL nL
  obtain ⟨e3, -⟩ := nphys_eq h.wR h.hR h.lenR nR
  obtain ⟨w1, w2, w3⟩ := work_rows h nL nR hc
  have k0 : 0 < d0.length := List.length_pos_iff.2 hd0
  have k1 : 0 < d1.length := List.length_pos_iff.2 hd1
  have l1 : 1 + d1.length = (m :: u1).length := by simp [h.lenR, Nat.add_comm]
  have cR : ∀ F ∈ [R.odd, R.even], F.WellFormed ∧ Conforms ((m :: u1 ++ d1) ++ [[(0, 1)]]) (F.toSparse id) ∧ ∀ r ∈ F.rows, r ∈ R.rows := by
    intro F hF
    rw [Flat.conforms_rows]
    simp only [List.mem_cons, List.not_mem_nil, or_false] at hF
    rcases hF with rfl | rfl
    · exact ⟨h.wR.1, fun r hr => h.hR r (List.mem_append_left _ hr), fun r hr => List.mem_append_left _ hr⟩
    · exact ⟨h.wR.2, fun r hr => h.hR r (List.mem_append_right _ hr), fun r hr => List.mem_append_right _ hr⟩
  have cL : ∀ F ∈ [L.odd, L.even], F.WellFormed ∧ Conforms ([(0, 1)] :: (u0 ++ d0 ++ [m])) (F.toSparse id) ∧ ∀ r ∈ F.rows, r ∈ L.rows := by
    intro F hF
    rw [Flat.conforms_rows]
    simp only [List.mem_cons, List.not_mem_nil, or_false] at hF
    rcases hF with rfl | rfl
    · exact ⟨h.wL.1, fun r hr => h.hL r (List.mem_append_left _ hr), fun r hr => List.mem_append_left _ hr⟩
    · exact ⟨h.wL.2, fun r hr => h.hL r (List.mem_append_right _ hr), fun r hr => List.mem_append_right _ hr⟩
  obtain ⟨i1, i2, i3, -⟩ := inner_spec hc.wf (legs := d0 ++ d1) hc.legs
  obtain ⟨j1, j2, j3, -⟩ := inner_spec hv.wf (legs := u0 ++ u1) hv.legs
  have nI : (innerLegs c).qs ≠ [] := by
    have : (innerLegs c).qs = (c.qs.map List.tail).map List.dropLast := rfl
    rw [this]
    simpa using nc
  have pR : ∀ F ∈ [R.odd, R.even], ∀ ferm, ∃ p, plan isF (initLegs F) (innerLegs c) (FlatFunctor.initWork L R c) (List.range' (1 + d1.length) d1.length) (List.range' d0.length d1.length) ferm = some p := by
    intro F hF ferm
    obtain ⟨wF, cF, hF⟩ := cR F hF
    obtain ⟨s1, s2, s3, -⟩ := init_spec wF cF
    refine plan_some (fun _ => nI) (fun hn => ?_) (fun hn => ?_) fun x hx y hy e => ?_
    · rw [headD_length s1 s2 hn, List.length_append, l1]
      exact place_end k1
    · rw [headD_length i1 i2 hn, List.length_append]
      exact place_end k1
    · rw [← Flat.rows_fst s1, s3, List.map_map] at hx
      rw [← Flat.rows_fst i1, i3, List.map_map] at hy
      obtain ⟨x', hx', rfl⟩ := List.mem_map.1 hx
      obtain ⟨y', hy', rfl⟩ := List.mem_map.1 hy
      obtain ⟨xq, xs, ex1, ex2, cx⟩ := isCombination_init (h.hR x' (hF x' hx'))
      obtain ⟨yq0, ys0, ey1, ey2, cy⟩ := isCombination_tail (Flat.conforms_rows.1 hc.legs y' hy')
      obtain ⟨yq, ys, ey1', ey2', cy⟩ := isCombination_init cy
      obtain ⟨zb, q, zbs, qs, rfl, rfl, c1, c2⟩ := combination_split (l1 := m :: u1) cx
      obtain ⟨z, b, zs, bs, rfl, rfl, c3, c4⟩ := combination_split (l1 := [m]) c1
      obtain ⟨p, q', ps, qs', rfl, rfl, c5, c6⟩ := combination_split cy
      cases c3 with
      | cons hz hnil =>
        cases hnil
        rename_i z zs
        simp only [Function.comp] at e ⊢
        rw [ex1, ey1, ey1'] at e ⊢
        simp only [List.dropLast_concat, List.tail_cons] at e ⊢
        have lb := c4.lengths
        have lp := c5.lengths
        have lq := c2.lengths
        have lq' := c6.lengths
        rw [l1] at e ⊢
        have pm1 := pick_mid (m :: u1) d1 [] (x1 := [z] ++ b) (xp := q) (x2 := []) (by simp [lb.1]) lq.1
        have pm2 := pick_mid d0 d1 [] (x1 := p) (xp := q') (x2 := []) lp.1 lq'.1
        rw [List.append_nil] at pm1 pm2
        rw [pm1, pm2] at e
        subst e
        have po1 := pick_rest (m :: u1) d1 [] (x1 := [z] ++ b) (xp := q') (x2 := []) (by simp [lb.1]) lq.1
        have po2 := pick_rest d0 d1 [] (x1 := p) (xp := q') (x2 := []) lp.1 lq'.1
        simp only [List.append_nil] at po1 po2
        unfold outRow
        rw [po1, po2]
        refine w3 z b p q' lb.1 lp.1 lq.1 (List.mem_map.2 ⟨x', hF x' hx', by rw [ex1]; rfl⟩) ?_
        rw [← Flat.rows_fst hc.wf]
        exact List.mem_map.2 ⟨y', hy', by rw [ey1, ey1']; rfl⟩
  have pL : ∀ F ∈ [L.odd, L.even], ∀ ferm, ∃ p, plan isF (tailLegs F) ((FlatFunctor.initWork L R c).transpose (List.range' (d1.length + 1) d0.length ++ [0] ++ List.range' 1 d1.length))
      (innerLegs v) (List.range' d0.length (d0.length + 1)) (List.range' 0 (d0.length + 1)) ferm = some p := by
    intro F hF ferm
    obtain ⟨wF, cF, hF⟩ := cL F hF
    obtain ⟨s1, s2, s3, -⟩ := tail_spec wF cF
    have hqs : ((FlatFunctor.initWork L R c).transpose (List.range' (d1.length + 1) d0.length ++ [0] ++ List.range' 1 d1.length)).qs =
        (FlatFunctor.initWork L R c).qs.map (pick (List.range' (d1.length + 1) d0.length ++ [0] ++ List.range' 1 d1.length)) := by
      unfold Flat.transpose
      rw [if_neg (by simpa using nw)]
    refine plan_some (fun _ => by rw [hqs]; simpa using nw) (fun hn => ?_) (fun hn => ⟨true, place_front (by omega)⟩) fun x hx y hy e => ?_
    · rw [headD_length s1 s2 hn]
      have : (u0 ++ d0 ++ [m]).length = d0.length + (d0.length + 1) := by simp [h.lenL]
      rw [this]
      exact place_end (by omega)
    · rw [← Flat.rows_fst s1, s3, List.map_map] at hx
      obtain ⟨x', hx', rfl⟩ := List.mem_map.1 hx
      rw [hqs] at hy
      obtain ⟨y', hy', rfl⟩ := List.mem_map.1 hy
      rw [← Flat.rows_fst w1] at hy'
      obtain ⟨y'', hy'', rfl⟩ := List.mem_map.1 hy'
      obtain ⟨z, b, p, q, zs, bs, ps, qs, rfl, mR, mC, c1, c2, c3, c4⟩ := w2 y'' hy''
      obtain ⟨xq, xs, ex1, ex2, cx⟩ := isCombination_tail (h.hL x' (hF x' hx'))
      obtain ⟨a, pz, as, pzs, rfl, rfl, k1, k2⟩ := combination_split (l1 := u0) (l2 := d0 ++ [m]) (by simpa using cx)
      have la := k1.lengths.1
      have lb := c2.lengths.1
      have lp := c3.lengths.1
      have lq := c4.lengths.1
      have lpz := k2.lengths.1
      have pax := pick_axtr z b p
      rw [lb, lp, h.lenR] at pax
      simp only [Function.comp] at e ⊢
      rw [ex1, List.tail_cons] at e ⊢
      rw [pax] at e ⊢
      have pm1 := pick_mid u0 (d0 ++ [m]) [] (x1 := a) (xp := pz) (x2 := []) la lpz
      have pm2 := pick_mid [] (d0 ++ [m]) u1 (x1 := []) (xp := p ++ [z]) (x2 := b) rfl (by simp [lp])
      have po1 := pick_rest u0 (d0 ++ [m]) [] (x1 := a) (xp := pz) (x2 := []) la lpz
      have po2 := pick_rest [] (d0 ++ [m]) u1 (x1 := []) (xp := p ++ [z]) (x2 := b) rfl (by simp [lp])
      simp only [List.append_nil, List.nil_append, List.length_append, List.length_cons, List.length_nil, Nat.zero_add, h.lenL] at pm1 pm2 po1 po2
      rw [pm1, pm2] at e
      unfold outRow
      simp only [List.length_append, List.length_cons, List.length_nil, Nat.zero_add] at po1 po2 ⊢
      rw [po1, po2]
      subst e
      have mL : (0 :: a ++ p ++ [z]) = x'.1 := by rw [ex1]; simp
      have hrow : 0 :: (a ++ b) ++ [0] ∈ v.qs := by
        refine mv _ (vinfos_has h nL nR la lb (fun i hi => ⟨x', hF x' hx', ?_⟩) fun i hi => ⟨_, mR, ?_⟩) ?_
        · rw [← mL]
          have := getD_middle [0] a (p ++ [z]) 0 (i := i) (by omega)
          simpa using this
        · have := getD_middle [z] b (q ++ [0]) 0 (i := i) (by omega)
          simpa using this
        · rw [charge_eq (p := p) (q := q) (z := z) (hq.len0.trans la.symm) (by rw [hq.len0, lp, h.lenL]) (hq.len1.trans lb.symm) (by rw [hq.len1, lq, h.lenR]) ?_ ?_]
          · refine mc _ ?_
            rw [← Flat.rows_fst hc.wf]
            exact List.mem_map.2 ⟨_, mC, rfl⟩
          · rw [mL]
            exact hq.cL x' (hF x' hx')
          · exact hq.cR _ mR
      have : (innerLegs v).qs = (v.qs.map List.tail).map List.dropLast := rfl
      rw [this, List.map_map]
      exact List.mem_map.2 ⟨_, hrow, by simp⟩
  unfold FlatFunctor.new
  rw [if_neg (by rw [nL, nR]; simp), hm, Option.bind_some]
  dsimp only
  rw [e1, e3]
  obtain ⟨ro, hro⟩ := pR R.odd (by simp) true
  obtain ⟨re, hre⟩ := pR R.even (by simp) false
  obtain ⟨lo, hlo⟩ := pL L.odd (by simp) true
  obtain ⟨lev, hle⟩ := pL L.even (by simp) false
  rw [hro, hre, hlo, hle]
  exact ⟨_, rfl⟩

end
end
end Verif
