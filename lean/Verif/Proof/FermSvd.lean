import Verif.Model.FermSvd
import Verif.Proof.Canon
import Verif.Proof.Svd

/-! Lemmas for the factorisations of fermionic tensors. -/

set_option linter.unusedSectionVars false

namespace Verif
namespace FermSplit
variable {Q K V : Type} [DecidableEq Q]

/-! ### Tables of ranges -/

/-- The ranges of the table follow each other from `o` to `len`. -/
inductive Tiled : Nat → Places Q → Nat → Prop
  | nil (o : Nat) : Tiled o [] o
  | cons {o len : Nat} {k : List Q} {sh : List Nat} {t : Places Q} (h : Tiled (o + sh.prod) t len) : Tiled o ((k, (o, o + sh.prod, sh)) :: t) len

theorem Tiled.snoc {o len : Nat} {t : Places Q} (h : Tiled o t len) (k : List Q) (sh : List Nat) :
    Tiled o (t ++ [(k, (len, len + sh.prod, sh))]) (len + sh.prod) := by
  induction h with
  | nil o => exact .cons (.nil _)
  | cons _ ih => exact .cons ih

theorem Tiled.range {o len : Nat} {t : Places Q} (h : Tiled o t len) : o ≤ len ∧ ∀ e ∈ t, o ≤ e.2.1 ∧ e.2.2.1 = e.2.1 + e.2.2.2.prod ∧ e.2.2.1 ≤ len := by
  induction h with
  | nil o => simp
  | @cons o len k sh t h ih =>
    refine ⟨by omega, ?_⟩
    intro e he
    rcases List.mem_cons.1 he with rfl | he
    · exact ⟨Nat.le_refl _, rfl, ih.1⟩
    · obtain ⟨a, b, c⟩ := ih.2 e he
      exact ⟨by omega, b, c⟩

theorem Tiled.pairwise {o len : Nat} {t : Places Q} (h : Tiled o t len) : t.Pairwise fun a b => a.2.2.1 ≤ b.2.1 := by
  induction h with
  | nil o => exact .nil
  | cons h ih => exact List.Pairwise.cons (fun e he => (h.range.2 e he).1) ih

/-- Ranges of different labels do not meet. -/
theorem Tiled.disjoint {o len : Nat} {t : Places Q} (h : Tiled o t len) {a b : List Q × (Nat × Nat × List Nat)} (ha : a ∈ t) (hb : b ∈ t)
    (hab : a.1 ≠ b.1) : a.2.2.1 ≤ b.2.1 ∨ b.2.2.1 ≤ a.2.1 := by
  induction h with
  | nil => simp at ha
  | cons h ih =>
    rcases List.mem_cons.1 ha with rfl | ha <;> rcases List.mem_cons.1 hb with rfl | hb
    · exact absurd rfl hab
    · exact Or.inl (h.range.2 b hb).1
    · exact Or.inr (h.range.2 a ha).1
    · exact ih ha hb

theorem reserve_spec (l : List (List Q × List Nat)) (st : Places Q × Nat) (h : Tiled 0 st.1 st.2) (hw : Dict.WF st.1) :
    Tiled 0 (l.foldl reserve st).1 (l.foldl reserve st).2 ∧ Dict.WF (l.foldl reserve st).1 ∧
      (∀ k, k ∈ (l.foldl reserve st).1.map Prod.fst ↔ k ∈ st.1.map Prod.fst ∨ k ∈ l.map Prod.fst) ∧
      ∀ e ∈ (l.foldl reserve st).1, e ∈ st.1 ∨ (e.1, e.2.2.2) ∈ l := by
  induction l generalizing st with
  | nil => exact ⟨h, hw, by simp, by simp⟩
  | cons x l ih =>
    simp only [List.foldl_cons]
    by_cases hx : Dict.has st.1 x.1 = true
    · have e : reserve st x = st := by simp [reserve, hx]
      rw [e]
      obtain ⟨a, b, c, d⟩ := ih st h hw
      refine ⟨a, b, ?_, ?_⟩
      · intro k
        rw [c]
        have hm : x.1 ∈ st.1.map Prod.fst := Dict.has_iff.1 hx
        constructor
        · rintro (h | h)
          · exact Or.inl h
          · exact Or.inr (List.mem_cons_of_mem _ h)
        · rintro (h | h)
          · exact Or.inl h
          · rw [List.map_cons] at h
            rcases List.mem_cons.1 h with rfl | h
            · exact Or.inl hm
            · exact Or.inr h
      · intro e he
        rcases d e he with h | h
        · exact Or.inl h
        · exact Or.inr (List.mem_cons_of_mem _ h)
    · have hn : x.1 ∉ st.1.map Prod.fst := fun h => hx (Dict.has_iff.2 h)
      have e : reserve st x = (st.1 ++ [(x.1, (st.2, st.2 + x.2.prod, x.2))], st.2 + x.2.prod) := by
        simp only [reserve, hx]
        rw [Dict.set_of_not_mem _ _ hn]
        simp
      rw [e]
      obtain ⟨a, b, c, d⟩ := ih (st.1 ++ [(x.1, (st.2, st.2 + x.2.prod, x.2))], st.2 + x.2.prod) (h.snoc _ _)
        (by
          have := Dict.WF.set hw x.1 (st.2, st.2 + x.2.prod, x.2)
          rw [Dict.set_of_not_mem _ _ hn] at this
          exact this)
      refine ⟨a, b, ?_, ?_⟩
      · intro k
        rw [c]
        simp only [List.map_append, List.map_cons, List.map_nil, List.mem_append, List.mem_singleton, List.mem_cons]
        tauto
      · intro e he
        rcases d e he with h | h
        · rcases List.mem_append.1 h with h | h
          · exact Or.inl h
          · right
            rw [List.mem_singleton.1 h]
            exact List.mem_cons_self
        · exact Or.inr (List.mem_cons_of_mem _ h)

/-! ### The matrix of a sector -/

section fill
variable [AddCommMonoid K]

/-- The row table of some blocks. -/
def rowTab (n : Nat) (q : Q) (bs : SpT Q K) : Places Q × Nat := (bs.map fun b => (b.1.take n ++ [q], b.2.shape.take n)).foldl reserve ([], 0)

/-- The column table of some blocks. -/
def colTab (n : Nat) (q : Q) (bs : SpT Q K) : Places Q × Nat := (bs.map fun b => (q :: b.1.drop n, b.2.shape.drop n)).foldl reserve ([], 0)

/-- The step of the loop that fills the matrix. -/
def fill (n : Nat) (q : Q) (rows cols : Places Q) (d : Arr K) (b : List Q × Arr K) : Arr K :=
  let r := (Dict.get? rows (b.1.take n ++ [q])).getD (0, 0, [])
  let c := (Dict.get? cols (q :: b.1.drop n)).getD (0, 0, [])
  assign2 d r.1 r.2.1 c.1 c.2.1 (b.2.reshape [r.2.1 - r.1, c.2.1 - c.1])

theorem sector_eq (n : Nat) (q : Q) (bs : SpT Q K) : sector n q bs =
    ⟨q, (rowTab n q bs).1, (colTab n q bs).1, bs.foldl (fill n q (rowTab n q bs).1 (colTab n q bs).1) (Arr.zeros [(rowTab n q bs).2, (colTab n q bs).2])⟩ := rfl

theorem fill_shape (n : Nat) (q : Q) (rows cols : Places Q) (l : SpT Q K) (d : Arr K) : (l.foldl (fill n q rows cols) d).shape = d.shape := by
  induction l generalizing d with
  | nil => rfl
  | cons b l ih => rw [List.foldl_cons, ih]; rfl

variable {legsL legsR : List (BondInfo Q)}

theorem isCombination_split {qs : List Q} {sh : List Nat} (h : IsCombination (legsL ++ legsR) qs sh) :
    IsCombination legsL (qs.take legsL.length) (sh.take legsL.length) ∧ IsCombination legsR (qs.drop legsL.length) (sh.drop legsL.length) := by
  induction legsL generalizing qs sh with
  | nil => exact ⟨.nil, by simpa using h⟩
  | cons b bs ih =>
    rw [List.cons_append] at h
    cases h with
    | cons h1 h2 =>
      obtain ⟨a, c⟩ := ih h2
      exact ⟨.cons h1 a, by simpa using c⟩

theorem rowTab_spec {q : Q} {bs : SpT Q K} (hc : Conforms (legsL ++ legsR) bs) :
    Tiled 0 (rowTab legsL.length q bs).1 (rowTab legsL.length q bs).2 ∧ Dict.WF (rowTab legsL.length q bs).1 ∧
      (∀ b ∈ bs, ∃ p, Dict.get? (rowTab legsL.length q bs).1 (b.1.take legsL.length ++ [q]) = some p ∧ p.2.2 = b.2.shape.take legsL.length) ∧
      ∀ e ∈ (rowTab legsL.length q bs).1, ∃ b ∈ bs, e.1 = b.1.take legsL.length ++ [q] ∧ IsCombination legsL (b.1.take legsL.length) e.2.2.2 := by
  obtain ⟨a, b, c, d⟩ := reserve_spec (bs.map fun b => (b.1.take legsL.length ++ [q], b.2.shape.take legsL.length)) ([], 0) (.nil 0) (by simp [Dict.WF])
  have h4 : ∀ e ∈ (rowTab legsL.length q bs).1, ∃ b ∈ bs, e.1 = b.1.take legsL.length ++ [q] ∧ IsCombination legsL (b.1.take legsL.length) e.2.2.2 := by
    intro e he
    rcases d e he with h | h
    · simp at h
    · obtain ⟨b, hb, hbe⟩ := List.mem_map.1 h
      simp only [Prod.mk.injEq] at hbe
      exact ⟨b, hb, hbe.1.symm, by rw [← hbe.2]; exact (isCombination_split (hc b hb)).1⟩
  refine ⟨a, b, ?_, h4⟩
  intro b' hb'
  have hk : b'.1.take legsL.length ++ [q] ∈ (rowTab legsL.length q bs).1.map Prod.fst := by
    refine (c _).2 (Or.inr ?_)
    rw [List.map_map]
    exact List.mem_map.2 ⟨b', hb', rfl⟩
  obtain ⟨e, he, hek⟩ := List.mem_map.1 hk
  refine ⟨e.2, ?_, ?_⟩
  · rw [← hek]
    exact Dict.get?_of_mem b he
  · obtain ⟨b2, _, h1, h2⟩ := h4 e he
    rw [hek] at h1
    have := List.append_inj_left' h1 rfl
    rw [← this] at h2
    exact h2.shape_unique (isCombination_split (hc b' hb')).1

theorem colTab_spec {q : Q} {bs : SpT Q K} (hc : Conforms (legsL ++ legsR) bs) :
    Tiled 0 (colTab legsL.length q bs).1 (colTab legsL.length q bs).2 ∧ Dict.WF (colTab legsL.length q bs).1 ∧
      (∀ b ∈ bs, ∃ p, Dict.get? (colTab legsL.length q bs).1 (q :: b.1.drop legsL.length) = some p ∧ p.2.2 = b.2.shape.drop legsL.length) ∧
      ∀ e ∈ (colTab legsL.length q bs).1, ∃ b ∈ bs, e.1 = q :: b.1.drop legsL.length ∧ IsCombination legsR (b.1.drop legsL.length) e.2.2.2 := by
  obtain ⟨a, b, c, d⟩ := reserve_spec (bs.map fun b => (q :: b.1.drop legsL.length, b.2.shape.drop legsL.length)) ([], 0) (.nil 0) (by simp [Dict.WF])
  have h4 : ∀ e ∈ (colTab legsL.length q bs).1, ∃ b ∈ bs, e.1 = q :: b.1.drop legsL.length ∧ IsCombination legsR (b.1.drop legsL.length) e.2.2.2 := by
    intro e he
    rcases d e he with h | h
    · simp at h
    · obtain ⟨b, hb, hbe⟩ := List.mem_map.1 h
      simp only [Prod.mk.injEq] at hbe
      exact ⟨b, hb, hbe.1.symm, by rw [← hbe.2]; exact (isCombination_split (hc b hb)).2⟩
  refine ⟨a, b, ?_, h4⟩
  intro b' hb'
  have hk : q :: b'.1.drop legsL.length ∈ (colTab legsL.length q bs).1.map Prod.fst := by
    refine (c _).2 (Or.inr ?_)
    rw [List.map_map]
    exact List.mem_map.2 ⟨b', hb', rfl⟩
  obtain ⟨e, he, hek⟩ := List.mem_map.1 hk
  refine ⟨e.2, ?_, ?_⟩
  · rw [← hek]
    exact Dict.get?_of_mem b he
  · obtain ⟨b2, _, h1, h2⟩ := h4 e he
    rw [hek] at h1
    have := (List.cons.inj h1).2
    rw [← this] at h2
    exact h2.shape_unique (isCombination_split (hc b' hb')).2

/-- Where the entry with the indices `x` is. -/
def spot (p : Nat × Nat × List Nat) (x : List (Q × Nat)) : Nat := p.1 + ravel p.2.2 (x.map Prod.snd)

theorem spot_range {o len : Nat} {t : Places Q} (h : Tiled o t len) {k : List Q} {p : Nat × Nat × List Nat} (hm : (k, p) ∈ t) {x : List (Q × Nat)}
    (hx : inBox p.2.2 (x.map Prod.snd) = true) : p.1 ≤ spot p x ∧ spot p x < p.2.1 ∧ spot p x < len := by
  obtain ⟨a, b, c⟩ := h.range.2 _ hm
  have := ravel_lt hx
  simp only [spot] at *
  omega

theorem reshape2 {s1 s2 i j : List Nat} (hi : inBox s1 i = true) (hj : inBox s2 j = true) :
    unravel (s1 ++ s2) (ravel [s1.prod, s2.prod] [ravel s1 i, ravel s2 j]) = i ++ j := by
  have h : ravel [s1.prod, s2.prod] [ravel s1 i, ravel s2 j] = ravel (s1 ++ s2) (i ++ j) := by
    rw [ravel_append (inBox_length hi)]
    simp [ravel]
  rw [h, unravel_ravel]
  rw [inBox_append (inBox_length hi), hi, hj]
  rfl

theorem take_drop_map {x y : List (Q × Nat)} {n : Nat} (hx : x.length = n) {b : List Q} (h : b = (x ++ y).map Prod.fst) :
    b.take n = x.map Prod.fst ∧ b.drop n = y.map Prod.fst := by
  subst h hx
  simp

theorem fill_get {q : Q} {rows cols : Places Q} {R C : Nat} (hR : Tiled 0 rows R) (hRw : Dict.WF rows) (hC : Tiled 0 cols C) (hCw : Dict.WF cols)
    {l : SpT Q K} (hu : UniqueLabels l)
    (hlr : ∀ b ∈ l, ∃ p, Dict.get? rows (b.1.take legsL.length ++ [q]) = some p ∧ p.2.2 = b.2.shape.take legsL.length)
    (hlc : ∀ b ∈ l, ∃ p, Dict.get? cols (q :: b.1.drop legsL.length) = some p ∧ p.2.2 = b.2.shape.drop legsL.length)
    {x y : List (Q × Nat)} (hx : x.length = legsL.length) {p p' : Nat × Nat × List Nat}
    (hp : Dict.get? rows (x.map Prod.fst ++ [q]) = some p) (hp' : Dict.get? cols (q :: y.map Prod.fst) = some p')
    (hbx : inBox p.2.2 (x.map Prod.snd) = true) (hby : inBox p'.2.2 (y.map Prod.snd) = true) (d : Arr K) :
    (l.foldl (fill legsL.length q rows cols) d).get [spot p x, spot p' y] =
      if (x ++ y).map Prod.fst ∈ l.map Prod.fst then entry l (x ++ y) else d.get [spot p x, spot p' y] := by
  have hpm := Dict.mem_of_get? hp
  have hpm' := Dict.mem_of_get? hp'
  have s1 := spot_range hR hpm hbx
  have s2 := spot_range hC hpm' hby
  induction l generalizing d with
  | nil => simp
  | cons b l ih =>
    have hu' : b.1 ∉ l.map Prod.fst ∧ UniqueLabels l := List.nodup_cons.1 hu
    rw [List.foldl_cons, ih hu'.2 (fun b hb => hlr b (List.mem_cons_of_mem _ hb)) (fun b hb => hlc b (List.mem_cons_of_mem _ hb)), entry_cons]
    obtain ⟨r, hr, hrs⟩ := hlr b List.mem_cons_self
    obtain ⟨c, hc, hcs⟩ := hlc b List.mem_cons_self
    by_cases hb : b.1 = (x ++ y).map Prod.fst
    · have hnl : (x ++ y).map Prod.fst ∉ l.map Prod.fst := by rw [← hb]; exact hu'.1
      rw [if_neg hnl, if_pos (by rw [List.map_cons, hb]; exact List.mem_cons_self), entry_of_not_mem hnl, add_zero]
      obtain ⟨ht, hd⟩ := take_drop_map hx hb
      rw [ht] at hr
      rw [hd] at hc
      rw [hp] at hr
      rw [hp'] at hc
      cases Option.some.inj hr
      cases Option.some.inj hc
      have hshape : b.2.shape = p.2.2 ++ p'.2.2 := by rw [hrs, hcs, List.take_append_drop]
      have hl : (x.map Prod.snd).length = p.2.2.length := (inBox_length hbx)
      have e1 := (hR.range.2 _ hpm).2.1
      have e2 := (hC.range.2 _ hpm').2.1
      simp only at e1 e2
      unfold blockEntry
      rw [if_pos ⟨hb, by rw [hshape, List.map_append, inBox_append hl, hbx, hby]; rfl⟩]
      simp only [fill, ht, hd, hp, hp', Option.getD_some, assign2, List.getD_cons_zero, List.getD_cons_succ]
      rw [if_pos ⟨s1.1, s1.2.1, s2.1, s2.2.1⟩]
      have a1 : spot p x - p.1 = ravel p.2.2 (x.map Prod.snd) := by simp [spot]
      have a2 : spot p' y - p'.1 = ravel p'.2.2 (y.map Prod.snd) := by simp [spot]
      rw [a1, a2, e1, e2, Nat.add_sub_cancel_left, Nat.add_sub_cancel_left]
      simp only [Arr.reshape, hshape]
      rw [reshape2 hbx hby, List.map_append]
    · have hz : blockEntry b (x ++ y) = 0 := by
        unfold blockEntry
        rw [if_neg (fun h => hb h.1)]
      rw [hz, zero_add]
      have hmem : (x ++ y).map Prod.fst ∈ (b :: l).map Prod.fst ↔ (x ++ y).map Prod.fst ∈ l.map Prod.fst := by
        rw [List.map_cons, List.mem_cons]
        exact or_iff_right (fun h => hb h.symm)
      simp only [hmem]
      congr 1
      simp only [fill, hr, hc, Option.getD_some, assign2, List.getD_cons_zero, List.getD_cons_succ]
      rw [if_neg]
      rintro ⟨g1, g2, g3, g4⟩
      apply hb
      have k1 : b.1.take legsL.length ++ [q] = x.map Prod.fst ++ [q] := by
        by_contra hne
        rcases hR.disjoint (Dict.mem_of_get? hr) hpm hne with h | h <;> simp only at h <;> omega
      have k2 : q :: b.1.drop legsL.length = q :: y.map Prod.fst := by
        by_contra hne
        rcases hC.disjoint (Dict.mem_of_get? hc) hpm' hne with h | h <;> simp only at h <;> omega
      rw [← List.take_append_drop legsL.length b.1, List.append_inj_left' k1 rfl, (List.cons.inj k2).2, List.map_append]

end fill

/-! ### Entries in terms of the tables -/

section look
variable [AddCommMonoid K] {legsL legsR : List (BondInfo Q)}

/-- The value of `f` at the place of the indices `x`, if there is one. -/
def look (o : Option (Nat × Nat × List Nat)) (x : List (Q × Nat)) (f : Nat → K) : K :=
  match o with
  | none => 0
  | some p => if inBox p.2.2 (x.map Prod.snd) = true then f (spot p x) else 0

theorem look_zero (o : Option (Nat × Nat × List Nat)) (x : List (Q × Nat)) : look o x (fun _ => (0 : K)) = 0 := by
  cases o with
  | none => rfl
  | some p => simp [look]

theorem look_sum {α : Type} (o : Option (Nat × Nat × List Nat)) (x : List (Q × Nat)) (l : List α) (f : α → Nat → K) :
    look o x (fun i => (l.map fun a => f a i).sum) = (l.map fun a => look o x (f a)).sum := by
  cases o with
  | none => simp [look]
  | some p =>
    simp only [look]
    by_cases h : inBox p.2.2 (x.map Prod.snd) = true
    · simp [h]
    · simp [h]

theorem look_congr {o : Option (Nat × Nat × List Nat)} {x : List (Q × Nat)} {f g : Nat → K} {t : Places Q} {k : List Q} (ho : o = Dict.get? t k) {R : Nat}
    (ht : Tiled 0 t R) (h : ∀ i < R, f i = g i) : look o x f = look o x g := by
  subst ho
  cases hp : Dict.get? t k with
  | none => rfl
  | some p =>
    simp only [look]
    by_cases hb : inBox p.2.2 (x.map Prod.snd) = true
    · rw [if_pos hb, if_pos hb, h _ (spot_range ht (Dict.mem_of_get? hp) hb).2.2]
    · rw [if_neg hb, if_neg hb]

/-- Entries of blocks in terms of the matrix filled with them. -/
theorem entry_fill {q : Q} {bs : SpT Q K} (hc : Conforms (legsL ++ legsR) bs) (hu : UniqueLabels bs) {rows cols : Places Q} {R C : Nat}
    (r1 : Tiled 0 rows R) (r2 : Dict.WF rows) (c1 : Tiled 0 cols C) (c2 : Dict.WF cols)
    (r3 : ∀ b ∈ bs, ∃ p, Dict.get? rows (b.1.take legsL.length ++ [q]) = some p ∧ p.2.2 = b.2.shape.take legsL.length)
    (c3 : ∀ b ∈ bs, ∃ p, Dict.get? cols (q :: b.1.drop legsL.length) = some p ∧ p.2.2 = b.2.shape.drop legsL.length) {x y : List (Q × Nat)}
    (hx : x.length = legsL.length) :
    entry bs (x ++ y) = look (Dict.get? rows (x.map Prod.fst ++ [q])) x fun i =>
      look (Dict.get? cols (q :: y.map Prod.fst)) y fun j => (bs.foldl (fill legsL.length q rows cols) (Arr.zeros [R, C])).get [i, j] := by
  by_cases hm : (x ++ y).map Prod.fst ∈ bs.map Prod.fst
  · obtain ⟨b, hb, hbl⟩ := List.mem_map.1 hm
    obtain ⟨ht, hd⟩ := take_drop_map hx hbl
    obtain ⟨p, hp, hps⟩ := r3 b hb
    obtain ⟨p', hp', hps'⟩ := c3 b hb
    rw [ht] at hp
    rw [hd] at hp'
    rw [hp, hp']
    simp only [look]
    have hshape : b.2.shape = p.2.2 ++ p'.2.2 := by rw [hps, hps', List.take_append_drop]
    have hl : (x.map Prod.snd).length = p.2.2.length := by
      rw [hps, List.length_map, List.length_take, (hc b hb).lengths.2, List.length_append, hx]
      omega
    by_cases hbx : inBox p.2.2 (x.map Prod.snd) = true
    · by_cases hby : inBox p'.2.2 (y.map Prod.snd) = true
      · rw [if_pos hbx, if_pos hby, fill_get r1 r2 c1 c2 hu r3 c3 hx hp hp' hbx hby, if_pos hm]
      · rw [if_pos hbx, if_neg hby, entry_of_mem hu hb hbl.symm]
        unfold blockEntry
        rw [if_neg]
        rintro ⟨_, h⟩
        rw [hshape, List.map_append, inBox_append hl] at h
        simp only [Bool.and_eq_true] at h
        exact hby h.2
    · rw [if_neg hbx, entry_of_mem hu hb hbl.symm]
      unfold blockEntry
      rw [if_neg]
      rintro ⟨_, h⟩
      rw [hshape, List.map_append, inBox_append hl] at h
      simp only [Bool.and_eq_true] at h
      exact hbx h.1
  · rw [entry_of_not_mem hm]
    symm
    cases hp : Dict.get? rows (x.map Prod.fst ++ [q]) with
    | none => rfl
    | some p =>
      simp only [look]
      by_cases hbx : inBox p.2.2 (x.map Prod.snd) = true
      · rw [if_pos hbx]
        cases hp' : Dict.get? cols (q :: y.map Prod.fst) with
        | none => rfl
        | some p' =>
          simp only
          by_cases hby : inBox p'.2.2 (y.map Prod.snd) = true
          · rw [if_pos hby, fill_get r1 r2 c1 c2 hu r3 c3 hx hp hp' hbx hby, if_neg hm]
            rfl
          · rw [if_neg hby]
      · rw [if_neg hbx]

/-- Entries of the blocks of a sector. -/
theorem entry_sector {q : Q} {bs : SpT Q K} (hc : Conforms (legsL ++ legsR) bs) (hu : UniqueLabels bs) {x y : List (Q × Nat)}
    (hx : x.length = legsL.length) :
    entry bs (x ++ y) = look (Dict.get? (sector legsL.length q bs).rows (x.map Prod.fst ++ [q])) x fun i =>
      look (Dict.get? (sector legsL.length q bs).cols (q :: y.map Prod.fst)) y fun j => (sector legsL.length q bs).data.get [i, j] := by
  obtain ⟨r1, r2, r3, r4⟩ := rowTab_spec (q := q) hc
  obtain ⟨c1, c2, c3, c4⟩ := colTab_spec (q := q) hc
  rw [sector_eq]
  exact entry_fill hc hu r1 r2 c1 c2 r3 c3 hx

/-- Entries of a group of blocks are entries of the tensor. -/
theorem entry_filter (key : List Q → Q) (q : Q) (T : SpT Q K) (z : List (Q × Nat)) (h : key (z.map Prod.fst) = q) :
    entry (T.filter fun b => key b.1 = q) z = entry T z := by
  induction T with
  | nil => rfl
  | cons b T ih =>
    by_cases hb : key b.1 = q
    · rw [List.filter_cons_of_pos (by simpa using hb), entry_cons, entry_cons, ih]
    · rw [List.filter_cons_of_neg (by simpa using hb), entry_cons, ih]
      have : blockEntry b z = 0 := by
        unfold blockEntry
        rw [if_neg]
        rintro ⟨h1, _⟩
        rw [h1] at hb
        exact hb h
      rw [this, zero_add]

end look

section blocks
variable [AddCommMonoid K]

theorem leftBlock_get {r : List Q × (Nat × Nat × List Nat)} {u : Arr K} {R k : Nat} (hu : u.shape = [R, k]) (he : r.2.2.1 = r.2.1 + r.2.2.2.prod)
    {ix : List Nat} {t : Nat} (hix : inBox r.2.2.2 ix = true) (ht : t < k) :
    ((u.sliceAxis 0 r.2.1 (r.2.2.1 - r.2.1)).reshape (r.2.2.2 ++ [u.shape.getLastD 0])).get (ix ++ [t]) = u.get [r.2.1 + ravel r.2.2.2 ix, t] := by
  have h := reshape_ungroup (l := []) (s := r.2.2.2) (r := [k]) (il := []) (is := ix) (ir := [t]) rfl hix (by simpa [inBox] using ht)
  have hk : u.shape.getLastD 0 = k := by rw [hu]; rfl
  rw [hk]
  simp only [Arr.reshape, Arr.sliceAxis, hu, he, Nat.add_sub_cancel_left]
  simp only [List.nil_append] at h
  simp only [List.set_cons_zero]
  rw [show [r.2.2.2.prod, k] = [r.2.2.2.prod] ++ [k] from rfl, h]
  simp [Nat.add_comm]

theorem rightBlock_get {r : List Q × (Nat × Nat × List Nat)} {v : Arr K} {C k : Nat} (hv : v.shape = [k, C]) (he : r.2.2.1 = r.2.1 + r.2.2.2.prod)
    {ix : List Nat} {t : Nat} (hix : inBox r.2.2.2 ix = true) (ht : t < k) :
    ((v.sliceAxis 1 r.2.1 (r.2.2.1 - r.2.1)).reshape (v.shape.headD 0 :: r.2.2.2)).get (t :: ix) = v.get [t, r.2.1 + ravel r.2.2.2 ix] := by
  have h := reshape_ungroup (l := [k]) (s := r.2.2.2) (r := []) (il := [t]) (is := ix) (ir := []) (by simpa [inBox] using ht) hix rfl
  have hk : v.shape.headD 0 = k := by rw [hv]; rfl
  rw [hk]
  simp only [Arr.reshape, Arr.sliceAxis, hv, he, Nat.add_sub_cancel_left]
  simp only [List.append_nil, List.singleton_append] at h
  simp only [List.set_cons_zero, List.set_cons_succ]
  rw [show [k, r.2.2.2.prod] = k :: [r.2.2.2.prod] from rfl, h]
  simp [Nat.add_comm]

theorem entry_left {s : Sector Q K} {R : Nat} (ht : Tiled 0 s.rows R) (hw : Dict.WF s.rows) {u : Arr K} {k : Nat} (hu : u.shape = [R, k])
    (x : List (Q × Nat)) (q : Q) (t : Nat)
    (hx : ∀ p, Dict.get? s.rows (x.map Prod.fst ++ [q]) = some p → p.2.2.length = x.length) :
    entry (leftBlocks s u) (x ++ [(q, t)]) = look (Dict.get? s.rows (x.map Prod.fst ++ [q])) x fun i => if t < k then u.get [i, t] else 0 := by
  have hul : UniqueLabels (leftBlocks s u) := by
    unfold UniqueLabels leftBlocks
    rw [List.map_map]
    exact hw
  have hk : u.shape.getLastD 0 = k := by rw [hu]; rfl
  cases hp : Dict.get? s.rows (x.map Prod.fst ++ [q]) with
  | none =>
    apply entry_of_not_mem
    intro hm
    have : (leftBlocks s u).map Prod.fst = s.rows.map Prod.fst := by
      unfold leftBlocks
      rw [List.map_map]
      rfl
    rw [this] at hm
    rw [Dict.get?_eq_none_iff] at hp
    apply hp
    simpa using hm
  | some p =>
    have hm := Dict.mem_of_get? hp
    have hl := hx p hp
    have he := (ht.range.2 _ hm).2.1
    simp only at he
    have hb : (x.map Prod.fst ++ [q], (u.sliceAxis 0 p.1 (p.2.1 - p.1)).reshape (p.2.2 ++ [u.shape.getLastD 0])) ∈ leftBlocks s u :=
      List.mem_map.2 ⟨_, hm, rfl⟩
    rw [entry_of_mem hul hb (by simp)]
    unfold blockEntry
    simp only [look, List.map_append, List.map_cons, List.map_nil]
    have hs : ((u.sliceAxis 0 p.1 (p.2.1 - p.1)).reshape (p.2.2 ++ [u.shape.getLastD 0])).shape = p.2.2 ++ [k] := by rw [hk]; rfl
    rw [hs, inBox_append (by simp [hl])]
    by_cases h1 : inBox p.2.2 (x.map Prod.snd) = true
    · by_cases h2 : t < k
      · rw [if_pos ⟨trivial, by simp [h1, inBox, h2]⟩, if_pos h1, if_pos h2]
        exact leftBlock_get (r := (x.map Prod.fst ++ [q], p)) hu he h1 h2
      · rw [if_neg (by simp [inBox, h2]), if_pos h1, if_neg h2]
    · rw [if_neg (by simp [h1]), if_neg h1]

theorem entry_right {s : Sector Q K} {C : Nat} (ht : Tiled 0 s.cols C) (hw : Dict.WF s.cols) {v : Arr K} {k : Nat} (hv : v.shape = [k, C])
    (y : List (Q × Nat)) (q : Q) (t : Nat) :
    entry (rightBlocks s v) ((q, t) :: y) = look (Dict.get? s.cols (q :: y.map Prod.fst)) y fun j => if t < k then v.get [t, j] else 0 := by
  have hul : UniqueLabels (rightBlocks s v) := by
    unfold UniqueLabels rightBlocks
    rw [List.map_map]
    exact hw
  have hk : v.shape.headD 0 = k := by rw [hv]; rfl
  cases hp : Dict.get? s.cols (q :: y.map Prod.fst) with
  | none =>
    apply entry_of_not_mem
    intro hm
    have : (rightBlocks s v).map Prod.fst = s.cols.map Prod.fst := by
      unfold rightBlocks
      rw [List.map_map]
      rfl
    rw [this] at hm
    rw [Dict.get?_eq_none_iff] at hp
    apply hp
    simpa using hm
  | some p =>
    have hm := Dict.mem_of_get? hp
    have he := (ht.range.2 _ hm).2.1
    simp only at he
    have hb : (q :: y.map Prod.fst, (v.sliceAxis 1 p.1 (p.2.1 - p.1)).reshape (v.shape.headD 0 :: p.2.2)) ∈ rightBlocks s v :=
      List.mem_map.2 ⟨_, hm, rfl⟩
    rw [entry_of_mem hul hb (by simp)]
    unfold blockEntry
    simp only [look, List.map_cons]
    have hs : ((v.sliceAxis 1 p.1 (p.2.1 - p.1)).reshape (v.shape.headD 0 :: p.2.2)).shape = k :: p.2.2 := by rw [hk]; rfl
    rw [hs]
    by_cases h1 : inBox p.2.2 (y.map Prod.snd) = true
    · by_cases h2 : t < k
      · rw [if_pos ⟨trivial, by simp [h1, inBox, h2]⟩, if_pos h1, if_pos h2]
        exact rightBlock_get (r := (q :: y.map Prod.fst, p)) hv he h1 h2
      · rw [if_neg (by simp [inBox, h2]), if_pos h1, if_neg h2]
    · rw [if_neg (by simp [inBox, h1]), if_neg h1]

end blocks

/-! ### Factors of all sectors -/

section split
variable {legsL legsR : List (BondInfo Q)} {key : List Q → Q}

/-- Number of columns of the left factor. -/
def wid (e : Sector Q K × Arr K × Arr K) : Nat := e.2.1.shape.getLastD 0

/-- The new bond. -/
def bondOf (es : List (Sector Q K × Arr K × Arr K)) : BondInfo Q := es.map fun e => (e.1.label, wid e)

/-- The sectors by their label. -/
def dictOf (es : List (Sector Q K × Arr K × Arr K)) : Dict Q (Sector Q K × Arr K × Arr K) := es.map fun e => (e.1.label, e)

/-- The left factor. -/
def leftOf (es : List (Sector Q K × Arr K × Arr K)) : SpT Q K := es.flatMap fun e => leftBlocks e.1 e.2.1

/-- The right factor. -/
def rightOf (es : List (Sector Q K × Arr K × Arr K)) : SpT Q K := es.flatMap fun e => rightBlocks e.1 e.2.2

/-- What is known of one sector. -/
structure SectorOk [AddCommMonoid K] (legsL legsR : List (BondInfo Q)) (key : List Q → Q) (T : SpT Q K) (s : Sector Q K) (R C : Nat) : Prop where
  data : s.data.shape = [R, C]
  rowsTiled : Tiled 0 s.rows R
  rowsWF : Dict.WF s.rows
  colsTiled : Tiled 0 s.cols C
  colsWF : Dict.WF s.cols
  rowKey : ∀ e ∈ s.rows, ∃ b ∈ T, key (b.1.take legsL.length) = s.label ∧ e.1 = b.1.take legsL.length ++ [s.label] ∧ IsCombination legsL (b.1.take legsL.length) e.2.2.2
  colKey : ∀ e ∈ s.cols, ∃ b ∈ T, key (b.1.take legsL.length) = s.label ∧ e.1 = s.label :: b.1.drop legsL.length ∧ IsCombination legsR (b.1.drop legsL.length) e.2.2.2
  entry : ∀ x y, x.length = legsL.length → key (x.map Prod.fst) = s.label → entry T (x ++ y) =
    look (Dict.get? s.rows (x.map Prod.fst ++ [s.label])) x fun i => look (Dict.get? s.cols (s.label :: y.map Prod.fst)) y fun j => s.data.get [i, j]

/-- `es` are sectors of `T` with a pair of matrices for each. -/
structure SplitOf [AddCommMonoid K] (legsL legsR : List (BondInfo Q)) (key : List Q → Q) (T : SpT Q K) (es : List (Sector Q K × Arr K × Arr K)) : Prop where
  conf : Conforms (legsL ++ legsR) T
  uniq : UniqueLabels T
  nodup : (es.map fun e => e.1.label).Nodup
  sec : ∀ e ∈ es, ∃ R C, SectorOk legsL legsR key T e.1 R C
  shape : ∀ e ∈ es, ∃ R C, e.1.data.shape = [R, C] ∧ e.2.1.shape = [R, wid e] ∧ e.2.2.shape = [wid e, C]

theorem sectorOk [AddCommMonoid K] {T : SpT Q K} (hc : Conforms (legsL ++ legsR) T) (hu : UniqueLabels T) {g : Q × SpT Q K}
    (hg : g ∈ groupBy (fun b : List Q × Arr K => key (b.1.take legsL.length)) T) :
    ∃ R C, SectorOk legsL legsR key T (sector legsL.length g.1 g.2) R C := by
  obtain ⟨hg2, _⟩ := mem_groupBy hg
  have hmem : ∀ b ∈ g.2, b ∈ T ∧ key (b.1.take legsL.length) = g.1 := by
    intro b hb
    rw [hg2, List.mem_filter] at hb
    exact ⟨hb.1, by simpa using hb.2⟩
  have hc' : Conforms (legsL ++ legsR) g.2 := fun b hb => hc b (hmem b hb).1
  have hu' : UniqueLabels g.2 := by
    rw [hg2]
    exact List.Nodup.sublist (List.Sublist.map _ List.filter_sublist) hu
  obtain ⟨r1, r2, r3, r4⟩ := rowTab_spec (q := g.1) hc'
  obtain ⟨c1, c2, c3, c4⟩ := colTab_spec (q := g.1) hc'
  refine ⟨(rowTab legsL.length g.1 g.2).2, (colTab legsL.length g.1 g.2).2, ?_, r1, r2, c1, c2, ?_, ?_, ?_⟩
  · rw [sector_eq]
    exact fill_shape _ _ _ _ _ _
  · intro e he
    obtain ⟨b, hb, h1, h2⟩ := r4 e he
    exact ⟨b, (hmem b hb).1, (hmem b hb).2, h1, h2⟩
  · intro e he
    obtain ⟨b, hb, h1, h2⟩ := c4 e he
    exact ⟨b, (hmem b hb).1, (hmem b hb).2, h1, h2⟩
  · intro x y hx hk
    rw [show (sector legsL.length g.1 g.2).label = g.1 from rfl] at hk ⊢
    rw [← entry_sector hc' hu' hx, hg2]
    refine (entry_filter (fun l => key (l.take legsL.length)) g.1 T (x ++ y) ?_).symm
    rw [(take_drop_map hx rfl).1, hk]

variable [AddCommMonoid K] {T : SpT Q K} {es : List (Sector Q K × Arr K × Arr K)}

theorem SplitOf.ok (h : SplitOf legsL legsR key T es) {e : Sector Q K × Arr K × Arr K} (he : e ∈ es) :
    ∃ R C, SectorOk legsL legsR key T e.1 R C ∧ e.2.1.shape = [R, wid e] ∧ e.2.2.shape = [wid e, C] := by
  obtain ⟨R, C, hok⟩ := h.sec e he
  obtain ⟨R', C', d1, d2, d3⟩ := h.shape e he
  have := hok.data
  rw [d1] at this
  simp only [List.cons.injEq, and_true] at this
  obtain ⟨rfl, rfl⟩ := this
  exact ⟨R', C', hok, d2, d3⟩

theorem SplitOf.wf (h : SplitOf legsL legsR key T es) : Dict.WF (dictOf es) := by
  unfold Dict.WF dictOf
  rw [List.map_map]
  exact h.nodup

theorem SplitOf.wfBond (h : SplitOf legsL legsR key T es) : Dict.WF (bondOf es) := by
  unfold Dict.WF bondOf
  rw [List.map_map]
  exact h.nodup

theorem SplitOf.get_bond (h : SplitOf legsL legsR key T es) (q : Q) : Dict.get? (bondOf es) q = (Dict.get? (dictOf es) q).map wid := by
  unfold bondOf dictOf
  clear h
  induction es with
  | nil => rfl
  | cons e es ih =>
    simp only [List.map_cons, Dict.get?]
    split
    · rfl
    · exact ih

theorem SplitOf.mem_of_get (h : SplitOf legsL legsR key T es) {q : Q} {e : Sector Q K × Arr K × Arr K} (he : Dict.get? (dictOf es) q = some e) :
    e ∈ es ∧ e.1.label = q := by
  have := Dict.mem_of_get? he
  unfold dictOf at this
  obtain ⟨e', h1, h2⟩ := List.mem_map.1 this
  simp only [Prod.mk.injEq] at h2
  obtain ⟨rfl, rfl⟩ := h2
  exact ⟨h1, rfl⟩

theorem get?_none_of_key {s : Sector Q K} {R C : Nat} (hs : SectorOk legsL legsR key T s R C) {l : List Q} {q : Q} (h : q ≠ s.label) :
    Dict.get? s.rows (l ++ [q]) = none := by
  rw [Dict.get?_eq_none_iff]
  intro hm
  obtain ⟨e, he, hk⟩ := List.mem_map.1 hm
  obtain ⟨b, _, _, h1, _⟩ := hs.rowKey e he
  rw [hk] at h1
  exact h (by simpa using (List.append_inj_right' h1 rfl))

theorem get?_none_of_key' {s : Sector Q K} {R C : Nat} (hs : SectorOk legsL legsR key T s R C) {l : List Q} {q : Q} (h : q ≠ s.label) :
    Dict.get? s.cols (q :: l) = none := by
  rw [Dict.get?_eq_none_iff]
  intro hm
  obtain ⟨e, he, hk⟩ := List.mem_map.1 hm
  obtain ⟨b, _, _, h1, _⟩ := hs.colKey e he
  rw [hk] at h1
  exact h (List.cons.inj h1).1

theorem rows_length {s : Sector Q K} {R C : Nat} (hs : SectorOk legsL legsR key T s R C) {x : List (Q × Nat)} (hx : x.length = legsL.length) {q : Q}
    {p : Nat × Nat × List Nat} (hp : Dict.get? s.rows (x.map Prod.fst ++ [q]) = some p) : p.2.2.length = x.length := by
  obtain ⟨b, _, _, _, h2⟩ := hs.rowKey _ (Dict.mem_of_get? hp)
  rw [hx]
  exact h2.lengths.2

/-- The row table knows only labels that belong to the sector. -/
theorem look_key {s : Sector Q K} {R C : Nat} (hs : SectorOk legsL legsR key T s R C) {x : List (Q × Nat)} {q : Q}
    (hk : key (x.map Prod.fst) ≠ q) : Dict.get? s.rows (x.map Prod.fst ++ [q]) = none := by
  rw [Dict.get?_eq_none_iff]
  intro hm
  obtain ⟨e, he, hk'⟩ := List.mem_map.1 hm
  obtain ⟨b, _, h0, h1, _⟩ := hs.rowKey e he
  rw [hk'] at h1
  obtain ⟨a1, a2⟩ := List.append_inj' h1 rfl
  apply hk
  rw [a1, h0]
  simpa using a2.symm

/-- Entries of the left factor. -/
theorem SplitOf.entry_left (h : SplitOf legsL legsR key T es) {x : List (Q × Nat)} (hx : x.length = legsL.length) (q : Q) (t : Nat) :
    entry (leftOf es) (x ++ [(q, t)]) = match Dict.get? (dictOf es) q with
      | none => 0
      | some e => look (Dict.get? e.1.rows (x.map Prod.fst ++ [q])) x fun i => if t < wid e then e.2.1.get [i, t] else 0 := by
  have h1 : entry (leftOf es) (x ++ [(q, t)]) = ((dictOf es).map fun g => entry (leftBlocks g.2.1 g.2.2.1) (x ++ [(q, t)])).sum := by
    unfold leftOf dictOf entry
    rw [sum_flatMap', List.map_map]
    rfl
  have hen : ∀ e ∈ es, entry (leftBlocks e.1 e.2.1) (x ++ [(q, t)]) =
      look (Dict.get? e.1.rows (x.map Prod.fst ++ [q])) x fun i => if t < wid e then e.2.1.get [i, t] else 0 := by
    intro e he
    obtain ⟨R, C, hok, hu, _⟩ := h.ok he
    exact FermSplit.entry_left hok.rowsTiled hok.rowsWF hu x q t fun p hp => rows_length hok hx hp
  rw [h1, sum_dictC h.wf q]
  · cases hg : Dict.get? (dictOf es) q with
    | none => rfl
    | some e => exact hen e (h.mem_of_get hg).1
  · intro g hg hne
    obtain ⟨e, he, rfl⟩ := List.mem_map.1 hg
    obtain ⟨R, C, hok, _⟩ := h.ok he
    rw [hen e he, get?_none_of_key hok (Ne.symm hne)]
    rfl

/-- Entries of the right factor. -/
theorem SplitOf.entry_right (h : SplitOf legsL legsR key T es) (y : List (Q × Nat)) (q : Q) (t : Nat) :
    entry (rightOf es) ((q, t) :: y) = match Dict.get? (dictOf es) q with
      | none => 0
      | some e => look (Dict.get? e.1.cols (q :: y.map Prod.fst)) y fun j => if t < wid e then e.2.2.get [t, j] else 0 := by
  have h1 : entry (rightOf es) ((q, t) :: y) = ((dictOf es).map fun g => entry (rightBlocks g.2.1 g.2.2.2) ((q, t) :: y)).sum := by
    unfold rightOf dictOf entry
    rw [sum_flatMap', List.map_map]
    rfl
  have hen : ∀ e ∈ es, entry (rightBlocks e.1 e.2.2) ((q, t) :: y) =
      look (Dict.get? e.1.cols (q :: y.map Prod.fst)) y fun j => if t < wid e then e.2.2.get [t, j] else 0 := by
    intro e he
    obtain ⟨R, C, hok, _, hv⟩ := h.ok he
    exact FermSplit.entry_right hok.colsTiled hok.colsWF hv y q t
  rw [h1, sum_dictC h.wf q]
  · cases hg : Dict.get? (dictOf es) q with
    | none => rfl
    | some e => exact hen e (h.mem_of_get hg).1
  · intro g hg hne
    obtain ⟨e, he, rfl⟩ := List.mem_map.1 hg
    obtain ⟨R, C, hok, _⟩ := h.ok he
    rw [hen e he, get?_none_of_key' hok (Ne.symm hne)]
    rfl

theorem SplitOf.conforms_left (h : SplitOf legsL legsR key T es) : Conforms (legsL ++ [bondOf es]) (leftOf es) := by
  intro b hb
  obtain ⟨e, he, hb⟩ := List.mem_flatMap.1 hb
  obtain ⟨r, hr, rfl⟩ := List.mem_map.1 hb
  obtain ⟨R, C, hok, hu, _⟩ := h.ok he
  obtain ⟨b, _, _, h1, h2⟩ := hok.rowKey r hr
  simp only [h1]
  refine h2.append (.cons ?_ .nil)
  have : (e.1.label, wid e) ∈ bondOf es := List.mem_map.2 ⟨e, he, rfl⟩
  exact Dict.get?_of_mem h.wfBond this

theorem SplitOf.conforms_right (h : SplitOf legsL legsR key T es) : Conforms (bondOf es :: legsR) (rightOf es) := by
  intro b hb
  obtain ⟨e, he, hb⟩ := List.mem_flatMap.1 hb
  obtain ⟨r, hr, rfl⟩ := List.mem_map.1 hb
  obtain ⟨R, C, hok, _, hv⟩ := h.ok he
  obtain ⟨b, _, _, h1, h2⟩ := hok.colKey r hr
  simp only [h1]
  have hw : e.2.2.shape.headD 0 = wid e := by rw [hv]; rfl
  refine .cons ?_ h2
  rw [hw]
  have : (e.1.label, wid e) ∈ bondOf es := List.mem_map.2 ⟨e, he, rfl⟩
  exact Dict.get?_of_mem h.wfBond this

theorem SplitOf.unique_left (h : SplitOf legsL legsR key T es) : UniqueLabels (leftOf es) := by
  unfold UniqueLabels leftOf
  rw [List.map_flatMap, List.nodup_flatMap]
  have hb : ∀ e ∈ es, (leftBlocks e.1 e.2.1).map Prod.fst = e.1.rows.map Prod.fst := by
    intro e _
    unfold leftBlocks
    rw [List.map_map]
    rfl
  refine ⟨fun e he => ?_, ?_⟩
  · obtain ⟨R, C, hok, _⟩ := h.ok he
    rw [hb e he]
    exact hok.rowsWF
  · have hn := h.nodup
    unfold List.Nodup at hn
    rw [List.pairwise_map] at hn
    refine List.Pairwise.imp_of_mem ?_ hn
    intro e e' he he' hne l hl hl'
    simp only at hl hl'
    rw [hb e he] at hl
    rw [hb e' he'] at hl'
    obtain ⟨r, hr, rfl⟩ := List.mem_map.1 hl
    obtain ⟨r', hr', hrr⟩ := List.mem_map.1 hl'
    obtain ⟨R, C, hok, _⟩ := h.ok he
    obtain ⟨R', C', hok', _⟩ := h.ok he'
    obtain ⟨_, _, _, h1, _⟩ := hok.rowKey r hr
    obtain ⟨_, _, _, h2, _⟩ := hok'.rowKey r' hr'
    rw [hrr, h1] at h2
    exact hne (by simpa using (List.append_inj_right' h2 rfl))

theorem SplitOf.unique_right (h : SplitOf legsL legsR key T es) : UniqueLabels (rightOf es) := by
  unfold UniqueLabels rightOf
  rw [List.map_flatMap, List.nodup_flatMap]
  have hb : ∀ e ∈ es, (rightBlocks e.1 e.2.2).map Prod.fst = e.1.cols.map Prod.fst := by
    intro e _
    unfold rightBlocks
    rw [List.map_map]
    rfl
  refine ⟨fun e he => ?_, ?_⟩
  · obtain ⟨R, C, hok, _⟩ := h.ok he
    rw [hb e he]
    exact hok.colsWF
  · have hn := h.nodup
    unfold List.Nodup at hn
    rw [List.pairwise_map] at hn
    refine List.Pairwise.imp_of_mem ?_ hn
    intro e e' he he' hne l hl hl'
    simp only at hl hl'
    rw [hb e he] at hl
    rw [hb e' he'] at hl'
    obtain ⟨r, hr, rfl⟩ := List.mem_map.1 hl
    obtain ⟨r', hr', hrr⟩ := List.mem_map.1 hl'
    obtain ⟨R, C, hok, _⟩ := h.ok he
    obtain ⟨R', C', hok', _⟩ := h.ok he'
    obtain ⟨_, _, _, h1, _⟩ := hok.colKey r hr
    obtain ⟨_, _, _, h2, _⟩ := hok'.colKey r' hr'
    rw [hrr, h1] at h2
    exact hne (List.cons.inj h2).1

end split

section product
variable [CommRing K] {legsL legsR : List (BondInfo Q)} {key : List Q → Q} {T : SpT Q K} {es : List (Sector Q K × Arr K × Arr K)}

theorem look_mul {o o' : Option (Nat × Nat × List Nat)} (x y : List (Q × Nat)) (f g : Nat → K) (w : K) :
    look o x f * w * look o' y g = look o x fun i => look o' y fun j => f i * w * g j := by
  cases o with
  | none => simp [look]
  | some p =>
    cases o' with
    | none => simp [look]
    | some p' =>
      simp only [look]
      by_cases h : inBox p.2.2 (x.map Prod.snd) = true <;> by_cases h' : inBox p'.2.2 (y.map Prod.snd) = true <;> simp [h, h']

theorem label_sum {M : Type} [AddCommMonoid M] {r : BondInfo Q} (hr : Dict.WF r) (q : Q) (f : Q × Nat → M) (hf : ∀ z, z.1 ≠ q → f z = 0) :
    ((legBasis r).map f).sum = ((List.range (Counter.count r q)).map fun i => f (q, i)).sum := by
  unfold legBasis
  rw [sum_flatMap']
  refine (sum_dictC hr q (fun x => (((List.range x.2).map fun i => (x.1, i)).map f).sum) ?_).trans ?_
  · intro g _ hne
    apply sum_map_zero'
    intro v hv
    obtain ⟨i, _, rfl⟩ := List.mem_map.1 hv
    exact hf _ hne
  · unfold Counter.count
    cases Dict.get? r q with
    | none => rfl
    | some n => simp only [List.map_map]; rfl

/-- The product of the factors over the new bond, with weights. -/
theorem SplitOf.product (h : SplitOf legsL legsR key T es) (w : Q × Nat → K) {x y : List (Q × Nat)} (hx : x.length = legsL.length) :
    ((legBasis (bondOf es)).map fun z => entry (leftOf es) (x ++ [z]) * w z * entry (rightOf es) (z :: y)).sum =
      match Dict.get? (dictOf es) (key (x.map Prod.fst)) with
      | none => 0
      | some e => look (Dict.get? e.1.rows (x.map Prod.fst ++ [e.1.label])) x fun i => look (Dict.get? e.1.cols (e.1.label :: y.map Prod.fst)) y fun j =>
          ((List.range (wid e)).map fun t => e.2.1.get [i, t] * w (e.1.label, t) * e.2.2.get [t, j]).sum := by
  rw [label_sum h.wfBond (key (x.map Prod.fst))]
  · unfold Counter.count
    rw [h.get_bond]
    cases hg : Dict.get? (dictOf es) (key (x.map Prod.fst)) with
    | none => rfl
    | some e =>
      obtain ⟨he, hl⟩ := h.mem_of_get hg
      simp only [Option.map_some, Option.getD_some]
      have e1 : ∀ (o o' : Option (Nat × Nat × List Nat)) (f : Nat → Nat → Nat → K), (look o x fun i => look o' y fun j => ((List.range (wid e)).map fun t => f t i j).sum) =
          ((List.range (wid e)).map fun t => look o x fun i => look o' y fun j => f t i j).sum := by
        intro o o' f
        simp only [look_sum]
      rw [e1]
      rw [hl]
      apply sum_map_congr'
      intro t ht
      rw [List.mem_range] at ht
      rw [h.entry_left hx, h.entry_right, hg]
      simp only [if_pos ht]
      rw [look_mul]
  · intro z hz
    obtain ⟨q, t⟩ := z
    simp only at hz
    rw [h.entry_left hx]
    cases hg : Dict.get? (dictOf es) q with
    | none => simp
    | some e =>
      obtain ⟨he, hl⟩ := h.mem_of_get hg
      obtain ⟨R, C, hok, _⟩ := h.ok he
      simp only
      rw [look_key hok (Ne.symm hz)]
      simp [look]

/-- If the matrices of each sector have the right product, and there is nothing outside of the sectors, the product is the tensor. -/
theorem SplitOf.whole' (h : SplitOf legsL legsR key T es) (w : Q × Nat → K)
    (hfac : ∀ e ∈ es, ∀ R C, e.1.data.shape = [R, C] → ∀ i < R, ∀ j < C,
      ((List.range (wid e)).map fun t => e.2.1.get [i, t] * w (e.1.label, t) * e.2.2.get [t, j]).sum = e.1.data.get [i, j])
    (hrest : ∀ x y : List (Q × Nat), x.length = legsL.length → key (x.map Prod.fst) ∉ es.map (fun e => e.1.label) → entry T (x ++ y) = 0)
    {x y : List (Q × Nat)} (hx : x.length = legsL.length) :
    ((legBasis (bondOf es)).map fun z => entry (leftOf es) (x ++ [z]) * w z * entry (rightOf es) (z :: y)).sum = entry T (x ++ y) := by
  rw [h.product w hx]
  cases hg : Dict.get? (dictOf es) (key (x.map Prod.fst)) with
  | some e =>
    obtain ⟨he, hl⟩ := h.mem_of_get hg
    obtain ⟨R, C, hok, _⟩ := h.ok he
    rw [hok.entry x y hx hl.symm]
    simp only
    refine look_congr rfl hok.rowsTiled fun i hi => look_congr rfl hok.colsTiled fun j hj => ?_
    exact hfac e he R C hok.data i hi j hj
  | none =>
    simp only
    symm
    apply hrest x y hx
    rw [Dict.get?_eq_none_iff] at hg
    unfold dictOf at hg
    rw [List.map_map] at hg
    exact hg

/-- If nothing is in the sectors that were left out, the tensor is zero there. -/
theorem SplitOf.rest_zero (h : SplitOf legsL legsR key T es)
    (hrest : ∀ g ∈ groupBy (fun b : List Q × Arr K => key (b.1.take legsL.length)) T, g.1 ∉ es.map (fun e => e.1.label) →
      ∀ R C, (sector legsL.length g.1 g.2).data.shape = [R, C] → ∀ i < R, ∀ j < C, (sector legsL.length g.1 g.2).data.get [i, j] = 0)
    (x y : List (Q × Nat)) (hx : x.length = legsL.length) (hn : key (x.map Prod.fst) ∉ es.map (fun e => e.1.label)) : entry T (x ++ y) = 0 := by
  by_cases hT : ∃ b ∈ T, key (b.1.take legsL.length) = key (x.map Prod.fst)
  · have hgr := get?_groupBy_some (key := fun b : List Q × Arr K => key (b.1.take legsL.length)) hT
    have hm := Dict.mem_of_get? hgr
    obtain ⟨R, C, hok⟩ := sectorOk h.conf h.uniq hm
    rw [hok.entry x y hx rfl]
    have hz := hrest _ hm hn R C hok.data
    rw [look_congr (g := fun _ => 0) rfl hok.rowsTiled, look_zero]
    intro i hi
    rw [look_congr (g := fun _ => 0) rfl hok.colsTiled, look_zero]
    intro j hj
    exact hz i hi j hj
  · apply entry_of_not_mem
    intro hm
    obtain ⟨b, hb, hbl⟩ := List.mem_map.1 hm
    exact hT ⟨b, hb, by rw [(take_drop_map hx hbl).1]⟩

/-- If the matrices of each sector have the right product, and sectors that were left out are zero, the product is the tensor. -/
theorem SplitOf.whole (h : SplitOf legsL legsR key T es) (w : Q × Nat → K)
    (hfac : ∀ e ∈ es, ∀ R C, e.1.data.shape = [R, C] → ∀ i < R, ∀ j < C,
      ((List.range (wid e)).map fun t => e.2.1.get [i, t] * w (e.1.label, t) * e.2.2.get [t, j]).sum = e.1.data.get [i, j])
    (hrest : ∀ g ∈ groupBy (fun b : List Q × Arr K => key (b.1.take legsL.length)) T, g.1 ∉ es.map (fun e => e.1.label) →
      ∀ R C, (sector legsL.length g.1 g.2).data.shape = [R, C] → ∀ i < R, ∀ j < C, (sector legsL.length g.1 g.2).data.get [i, j] = 0)
    {x y : List (Q × Nat)} (hx : x.length = legsL.length) :
    ((legBasis (bondOf es)).map fun z => entry (leftOf es) (x ++ [z]) * w z * entry (rightOf es) (z :: y)).sum = entry T (x ++ y) := by
  exact h.whole' w hfac (h.rest_zero hrest) hx

theorem tiled_sum {o len : Nat} {t : Places Q} (h : Tiled o t len) (f : Nat → K) :
    (t.map fun r => ((List.range r.2.2.2.prod).map fun i => f (r.2.1 + i)).sum).sum = ((List.range (len - o)).map fun i => f (o + i)).sum := by
  induction h with
  | nil o => simp
  | @cons o len k sh t h ih =>
    rw [List.map_cons, List.sum_cons, ih]
    have e : len - o = sh.prod + (len - (o + sh.prod)) := by have := h.range.1; omega
    rw [e, List.range_add, List.map_append, List.sum_append, List.map_map]
    simp only [Function.comp_def, Nat.add_assoc]

/-- Summing over all indices is summing over all rows. -/
theorem look_total {legs : List (BondInfo Q)} (hw : ∀ b ∈ legs, Dict.WF b) (mk : List Q → List Q) (hmk : ∀ a b, mk a = mk b → a = b)
    {t : Places Q} {R : Nat} (ht : Tiled 0 t R) (hwf : Dict.WF t) (hkey : ∀ e ∈ t, ∃ ql, e.1 = mk ql ∧ IsCombination legs ql e.2.2.2) (f : Nat → K) :
    ((legIndices legs).map fun x => look (Dict.get? t (mk (x.map Prod.fst))) x f).sum = ((List.range R).map f).sum := by
  have h1 : ∀ x ∈ legIndices legs, look (Dict.get? t (mk (x.map Prod.fst))) x f =
      (t.map fun r => if r.1 = mk (x.map Prod.fst) ∧ inBox r.2.2.2 (x.map Prod.snd) = true then f (r.2.1 + ravel r.2.2.2 (x.map Prod.snd)) else 0).sum := by
    intro x _
    rw [sum_dictC hwf (mk (x.map Prod.fst))]
    · cases hp : Dict.get? t (mk (x.map Prod.fst)) with
      | none => rfl
      | some p => simp [look, spot]
    · intro g _ hne
      rw [if_neg (fun h => hne h.1)]
  rw [sum_map_congr' _ _ _ h1, sum_comm']
  have h2 : ∀ r ∈ t, ((legIndices legs).map fun x => if r.1 = mk (x.map Prod.fst) ∧ inBox r.2.2.2 (x.map Prod.snd) = true then
      f (r.2.1 + ravel r.2.2.2 (x.map Prod.snd)) else 0).sum = ((List.range r.2.2.2.prod).map fun i => f (r.2.1 + i)).sum := by
    intro r hr
    obtain ⟨ql, e1, e2⟩ := hkey r hr
    rw [← box_sum_ravel, ← legIndices_sum hw e2 (fun v => f (r.2.1 + ravel r.2.2.2 v))]
    apply sum_map_congr'
    intro x _
    have : r.1 = mk (x.map Prod.fst) ↔ ql = x.map Prod.fst := by
      rw [e1]
      exact ⟨hmk _ _, fun h => by rw [h]⟩
    simp only [this]
  rw [sum_map_congr' _ _ _ h2, tiled_sum ht]
  simp

end product

section isometry
variable [CommRing K] [StarRing K] {legsL legsR : List (BondInfo Q)} {key : List Q → Q} {T : SpT Q K} {es : List (Sector Q K × Arr K × Arr K)}

theorem look_star_mul (o : Option (Nat × Nat × List Nat)) (x : List (Q × Nat)) (f g : Nat → K) :
    star (look o x f) * look o x g = look o x fun i => star (f i) * g i := by
  cases o with
  | none => simp [look]
  | some p =>
    simp only [look]
    by_cases h : inBox p.2.2 (x.map Prod.snd) = true <;> simp [h]

theorem mem_bondOf (h : SplitOf legsL legsR key T es) {z : Q × Nat} (hz : z ∈ legBasis (bondOf es)) :
    ∃ e ∈ es, Dict.get? (dictOf es) z.1 = some e ∧ e.1.label = z.1 ∧ z.2 < wid e := by
  unfold legBasis bondOf at hz
  simp only [List.mem_flatMap, List.mem_map, List.mem_range] at hz
  obtain ⟨_, ⟨e, he, rfl⟩, i, hi, rfl⟩ := hz
  exact ⟨e, he, Dict.get?_of_mem h.wf (List.mem_map.2 ⟨e, he, rfl⟩), rfl, hi⟩

theorem SplitOf.isometric_left (h : SplitOf legsL legsR key T es) (hw : ∀ b ∈ legsL, Dict.WF b)
    (hun : ∀ e ∈ es, ∀ R C, e.1.data.shape = [R, C] → ∀ t < wid e, ∀ t' < wid e,
      ((List.range R).map fun i => star (e.2.1.get [i, t]) * e.2.1.get [i, t']).sum = if t = t' then 1 else 0) :
    LeftIsometric legsL (bondOf es) (leftOf es) := by
  rintro ⟨q, t⟩ hz ⟨q', t'⟩ hz'
  obtain ⟨e, he, hg, hl, ht⟩ := mem_bondOf h hz
  obtain ⟨e', he', hg', hl', ht'⟩ := mem_bondOf h hz'
  simp only at hg hl ht hg' hl' ht'
  have hlen : ∀ x ∈ legIndices legsL, x.length = legsL.length := by
    intro x hx
    have := ((mem_cart _ _).1 hx).length_eq
    simpa using this.symm
  obtain ⟨R, C, hok, _⟩ := h.ok he
  obtain ⟨R', C', hok', _⟩ := h.ok he'
  by_cases hq : q = q'
  · subst hq
    rw [hg] at hg'
    cases Option.some.inj hg'
    have h1 : ∀ x ∈ legIndices legsL, star (entry (leftOf es) (x ++ [(q, t)])) * entry (leftOf es) (x ++ [(q, t')]) =
        look (Dict.get? e.1.rows (x.map Prod.fst ++ [q])) x fun i => star (e.2.1.get [i, t]) * e.2.1.get [i, t'] := by
      intro x hx
      rw [h.entry_left (hlen x hx), h.entry_left (hlen x hx), hg]
      simp only [if_pos ht, if_pos ht']
      rw [look_star_mul]
    rw [sum_map_congr' _ _ _ h1, look_total hw (fun l => l ++ [q]) (fun a b hab => List.append_inj_left' hab rfl) hok.rowsTiled hok.rowsWF]
    · rw [hun e he R C hok.data t ht t' ht']
      simp
    · intro r hr
      obtain ⟨b, _, _, a1, a2⟩ := hok.rowKey r hr
      exact ⟨_, by rw [a1, hl], a2⟩
  · rw [if_neg (by simp [hq])]
    apply sum_map_zero'
    intro x hx
    rw [h.entry_left (hlen x hx), h.entry_left (hlen x hx), hg, hg']
    simp only
    by_cases hk : key (x.map Prod.fst) = q
    · rw [look_key hok' (q := q') (by rw [hk]; exact hq)]
      simp [look]
    · rw [look_key hok (q := q) hk]
      simp [look]

theorem SplitOf.isometric_right (h : SplitOf legsL legsR key T es) (hw : ∀ b ∈ legsR, Dict.WF b) (keyR : List Q → Q)
    (hkr : ∀ b ∈ T, key (b.1.take legsL.length) = keyR (b.1.drop legsL.length))
    (hun : ∀ e ∈ es, ∀ R C, e.1.data.shape = [R, C] → ∀ t < wid e, ∀ t' < wid e,
      ((List.range C).map fun j => star (e.2.2.get [t, j]) * e.2.2.get [t', j]).sum = if t = t' then 1 else 0) :
    RightIsometric (bondOf es) legsR (rightOf es) := by
  rintro ⟨q, t⟩ hz ⟨q', t'⟩ hz'
  obtain ⟨e, he, hg, hl, ht⟩ := mem_bondOf h hz
  obtain ⟨e', he', hg', hl', ht'⟩ := mem_bondOf h hz'
  simp only at hg hl ht hg' hl' ht'
  obtain ⟨R, C, hok, _⟩ := h.ok he
  obtain ⟨R', C', hok', _⟩ := h.ok he'
  by_cases hq : q = q'
  · subst hq
    rw [hg] at hg'
    cases Option.some.inj hg'
    have h1 : ∀ y ∈ legIndices legsR, star (entry (rightOf es) ((q, t) :: y)) * entry (rightOf es) ((q, t') :: y) =
        look (Dict.get? e.1.cols (q :: y.map Prod.fst)) y fun j => star (e.2.2.get [t, j]) * e.2.2.get [t', j] := by
      intro y _
      rw [h.entry_right, h.entry_right, hg]
      simp only [if_pos ht, if_pos ht']
      rw [look_star_mul]
    rw [sum_map_congr' _ _ _ h1, look_total hw (fun l => q :: l) (fun a b hab => (List.cons.inj hab).2) hok.colsTiled hok.colsWF]
    · rw [hun e he R C hok.data t ht t' ht']
      simp
    · intro r hr
      obtain ⟨b, _, _, a1, a2⟩ := hok.colKey r hr
      exact ⟨_, by rw [a1, hl], a2⟩
  · rw [if_neg (by simp [hq])]
    apply sum_map_zero'
    intro y _
    have hnone : ∀ {f : Sector Q K × Arr K × Arr K} {R C : Nat} (_ : SectorOk legsL legsR key T f.1 R C) (k : Q), f.1.label = k →
        keyR (y.map Prod.fst) ≠ k → Dict.get? f.1.cols (k :: y.map Prod.fst) = none := by
      intro f R C hf k hfk hne
      rw [Dict.get?_eq_none_iff]
      intro hm
      obtain ⟨r, hr, hrk⟩ := List.mem_map.1 hm
      obtain ⟨b, hb, b0, b1, _⟩ := hf.colKey r hr
      rw [hrk] at b1
      obtain ⟨_, b2⟩ := List.cons.inj b1
      exact hne (by rw [b2, ← hkr b hb, b0, hfk])
    rw [h.entry_right, h.entry_right, hg, hg']
    simp only
    by_cases hk : keyR (y.map Prod.fst) = q
    · rw [hnone hok' q' hl' (by rw [hk]; exact hq)]
      simp [look]
    · rw [hnone hok q hl hk]
      simp [look]

end isometry

/-! ### Charges -/

section charge
variable [AddCommGroup Q] [AddCommMonoid K] {legsL legsR : List (BondInfo Q)} {T : SpT Q K} {es : List (Sector Q K × Arr K × Arr K)}

theorem signedSum_append (p p' : List Bool) (a b : List Q) (h : p.length = a.length) : signedSum (p ++ p') (a ++ b) = signedSum p a + signedSum p' b := by
  unfold signedSum
  rw [List.zip_append h, List.map_append, List.sum_append]

theorem leftLabel_eq (p : List Bool) (qs : List Q) (dq : Q) (h : p.length = qs.length) : leftLabel p qs dq = signedSum p qs - dq := by
  have e : leftLabel p qs dq = BondFusingInfo.combine (qs ++ [dq]) (p ++ [false]) := rfl
  rw [e, BondFusingInfo.combine_eq, signedSum_append _ _ _ _ h]
  simp [signedSum, sub_eq_add_neg]

theorem SplitOf.conserves {p p' : List Bool} (hp : p.length = legsL.length) {dl dr : Q}
    (h : SplitOf legsL legsR (fun l => leftLabel p l dl) T es) (hT : Conserves (p ++ p') (dl + dr) T) :
    Conserves (p ++ [false]) dl (leftOf es) ∧ Conserves (true :: p') dr (rightOf es) := by
  constructor
  · intro b hb
    obtain ⟨e, he, hb⟩ := List.mem_flatMap.1 hb
    obtain ⟨r, hr, rfl⟩ := List.mem_map.1 hb
    obtain ⟨R, C, hok, _⟩ := h.ok he
    obtain ⟨b, hbT, h0, h1, h2⟩ := hok.rowKey r hr
    have hl : p.length = (b.1.take legsL.length).length := by rw [hp, h2.lengths.1]
    simp only [h1]
    rw [leftLabel_eq _ _ _ hl] at h0
    rw [signedSum_append _ _ _ _ hl, ← h0]
    simp [signedSum]
  · intro b hb
    obtain ⟨e, he, hb⟩ := List.mem_flatMap.1 hb
    obtain ⟨r, hr, rfl⟩ := List.mem_map.1 hb
    obtain ⟨R, C, hok, _⟩ := h.ok he
    obtain ⟨b, hbT, h0, h1, h2⟩ := hok.colKey r hr
    have hl : p.length = (b.1.take legsL.length).length := by
      rw [hp, List.length_take, (h.conf b hbT).lengths.1, List.length_append]
      omega
    simp only [h1]
    have hc := hT b hbT
    rw [← List.take_append_drop legsL.length b.1, signedSum_append _ _ _ _ hl] at hc
    rw [leftLabel_eq _ _ _ hl] at h0
    have : signedSum (true :: p') (e.1.label :: b.1.drop legsL.length) = e.1.label + signedSum p' (b.1.drop legsL.length) := by simp [signedSum]
    rw [this, ← h0]
    have h3 : signedSum p' (b.1.drop legsL.length) = dl + dr - signedSum p (b.1.take legsL.length) := by rw [← hc]; abel
    rw [h3]
    abel

/-- The label of the new leg is also determined by the labels on the right. -/
theorem keyRight {p p' : List Bool} (hp : p.length = legsL.length) {dl d : Q} (hc : Conforms (legsL ++ legsR) T) (hT : Conserves (p ++ p') d T) :
    ∀ b ∈ T, leftLabel p (b.1.take legsL.length) dl = d - signedSum p' (b.1.drop legsL.length) - dl := by
  intro b hb
  have hl : p.length = (b.1.take legsL.length).length := by
    rw [hp, List.length_take, (hc b hb).lengths.1, List.length_append]
    omega
  have h := hT b hb
  rw [← List.take_append_drop legsL.length b.1, signedSum_append _ _ _ _ hl] at h
  rw [leftLabel_eq _ _ _ hl, ← h]
  abel

end charge

end FermSplit
end Verif
