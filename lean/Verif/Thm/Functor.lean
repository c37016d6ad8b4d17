import Verif.Proof.FunctorNew
import Verif.Thm.MpeLocal
import Verif.Proof.Ladder
import Verif.Thm.Constructor

/-!
C67: the fast product with a local operator is the product.
-/

set_option linter.unusedSectionVars false

namespace Verif
open Functor

section
variable {Q K : Type} [DecidableEq Q] [AddCommGroup Q] [CommRing K]

theorem opEntry_row {W : FlatOp Q K} {legs : List (BondInfo Q)} (ho : Conforms legs (W.odd.toSparse id)) (he : Conforms legs (W.even.toSparse id)) {s : Bool} {y : List (Q × Nat)}
    (h : opEntry W.sparse s y ≠ 0) : ∃ sh, (y.map Prod.fst, sh) ∈ W.rows := by
  have : entry (W.even.toSparse id) y ≠ 0 ∨ entry (W.odd.toSparse id) y ≠ 0 := by
    by_contra hn
    push Not at hn
    apply h
    unfold opEntry FlatOp.sparse
    rw [hn.1, hn.2]
    simp
  rcases this with h | h
  · obtain ⟨⟨b, hb, e⟩, -⟩ := entry_support he h
    exact ⟨_, List.mem_append_right _ (e ▸ Flat.mem_toSparse hb)⟩
  · obtain ⟨⟨b, hb, e⟩, -⟩ := entry_support ho h
    exact ⟨_, List.mem_append_left _ (e ▸ Flat.mem_toSparse hb)⟩

theorem idxs_last {F : Flat Q K} (h : F.WellFormed) : F.idxs.getLastD 0 = F.data.length := by
  rw [h.2.1, h.2.2, List.range_succ, List.map_append, List.map_cons, List.map_nil, List.getLastD_concat, List.take_length]

theorem flatProblem_legs {isF : Q → Bool} {ph0 ph1 : List (BondInfo Q) × List (BondInfo Q)} {m : BondInfo Q} {P0 P1 : List Bool} {o0 o1 : Bool} {dq : Option Q}
    {L R : FlatOp Q K} {T : Flat Q K} (h : FlatProblem isF ph0 ph1 m P0 P1 o0 o1 dq L R T) :
    OpLegs ph0.1 ph0.2 ph1.1 ph1.2 m L R ∧ ChargeOk P0 P1 o0 o1 ph0.1 ph1.1 L R := by
  obtain ⟨h1, h2, -⟩ := h.fit.op
  refine ⟨⟨?_, ?_, (h.fit.legs ph0 (by simp)).2.1, (h.fit.legs ph1 (by simp)).2.1, ⟨h.stored _ (by simp), h.stored _ (by simp)⟩, ⟨h.stored _ (by simp), h.stored _ (by simp)⟩⟩,
    ⟨h.signs.1, h.signs.2, ?_, ?_⟩⟩
  · intro r hr
    rcases List.mem_append.1 hr with hr | hr
    · exact Flat.conforms_rows.1 h1.odd r hr
    · exact Flat.conforms_rows.1 h1.even r hr
  · intro r hr
    rcases List.mem_append.1 hr with hr | hr
    · exact Flat.conforms_rows.1 h2.odd r hr
    · exact Flat.conforms_rows.1 h2.even r hr
  · intro r hr
    rcases List.mem_append.1 hr with hr | hr
    · obtain ⟨b, hb, e, -⟩ := Flat.mem_rows hr
      exact e ▸ h.left _ (by simp) b hb
    · obtain ⟨b, hb, e, -⟩ := Flat.mem_rows hr
      exact e ▸ h.left _ (by simp) b hb
  · intro r hr
    rcases List.mem_append.1 hr with hr | hr
    · obtain ⟨b, hb, e, -⟩ := Flat.mem_rows hr
      exact e ▸ h.right _ (by simp) b hb
    · obtain ⟨b, hb, e, -⟩ := Flat.mem_rows hr
      exact e ▸ h.right _ (by simp) b hb

/-- The product as a sum over the bond between the operator tensors. -/
theorem appliedOne_eq {isF : Q → Bool} (h0 : isF 0 = false) (d0 d1 : List (BondInfo Q)) (m : BondInfo Q) (A0 A1 : OpT Q K) (B : SpT Q K) (a b : List (Q × Nat)) :
    appliedOne isF d0 d1 m [A0, A1] B a b = ((legIndices d0).map fun p => ((legBasis m).map fun z => opEntry A0 false ((0, 0) :: a ++ p ++ [z]) *
      ((legIndices d1).map fun q => opEntry A1 (fermParity isF (p.map Prod.fst)) (z :: b ++ q ++ [(0, 0)]) *
        entry B ((0, 0) :: p ++ q ++ [(0, 0)])).sum).sum).sum := by
  letI : StarRing K := starRingOfComm
  have e : ∀ p : List (Q × Nat), fermParity isF (((0, 0) :: p).map Prod.fst) = fermParity isF (p.map Prod.fst) := by
    intro p
    rw [List.map_cons, fermParity_cons, h0]
    simp
  have := localVal_eq isF h0 d0 d1 m A0 A1 B a b
  simp only [e] at this
  exact this

section
variable {isF : Q → Bool} {ph0 ph1 : List (BondInfo Q) × List (BondInfo Q)} {m : BondInfo Q} {P0 P1 : List Bool} {o0 o1 : Bool} {dq : Option Q}
  {L R : FlatOp Q K} {T : Flat Q K}

/-- A term of the product that is not zero comes from rows that the functor has. -/
theorem term_rows (h : FlatProblem isF ph0 ph1 m P0 P1 o0 o1 dq L R T) {a p b q : List (Q × Nat)} {z : Q × Nat} {s : Bool} (lp : p.length = ph0.2.length) (lq : q.length = ph1.2.length)
    (la : a.length = ph0.1.length) (lb : b.length = ph1.1.length) (e1 : opEntry L.sparse false ((0, 0) :: a ++ p ++ [z]) ≠ 0) (e2 : opEntry R.sparse s (z :: b ++ q ++ [(0, 0)]) ≠ 0) :
    noBlocks L = false ∧ noBlocks R = false ∧ (z.1 :: b.map Prod.fst ++ q.map Prod.fst ++ [0] ∈ R.rows.map Prod.fst) ∧
      ∀ (_ : noBlocks L = false) (_ : noBlocks R = false), List.Forall₂ HasLabel (cinfos L R) (0 :: (p.map Prod.fst ++ q.map Prod.fst) ++ [0]) := by
  obtain ⟨hl, -⟩ := flatProblem_legs h
  obtain ⟨h1, h2, -⟩ := h.fit.op
  obtain ⟨s1, r1⟩ := opEntry_row h1.odd h1.even e1
  obtain ⟨s2, r2⟩ := opEntry_row h2.odd h2.even e2
  have nb : ∀ W : FlatOp Q K, (∃ r, r ∈ W.rows) → noBlocks W = false := by
    rintro W ⟨r, hr⟩
    unfold noBlocks
    rcases List.mem_append.1 hr with hr | hr
    · have : r.1 ∈ W.odd.qs := (List.of_mem_zip hr).1
      have : W.odd.qs ≠ [] := List.ne_nil_of_mem this
      simp [this]
    · have : r.1 ∈ W.even.qs := (List.of_mem_zip hr).1
      have : W.even.qs ≠ [] := List.ne_nil_of_mem this
      simp [this]
  refine ⟨nb L ⟨_, r1⟩, nb R ⟨_, r2⟩, List.mem_map.2 ⟨_, r2, by simp⟩, fun nL nR => ?_⟩
  refine cinfos_has hl nL nR (by simp [lp]) (by simp [lq]) (fun i hi => ⟨_, r1, ?_⟩) fun i hi => ⟨_, r2, ?_⟩
  · have := getD_middle (0 :: a.map Prod.fst) (p.map Prod.fst) [z.1] 0 (i := i) (by simp [lp, hi])
    rw [List.length_cons, List.length_map, la, hl.lenL] at this
    rw [Nat.add_comm 1]
    simpa using this
  · have := getD_middle (z.1 :: b.map Prod.fst) (q.map Prod.fst) [0] 0 (i := i) (by simp [lq, hi])
    rw [List.length_cons, List.length_map, lb, hl.lenR] at this
    rw [Nat.add_comm 1]
    simpa using this

theorem state_row (h : FlatProblem isF ph0 ph1 m P0 P1 o0 o1 dq L R T) {x : List (Q × Nat)} (e : entry (T.toSparse id) x ≠ 0) :
    (∃ b ∈ T.toSparse id, b.1 = x.map Prod.fst) ∧ signedSum (o0 :: (P0 ++ P1) ++ [o1]) (x.map Prod.fst) = dq.getD 0 := by
  obtain ⟨⟨b, hb, e⟩, -⟩ := entry_support h.fit.ket e
  exact ⟨⟨b, hb, e⟩, e ▸ h.state b hb⟩

theorem covered_has (h : FlatProblem isF ph0 ph1 m P0 P1 o0 o1 dq L R T) (nL : noBlocks L = false) (nR : noBlocks R = false)
    (hc : Covered ph0.2.length ph1.2.length L.sparse R.sparse (T.toSparse id)) {b : List Q × Arr K} (hb : b ∈ T.toSparse id) :
    b.1.length = ph0.2.length + ph1.2.length + 2 ∧ ∀ i < ph0.2.length + ph1.2.length + 2, HasLabel ((cinfos L R).getD i []) (b.1.getD i 0) ∨ HasLabel ((vinfos L R).getD i []) (b.1.getD i 0) := by
  obtain ⟨hl, -⟩ := flatProblem_legs h
  obtain ⟨n1, -⟩ := nphys_eq hl.wL hl.hL hl.lenL nL
  obtain ⟨n3, n4⟩ := nphys_eq hl.wR hl.hR hl.lenR nR
  have lb := (h.fit.ket b hb).lengths.1
  have lb' : b.1.length = ph0.2.length + ph1.2.length + 2 := by rw [lb]; simp; omega
  obtain ⟨q1, s1, eb, -, cb⟩ := isCombination_tail (h.fit.ket b hb)
  obtain ⟨q2, s2, eb', -, cb⟩ := isCombination_init cb
  have lq2 := cb.lengths.1
  rw [List.length_append] at lq2
  have mem : ∀ (W : FlatOp Q K) (c : List Q × Arr K), c ∈ W.sparse.odd ++ W.sparse.even → (c.1, c.2.shape) ∈ W.rows := by
    intro W c hc
    rcases List.mem_append.1 hc with hc | hc
    · exact List.mem_append_left _ (Flat.mem_toSparse hc)
    · exact List.mem_append_right _ (Flat.mem_toSparse hc)
  have lenL : ([[((0 : Q), 1)]] ++ ph0.1 ++ ph0.2 ++ [m]).length = ph0.2.length + ph0.2.length + 2 := by simp [hl.lenL]; omega
  have lenR : ((m :: ph1.1 ++ ph1.2 ++ [[((0 : Q), 1)]])).length = ph1.2.length + ph1.2.length + 2 := by simp [hl.lenR]; omega
  have cL := cinfos_sub hl nL nR
  refine ⟨lb', fun i hi => ?_⟩
  rcases Nat.eq_zero_or_pos i with rfl | hpos
  · left
    obtain ⟨r, hr⟩ := rows_ne hl.wL nL
    obtain ⟨l', -, el, -, -⟩ := isCombination_tail (hl.hL r hr)
    rw [show (cinfos L R).getD 0 [] = legDict L 0 from rfl]
    refine ((legDict_spec hl.hL (i := 0) (by simp)).2 _).2 ⟨r, hr, ?_⟩
    rw [el, eb]
    rfl
  obtain ⟨i, rfl⟩ := Nat.exists_eq_succ_of_ne_zero hpos.ne'
  by_cases h1 : i < ph0.2.length
  · obtain ⟨c, hcm, e⟩ := (hc b hb).1 i h1
    have ec : (cinfos L R).getD (i + 1) [] = legDict L (1 + ph0.2.length + i) := by
      unfold cinfos
      rw [n1, List.cons_append, List.cons_append, List.getD_cons_succ, List.append_assoc, List.getD_eq_getElem?_getD, List.getElem?_append_left (by simpa using h1), List.getElem?_map,
        List.getElem?_range' h1]
      simp
    have ev : (vinfos L R).getD (i + 1) [] = legDict L (1 + i) := by
      unfold vinfos
      rw [n1, List.cons_append, List.cons_append, List.getD_cons_succ, List.append_assoc, List.getD_eq_getElem?_getD, List.getElem?_append_left (by simpa using h1), List.getElem?_map,
        List.getElem?_range' h1]
      simp
    rw [Nat.add_comm 1 i] at e
    rcases e with e | e
    · right
      rw [ev, ← e]
      exact ((legDict_spec hl.hL (i := 1 + i) (by simp [hl.lenL]; omega)).2 _).2 ⟨_, mem L c hcm, by rw [Nat.add_comm 1 i]⟩
    · left
      rw [ec, ← e]
      exact ((legDict_spec hl.hL (i := 1 + ph0.2.length + i) (by simp [hl.lenL]; omega)).2 _).2 ⟨_, mem L c hcm, rfl⟩
  by_cases h2 : i < ph0.2.length + ph1.2.length
  · obtain ⟨j, rfl⟩ := Nat.exists_eq_add_of_le (Nat.le_of_not_lt h1)
    have hj : j < ph1.2.length := by omega
    obtain ⟨c, hcm, e⟩ := (hc b hb).2 j hj
    have ec : (cinfos L R).getD (ph0.2.length + j + 1) [] = legDict R (1 + ph1.2.length + j) := by
      unfold cinfos
      rw [n1, n3, List.cons_append, List.cons_append, List.getD_cons_succ, List.append_assoc, List.getD_eq_getElem?_getD, List.getElem?_append_right (by simp)]
      simp only [List.length_map, List.length_range', Nat.add_sub_cancel_left]
      rw [List.getElem?_append_left (by simpa using hj), List.getElem?_map, List.getElem?_range' hj]
      simp
    have ev : (vinfos L R).getD (ph0.2.length + j + 1) [] = legDict R (1 + j) := by
      unfold vinfos
      rw [n1, n3, List.cons_append, List.cons_append, List.getD_cons_succ, List.append_assoc, List.getD_eq_getElem?_getD, List.getElem?_append_right (by simp)]
      simp only [List.length_map, List.length_range', Nat.add_sub_cancel_left]
      rw [List.getElem?_append_left (by simpa using hj), List.getElem?_map, List.getElem?_range' hj]
      simp
    rw [show 1 + ph0.2.length + j = ph0.2.length + j + 1 by omega] at e
    rcases e with e | e
    · right
      rw [ev, ← e]
      exact ((legDict_spec hl.hR (i := 1 + j) (by simp [hl.lenR]; omega)).2 _).2 ⟨_, mem R c hcm, rfl⟩
    · left
      rw [ec, ← e]
      exact ((legDict_spec hl.hR (i := 1 + ph1.2.length + j) (by simp [hl.lenR]; omega)).2 _).2 ⟨_, mem R c hcm, rfl⟩
  · have hi' : i = ph0.2.length + ph1.2.length := by omega
    left
    subst hi'
    obtain ⟨r, hr⟩ := rows_ne hl.wR nR
    obtain ⟨r', sr, er, -, cr⟩ := isCombination_init (hl.hR r hr)
    have lr' := cr.lengths.1
    have ec : (cinfos L R).getD (ph0.2.length + ph1.2.length + 1) [] = legDict R (1 + ph1.2.length + ph1.2.length) := by
      unfold cinfos
      rw [n1, n3, n4, List.cons_append, List.cons_append, List.getD_cons_succ, List.getD_eq_getElem?_getD, List.getElem?_append_right (by simp)]
      simp
    rw [ec]
    refine ((legDict_spec hl.hR (i := 1 + ph1.2.length + ph1.2.length) (by simp [hl.lenR]; omega)).2 _).2 ⟨r, hr, ?_⟩
    rw [er, eb, eb', List.getD_cons_succ, List.getD_eq_getElem?_getD, List.getD_eq_getElem?_getD, List.getElem?_append_right (by simp at lr'; rw [lr', hl.lenR]; omega),
      List.getElem?_append_right (by omega)]
    have z1 : 1 + ph1.2.length + ph1.2.length - r'.length = 0 := by simp at lr'; rw [lr', hl.lenR]; omega
    have z2 : ph0.2.length + ph1.2.length - q2.length = 0 := by omega
    rw [z1, z2]

/-- **C67**: the fast product of a local operator with a state.  The functor is made from the operator; the state is written into its vector, the product is taken,
and the vector is read as a tensor.  Every component is the sum of matrix elements times components, plus the constant times the component.  The functor cannot be
made only if the product is zero.  With a constant the functor must have one set of blocks for argument and result (`symmetric`), and every label of the state must
occur on the legs of the operator. -/
theorem C67_product [DecidableEq K] (h0 : isF 0 = false) (le : Q → Q → Bool) (h : FlatProblem isF ph0 ph1 m P0 P1 o0 o1 dq L R T) {const : K} {sym : Bool}
    (hs : sym = true → ph0.1 = ph0.2 ∧ ph1.1 = ph1.2)
    (hk : const = 0 ∨ sym = true ∧ Covered ph0.2.length ph1.2.length L.sparse R.sparse (T.toSparse id)) :
    (FlatFunctor.new isF le L R const (o0 :: (P0 ++ P1) ++ [o1]) dq sym = none ∧
      ∀ a b, a.length = ph0.1.length → b.length = ph1.1.length → appliedOne isF ph0.2 ph1.2 m [L.sparse, R.sparse] (T.toSparse id) a b = 0) ∨
    ∃ f x y, FlatFunctor.new isF le L R const (o0 :: (P0 ++ P1) ++ [o1]) dq sym = some f ∧ f.prepare T = some x ∧ f.apply x = some y ∧ (f.finalize y).WellFormed ∧
      ∀ a b, a.length = ph0.1.length → b.length = ph1.1.length → entry ((f.finalize y).toSparse id) ((0, 0) :: (a ++ b) ++ [(0, 0)]) =
        appliedOne isF ph0.2 ph1.2 m [L.sparse, R.sparse] (T.toSparse id) a b + const * entry (T.toSparse id) ((0, 0) :: (a ++ b) ++ [(0, 0)]) := by
  obtain ⟨hl, hq⟩ := flatProblem_legs h
  obtain ⟨ne0, -, gb0⟩ := h.fit.legs ph0 (by simp)
  obtain ⟨ne1, -, gb1⟩ := h.fit.legs ph1 (by simp)
  have hd0 : ph0.2 ≠ [] := by
    rw [← List.length_pos_iff, ← hl.lenL]
    exact List.length_pos_iff.2 ne0
  have hd1 : ph1.2 ≠ [] := by
    rw [← List.length_pos_iff, ← hl.lenR]
    exact List.length_pos_iff.2 ne1
  have wd0 : ∀ b ∈ ph0.2, Dict.WF b := fun b hb => (gb0 b (List.mem_append_right _ hb)).1
  have wd1 : ∀ b ∈ ph1.2, Dict.WF b := fun b hb => (gb1 b (List.mem_append_right _ hb)).1
  have hlen : (o0 :: (P0 ++ P1) ++ [o1]).length = ph0.2.length + ph1.2.length + 2 := by
    simp only [List.length_append, List.length_cons, List.length_nil, h.signs.1, h.signs.2, hl.lenL, hl.lenR]
  cases hf : FlatFunctor.new isF le L R const (o0 :: (P0 ++ P1) ++ [o1]) dq sym with
  | none =>
    left
    refine ⟨rfl, fun a b la lb => ?_⟩
    by_contra hne
    rw [appliedOne_eq h0] at hne
    have : ∃ p z q, p.length = ph0.2.length ∧ q.length = ph1.2.length ∧ opEntry L.sparse false ((0, 0) :: a ++ p ++ [z]) ≠ 0 ∧
        opEntry R.sparse (fermParity isF (p.map Prod.fst)) (z :: b ++ q ++ [(0, 0)]) ≠ 0 ∧ entry (T.toSparse id) ((0, 0) :: p ++ q ++ [(0, 0)]) ≠ 0 := by
      by_contra hn
      push Not at hn
      apply hne
      refine sum_map_zero' _ _ fun p hp => sum_map_zero' _ _ fun z _ => ?_
      by_cases e1 : opEntry L.sparse false ((0, 0) :: a ++ p ++ [z]) = 0
      · rw [e1, zero_mul]
      · rw [sum_map_zero', mul_zero]
        intro q hq
        by_cases e2 : opEntry R.sparse (fermParity isF (p.map Prod.fst)) (z :: b ++ q ++ [(0, 0)]) = 0
        · rw [e2, zero_mul]
        · rw [hn p z q (legIndices_length hp) (legIndices_length hq) e1 e2, mul_zero]
    obtain ⟨p, z, q, lp, lq, e1, e2, e3⟩ := this
    obtain ⟨nL, nR, rR, hc⟩ := term_rows h lp lq la lb e1 e2
    have hc := hc nL nR
    obtain ⟨c, v, hm, zc, zv, mc, mv, cc, -⟩ := mats_spec (K := K) le hl nL nR (dq := dq) hs hlen
    have mC : 0 :: (p.map Prod.fst ++ q.map Prod.fst) ++ [0] ∈ c.qs := by
      refine mc _ hc ?_
      have := (state_row h e3).2
      simpa using this
    have mW := (work_rows hl nL nR zc).2.2 z.1 (b.map Prod.fst) (p.map Prod.fst) (q.map Prod.fst) (by simp [lb]) (by simp [lp]) (by simp [lq]) rR mC
    obtain ⟨f, hf'⟩ := new_some isF le hl hq (const := const) hd0 hd1 hm zc zv mv cc nL nR (List.ne_nil_of_mem mC) (List.ne_nil_of_mem mW)
    rw [hf] at hf'
    simp at hf'
  | some f =>
    right
    have hnb : noBlocks L = false ∧ noBlocks R = false := by
      by_contra hn
      unfold FlatFunctor.new at hf
      rw [if_pos] at hf
      · simp at hf
      · simpa [or_iff_not_imp_left] using hn
    obtain ⟨nL, nR⟩ := hnb
    obtain ⟨c, v, hm, zc, zv, mc, mv, cc, hsym⟩ := mats_spec (K := K) le hl nL nR (dq := dq) hs hlen
    obtain ⟨ok, rfl, rfl, rfl, rfl, rfl⟩ := new_ok isF le hl hm zc zv hf
    have ec : ({ f.cmat with data := List.replicate f.cmat.data.length (0 : K) } : Flat Q K) = f.cmat := by
      rw [← zc.zero]
    obtain ⟨x, ex, lx, wx, entx⟩ := cast_spec zc.wf zc.nodup zc.legs (h.stored T (by simp)) h.fit.ket h.unique (fun y => entry_replicate _ _ zc.zero y)
    have hprep : f.prepare T = some x := by
      unfold FlatFunctor.prepare
      rw [ec, ex]
      rfl
    obtain ⟨wv, ev⟩ := apply_entry ok hl.lenL hl.lenR hd1 wd0 wd1 h.fit.bond.1 wx
    have hval : ∀ a b, a.length = ph0.1.length → b.length = ph1.1.length → entry (({ f.vmat with data := f.applyTensors x } : Flat Q K).toSparse id) ((0, 0) :: (a ++ b) ++ [(0, 0)]) =
        appliedOne isF ph0.2 ph1.2 m [f.l.sparse, f.r.sparse] (T.toSparse id) a b := by
      intro a b la lb
      rw [ev a b la lb, appliedOne_eq h0]
      refine sum_map_congr' _ _ _ fun p hp => sum_map_congr' _ _ _ fun z _ => ?_
      by_cases e1 : opEntry f.l.sparse false ((0, 0) :: a ++ p ++ [z]) = 0
      · rw [e1, zero_mul, zero_mul]
      congr 1
      refine sum_map_congr' _ _ _ fun q hq => ?_
      by_cases e2 : opEntry f.r.sparse (fermParity isF (p.map Prod.fst)) (z :: b ++ q ++ [(0, 0)]) = 0
      · rw [e2, zero_mul, zero_mul]
      congr 1
      rw [entx]
      by_cases e3 : entry (T.toSparse id) ((0, 0) :: p ++ q ++ [(0, 0)]) = 0
      · rw [e3]
        simp
      · rw [if_pos]
        have hc := (term_rows h (legIndices_length hp) (legIndices_length hq) la lb e1 e2).2.2.2 nL nR
        have h2 := (state_row h e3).2
        have e4 : ((((0 : Q), 0) :: p ++ q ++ [(0, 0)]).map Prod.fst) = 0 :: (p.map Prod.fst ++ q.map Prod.fst) ++ [0] := by simp
        rw [e4] at h2 ⊢
        exact mc _ hc h2
    have hxl : x.length = f.cmat.idxs.getLastD 0 := by rw [idxs_last zc.wf, lx]
    by_cases hz : f.const = 0
    · refine ⟨f, x, f.applyTensors x, rfl, hprep, ?_, wv, fun a b la lb => ?_⟩
      · unfold FlatFunctor.apply
        rw [if_neg (not_not.2 hxl)]
        simp [hz]
      · rw [hz, zero_mul, add_zero]
        exact hval a b la lb
    · obtain ⟨hsm, hcov⟩ := hk.resolve_left hz
      obtain ⟨hcv, hmem⟩ := hsym hsm
      have hlv : (f.applyTensors x).length = x.length := by
        rw [lx, hcv]
        exact data_length zv.wf wv
      refine ⟨f, x, List.zipWith (fun y z => y + f.const * z) (f.applyTensors x) x, rfl, hprep, ?_, ?_, fun a b la lb => ?_⟩
      · unfold FlatFunctor.apply
        rw [if_neg (not_not.2 hxl)]
        simp [hz, hlv]
      · exact wellFormed_data zv.wf (by rw [List.length_zipWith, hlv, Nat.min_self, lx, hcv])
      · unfold FlatFunctor.finalize
        rw [entry_axpy f.vmat f.const _ _ hlv, hval a b la lb, ← hcv, entx]
        congr 2
        by_cases e3 : entry (T.toSparse id) ((0, 0) :: (a ++ b) ++ [(0, 0)]) = 0
        · rw [e3]
          simp
        · obtain ⟨⟨blk, hb, e⟩, h2⟩ := state_row h e3
          obtain ⟨c1, c2⟩ := covered_has h nL nR hcov hb
          rw [if_pos]
          rw [← e] at h2 ⊢
          exact hmem _ c1 c2 h2

/-- **C67**, every vector: the product of the functor with a vector is the operator applied to the tensor that the vector stands for. -/
theorem C67_vector [DecidableEq K] (h0 : isF 0 = false) (le : Q → Q → Bool) (h : FlatProblem isF ph0 ph1 m P0 P1 o0 o1 dq L R T) {const : K}
    (hs : ph0.1 = ph0.2 ∧ ph1.1 = ph1.2) {f : FlatFunctor Q K} (hf : FlatFunctor.new isF le L R const (o0 :: (P0 ++ P1) ++ [o1]) dq true = some f) (x : List K)
    (hx : (f.finalize x).WellFormed) :
    ∃ y, f.apply x = some y ∧ (f.finalize y).WellFormed ∧
      ∀ a b, a.length = ph0.1.length → b.length = ph1.1.length → entry ((f.finalize y).toSparse id) ((0, 0) :: (a ++ b) ++ [(0, 0)]) =
        appliedOne isF ph0.2 ph1.2 m [L.sparse, R.sparse] ((f.finalize x).toSparse id) a b + const * entry ((f.finalize x).toSparse id) ((0, 0) :: (a ++ b) ++ [(0, 0)]) := by
  obtain ⟨hl, hq⟩ := flatProblem_legs h
  obtain ⟨ne0, -, gb0⟩ := h.fit.legs ph0 (by simp)
  obtain ⟨ne1, -, gb1⟩ := h.fit.legs ph1 (by simp)
  have hd1 : ph1.2 ≠ [] := by
    rw [← List.length_pos_iff, ← hl.lenR]
    exact List.length_pos_iff.2 ne1
  have wd0 : ∀ b ∈ ph0.2, Dict.WF b := fun b hb => (gb0 b (List.mem_append_right _ hb)).1
  have wd1 : ∀ b ∈ ph1.2, Dict.WF b := fun b hb => (gb1 b (List.mem_append_right _ hb)).1
  have hlen : (o0 :: (P0 ++ P1) ++ [o1]).length = ph0.2.length + ph1.2.length + 2 := by
    simp only [List.length_append, List.length_cons, List.length_nil, h.signs.1, h.signs.2, hl.lenL, hl.lenR]
  have hnb : noBlocks L = false ∧ noBlocks R = false := by
    by_contra hn
    unfold FlatFunctor.new at hf
    rw [if_pos] at hf
    · simp at hf
    · simpa [or_iff_not_imp_left] using hn
  obtain ⟨nL, nR⟩ := hnb
  obtain ⟨c, v, hm, zc, zv, mc, mv, cc, hsym⟩ := mats_spec (K := K) (sym := true) le hl nL nR (dq := dq) (fun _ => hs) hlen
  obtain ⟨ok, rfl, rfl, rfl, rfl, rfl⟩ := new_ok isF le hl hm zc zv hf
  obtain ⟨hcv, -⟩ := hsym rfl
  have wx : ({ f.cmat with data := x } : Flat Q K).WellFormed := by
    rw [hcv]
    exact hx
  obtain ⟨wv, ev⟩ := apply_entry ok hl.lenL hl.lenR hd1 wd0 wd1 h.fit.bond.1 wx
  have lx := data_length zc.wf wx
  have hxl : x.length = f.cmat.idxs.getLastD 0 := by rw [idxs_last zc.wf, lx]
  have hval : ∀ a b, a.length = ph0.1.length → b.length = ph1.1.length → entry (({ f.vmat with data := f.applyTensors x } : Flat Q K).toSparse id) ((0, 0) :: (a ++ b) ++ [(0, 0)]) =
      appliedOne isF ph0.2 ph1.2 m [f.l.sparse, f.r.sparse] ((f.finalize x).toSparse id) a b := by
    intro a b la lb
    rw [ev a b la lb, appliedOne_eq h0]
    unfold FlatFunctor.finalize
    rw [hcv]
  by_cases hz : f.const = 0
  · refine ⟨f.applyTensors x, ?_, wv, fun a b la lb => ?_⟩
    · unfold FlatFunctor.apply
      rw [if_neg (not_not.2 hxl)]
      simp [hz]
    · rw [hz, zero_mul, add_zero]
      exact hval a b la lb
  · have hlv : (f.applyTensors x).length = x.length := by
      rw [lx, hcv]
      exact data_length zv.wf wv
    refine ⟨List.zipWith (fun y z => y + f.const * z) (f.applyTensors x) x, ?_, ?_, fun a b la lb => ?_⟩
    · unfold FlatFunctor.apply
      rw [if_neg (not_not.2 hxl)]
      simp [hz, hlv]
    · exact wellFormed_data zv.wf (by rw [List.length_zipWith, hlv, Nat.min_self, lx, hcv])
    · conv_lhs => unfold FlatFunctor.finalize
      rw [entry_axpy f.vmat f.const _ _ hlv, hval a b la lb]
      rfl

theorem wellFormed_axpy {F : Flat Q K} {y z : List K} (c : K) (hy : ({ F with data := y } : Flat Q K).WellFormed) (hz : ({ F with data := z } : Flat Q K).WellFormed) :
    ({ F with data := List.zipWith (fun a b => a + c * b) y z } : Flat Q K).WellFormed ∧ y.length = z.length := by
  have e : y.length = z.length := hy.2.2.trans hz.2.2.symm
  exact ⟨⟨hy.1, hy.2.1, by rw [List.length_zipWith, e, Nat.min_self]; exact hz.2.2⟩, e⟩

/-- Adding a multiple of a vector to another, with the test for zero. -/
theorem axpy_if [DecidableEq K] {F : Flat Q K} {y z : List K} (c : K) (hy : ({ F with data := y } : Flat Q K).WellFormed) (hz : ({ F with data := z } : Flat Q K).WellFormed)
    (t : K) (ht : c = 0 → t = 0) :
    ({ F with data := if c ≠ 0 then List.zipWith (fun a b => a + t * b) y z else y } : Flat Q K).WellFormed ∧
      ∀ x, entry (({ F with data := if c ≠ 0 then List.zipWith (fun a b => a + t * b) y z else y } : Flat Q K).toSparse id) x =
        entry (({ F with data := y } : Flat Q K).toSparse id) x + t * entry (({ F with data := z } : Flat Q K).toSparse id) x := by
  obtain ⟨w, e⟩ := wellFormed_axpy t hy hz
  by_cases hc : c = 0
  · rw [if_neg (not_not.2 hc)]
    exact ⟨hy, fun x => by rw [ht hc, zero_mul, add_zero]⟩
  · rw [if_pos hc]
    exact ⟨w, fun x => entry_axpy F t y z e x⟩

/-- **C67**, Green's function: the product is with `(H + omega)² + eta²`. -/
theorem C67_green [DecidableEq K] (h0 : isF 0 = false) (le : Q → Q → Bool) (h : FlatProblem isF ph0 ph1 m P0 P1 o0 o1 dq L R T) {const : K}
    (hs : ph0.1 = ph0.2 ∧ ph1.1 = ph1.2) {f : FlatFunctor Q K} (hf : FlatFunctor.new isF le L R const (o0 :: (P0 ++ P1) ++ [o1]) dq true = some f) (omega eta : K) (x : List K)
    (hx : (f.finalize x).WellFormed) :
    ∃ y z, f.greenApply omega eta x = some z ∧ (f.finalize z).WellFormed ∧
      (∀ a b, a.length = ph0.1.length → b.length = ph1.1.length → entry ((f.finalize y).toSparse id) ((0, 0) :: (a ++ b) ++ [(0, 0)]) =
        appliedOne isF ph0.2 ph1.2 m [L.sparse, R.sparse] ((f.finalize x).toSparse id) a b + (const + omega) * entry ((f.finalize x).toSparse id) ((0, 0) :: (a ++ b) ++ [(0, 0)])) ∧
      ∀ a b, a.length = ph0.1.length → b.length = ph1.1.length → entry ((f.finalize z).toSparse id) ((0, 0) :: (a ++ b) ++ [(0, 0)]) =
        appliedOne isF ph0.2 ph1.2 m [L.sparse, R.sparse] ((f.finalize y).toSparse id) a b + (const + omega) * entry ((f.finalize y).toSparse id) ((0, 0) :: (a ++ b) ++ [(0, 0)]) +
          eta * eta * entry ((f.finalize x).toSparse id) ((0, 0) :: (a ++ b) ++ [(0, 0)]) := by
  obtain ⟨y, ey, wy, vy⟩ := C67_vector h0 le h hs hf x hx
  obtain ⟨wy', vy'⟩ := axpy_if omega wy hx omega id
  obtain ⟨z, ez, wz, vz⟩ := C67_vector h0 le h hs hf _ wy'
  obtain ⟨wz', vz'⟩ := axpy_if omega wz wy' omega id
  obtain ⟨wc, vc⟩ := axpy_if eta wz' hx (eta * eta) (fun e => by rw [e, zero_mul])
  refine ⟨if omega ≠ 0 then List.zipWith (fun a b => a + omega * b) y x else y, _, ?_, wc, fun a b la lb => ?_, fun a b la lb => ?_⟩
  · unfold FlatFunctor.greenApply
    rw [ey, Option.bind_some]
    dsimp only
    rw [ez]
    rfl
  · refine (vy' _).trans ?_
    have := vy a b la lb
    unfold FlatFunctor.finalize at this ⊢
    rw [this]
    ring
  · refine (vc _).trans ?_
    rw [vz']
    have := vz a b la lb
    unfold FlatFunctor.finalize at this ⊢
    rw [this]
    ring

theorem flat_dot {legs : List (BondInfo Q)} (hw : ∀ b ∈ legs, Dict.WF b) {F : Flat Q K} (wF : F.WellFormed) (nF : F.qs.Nodup) (cF : Conforms legs (F.toSparse id)) {v w : List K}
    (hv : ({ F with data := v } : Flat Q K).WellFormed) (hw' : ({ F with data := w } : Flat Q K).WellFormed) :
    (List.zipWith (· * ·) v w).sum = ((legIndices legs).map fun x => entry (({ F with data := v } : Flat Q K).toSparse id) x * entry (({ F with data := w } : Flat Q K).toSparse id) x).sum := by
  have hlen : F.shs.length = F.qs.length := wF.1.symm
  have e1 : (F.shs.zip F.qs).map Prod.fst = F.shs := List.map_fst_zip hlen.le
  have e2 : (F.shs.zip F.qs).map Prod.snd = F.qs := List.map_snd_zip hlen.ge
  generalize hl : F.shs.zip F.qs = l at e1 e2
  have hn : (l.map Prod.snd).Nodup := e2 ▸ nF
  have hmem : ∀ e ∈ l, IsCombination legs e.2 e.1 := by
    intro e he
    refine Flat.conforms_rows.1 cF (e.2, e.1) ?_
    rw [← hl] at he
    unfold Flat.rows
    rw [← List.zip_swap]
    exact List.mem_map.2 ⟨e, he, rfl⟩
  have hsz : ∀ u : List K, ({ F with data := u } : Flat Q K).WellFormed → u.length = (l.map fun e => e.1.prod).sum := by
    intro u hu
    have := hu.2.2
    dsimp only at this
    rw [this, ← e1, List.map_map]
    rfl
  have hsp : ∀ c : List Nat × List Q → List K, (∀ e ∈ l, (c e).length = e.1.prod) →
      (⟨F.qs, F.shs, (l.map c).flatten, F.idxs⟩ : Flat Q K).toSparse id = l.map fun e => (e.2, Arr.ofList e.1 (c e)) := by
    intro c hc
    have hp : (⟨F.qs, F.shs, (l.map c).flatten, F.idxs⟩ : Flat Q K) = Flat.pack (l.map fun e => (e.2, e.1, c e)) := by
      unfold Flat.pack
      simp only [List.map_map, Function.comp_def]
      have e1' : l.map (fun e => e.1) = F.shs := e1
      have e2' : l.map (fun e => e.2) = F.qs := e2
      rw [e1', e2', Flat.offsets_eq, wF.2.1]
    rw [hp, Flat.toSparse_pack, List.map_map]
    · refine List.map_congr_left fun e he => ?_
      simp
    · intro x hx
      obtain ⟨e, he, rfl⟩ := List.mem_map.1 hx
      exact hc e he
  obtain ⟨c, hc, rfl⟩ := Constructor.exists_chunks l (List.Nodup.of_map _ hn) v (hsz v hv)
  obtain ⟨d, hd, rfl⟩ := Constructor.exists_chunks l (List.Nodup.of_map _ hn) w (hsz w hw')
  rw [hsp c hc, hsp d hd, Constructor.zipWith_flatten l c d fun e he => by rw [hc e he, hd e he]]
  have h1 : ∀ e ∈ l, (List.zipWith (· * ·) (c e) (d e)).sum =
      ((box e.1).map fun ix => (c e).getD (ravel e.1 ix) 0 * (d e).getD (ravel e.1 ix) 0).sum := by
    intro e he
    rw [Constructor.zipWith_sum_range _ _ _ (hc e he) (hd e he), box_sum_ravel e.1 fun k => (c e).getD k 0 * (d e).getD k 0]
  rw [sum_map_congr' _ _ _ h1, Constructor.sum_slots hw l hmem (fun e ix => (c e).getD (ravel e.1 ix) 0 * (d e).getD (ravel e.1 ix) 0)]
  refine sum_map_congr' _ _ _ fun x _ => ?_
  unfold entry
  rw [List.map_map, List.map_map, Constructor.sum_mul_single l Prod.snd hn (x.map Prod.fst)]
  · refine sum_map_congr' _ _ _ fun e _ => ?_
    simp only [Function.comp_def, blockEntry, Arr.ofList]
    split_ifs <;> simp
  · intro e _ hne
    exact if_neg fun h => hne h.1
  · intro e _ hne
    exact if_neg fun h => hne h.1

/-- **C67**, scalar products: `np.dot` of two vectors is the scalar product of the tensors that they stand for. -/
theorem C67_dot [DecidableEq K] (le : Q → Q → Bool) (h : FlatProblem isF ph0 ph1 m P0 P1 o0 o1 dq L R T) {const : K}
    (hs : ph0.1 = ph0.2 ∧ ph1.1 = ph1.2) {f : FlatFunctor Q K} (hf : FlatFunctor.new isF le L R const (o0 :: (P0 ++ P1) ++ [o1]) dq true = some f) (x y : List K)
    (hx : (f.finalize x).WellFormed) (hy : (f.finalize y).WellFormed) :
    (List.zipWith (· * ·) x y).sum =
      ((legIndices ph0.1).map fun a => ((legIndices ph1.1).map fun b => entry ((f.finalize x).toSparse id) ((0, 0) :: (a ++ b) ++ [(0, 0)]) *
        entry ((f.finalize y).toSparse id) ((0, 0) :: (a ++ b) ++ [(0, 0)])).sum).sum := by
  obtain ⟨hl, hq⟩ := flatProblem_legs h
  obtain ⟨-, -, gb0⟩ := h.fit.legs ph0 (by simp)
  obtain ⟨-, -, gb1⟩ := h.fit.legs ph1 (by simp)
  have hlen : (o0 :: (P0 ++ P1) ++ [o1]).length = ph0.2.length + ph1.2.length + 2 := by
    simp only [List.length_append, List.length_cons, List.length_nil, h.signs.1, h.signs.2, hl.lenL, hl.lenR]
  have hnb : noBlocks L = false ∧ noBlocks R = false := by
    by_contra hn
    unfold FlatFunctor.new at hf
    rw [if_pos] at hf
    · simp at hf
    · simpa [or_iff_not_imp_left] using hn
  obtain ⟨nL, nR⟩ := hnb
  obtain ⟨c, v, hm, zc, zv, -⟩ := mats_spec (K := K) (sym := true) le hl nL nR (dq := dq) (fun _ => hs) hlen
  obtain ⟨ok, rfl, rfl, rfl, rfl, rfl⟩ := new_ok isF le hl hm zc zv hf
  have := flat_dot (legs := [(0, 1)] :: (ph0.1 ++ ph1.1) ++ [[(0, 1)]]) (by
    intro b hb
    simp only [List.cons_append, List.mem_cons, List.mem_append, List.not_mem_nil, or_false] at hb
    rcases hb with rfl | (hb | hb) | rfl
    · simp [Dict.WF]
    · exact (gb0 b (List.mem_append_left _ hb)).1
    · exact (gb1 b (List.mem_append_left _ hb)).1
    · simp [Dict.WF]) zv.wf zv.nodup zv.legs hx hy
  rw [this, ← List.singleton_append, List.append_assoc, legIndices_append_sum, legIndices_one_sum, legBasis_single, List.map_singleton, List.sum_singleton]
  rw [legIndices_append_sum, legIndices_append_sum]
  refine sum_map_congr' _ _ _ fun a _ => sum_map_congr' _ _ _ fun b _ => ?_
  rw [legIndices_one_sum, legBasis_single, List.map_singleton, List.sum_singleton]
  simp [FlatFunctor.finalize]

/-- **C67**, storage: the vector made from a state stands for the state if every label of the state occurs on the legs of the operator. -/
theorem C67_prepare [DecidableEq K] (le : Q → Q → Bool) (h : FlatProblem isF ph0 ph1 m P0 P1 o0 o1 dq L R T) {const : K}
    (hs : ph0.1 = ph0.2 ∧ ph1.1 = ph1.2) {f : FlatFunctor Q K} (hf : FlatFunctor.new isF le L R const (o0 :: (P0 ++ P1) ++ [o1]) dq true = some f)
    (hc : Covered ph0.2.length ph1.2.length L.sparse R.sparse (T.toSparse id)) :
    ∃ x, f.prepare T = some x ∧ (f.finalize x).WellFormed ∧ ∀ i, entry ((f.finalize x).toSparse id) i = entry (T.toSparse id) i := by
  obtain ⟨hl, hq⟩ := flatProblem_legs h
  have hlen : (o0 :: (P0 ++ P1) ++ [o1]).length = ph0.2.length + ph1.2.length + 2 := by
    simp only [List.length_append, List.length_cons, List.length_nil, h.signs.1, h.signs.2, hl.lenL, hl.lenR]
  have hnb : noBlocks L = false ∧ noBlocks R = false := by
    by_contra hn
    unfold FlatFunctor.new at hf
    rw [if_pos] at hf
    · simp at hf
    · simpa [or_iff_not_imp_left] using hn
  obtain ⟨nL, nR⟩ := hnb
  obtain ⟨c, v, hm, zc, zv, mc, mv, cc, hsym⟩ := mats_spec (K := K) (sym := true) le hl nL nR (dq := dq) (fun _ => hs) hlen
  obtain ⟨ok, rfl, rfl, rfl, rfl, rfl⟩ := new_ok isF le hl hm zc zv hf
  obtain ⟨hcv, hmem⟩ := hsym rfl
  have ec : ({ f.cmat with data := List.replicate f.cmat.data.length (0 : K) } : Flat Q K) = f.cmat := by
    rw [← zc.zero]
  obtain ⟨x, ex, lx, wx, entx⟩ := cast_spec zc.wf zc.nodup zc.legs (h.stored T (by simp)) h.fit.ket h.unique (fun y => entry_replicate _ _ zc.zero y)
  refine ⟨x, ?_, ?_, fun i => ?_⟩
  · unfold FlatFunctor.prepare
    rw [ec, ex]
    rfl
  · unfold FlatFunctor.finalize
    rw [← hcv]
    exact wx
  · unfold FlatFunctor.finalize
    rw [← hcv, entx]
    by_cases e3 : entry (T.toSparse id) i = 0
    · rw [e3]
      simp
    · obtain ⟨⟨blk, hb, e⟩, h2⟩ := state_row h e3
      obtain ⟨c1, c2⟩ := covered_has h nL nR hc hb
      rw [if_pos]
      rw [← e] at h2 ⊢
      exact hmem _ c1 c2 h2

/-- **C67**, both paths: where the fast product and the product of the tensors (`C58_product`) both return, they have the same components. -/
theorem C67_same_as_product [DecidableEq K] (h0 : isF 0 = false) (le : Q → Q → Bool) (h : FlatProblem isF ph0 ph1 m P0 P1 o0 o1 dq L R T) {const : K} {sym : Bool}
    (hs : ph0.1 = ph0.2 ∧ ph1.1 = ph1.2)
    (hk : const = 0 ∨ sym = true ∧ Covered ph0.2.length ph1.2.length L.sparse R.sparse (T.toSparse id)) {f : FlatFunctor Q K} {x y : List K} {B : SpT Q K}
    (hf : FlatFunctor.new isF le L R const (o0 :: (P0 ++ P1) ++ [o1]) dq sym = some f) (hx : f.prepare T = some x) (hy : f.apply x = some y)
    (hB : Mps.applyOne isF le ⟨[L.sparse, R.sparse], const⟩ ⟨[T.toSparse id], 0⟩ = some ⟨[B], 0⟩) (a b : List (Q × Nat)) (ha : a.length = ph0.1.length) (hb : b.length = ph1.1.length) :
    entry ((f.finalize y).toSparse id) ((0, 0) :: (a ++ b) ++ [(0, 0)]) = entry B ((0, 0) :: (a ++ b) ++ [(0, 0)]) := by
  letI : StarRing K := starRingOfComm
  have h1 : ∃ f' x' y', FlatFunctor.new isF le L R const (o0 :: (P0 ++ P1) ++ [o1]) dq sym = some f' ∧ f'.prepare T = some x' ∧ f'.apply x' = some y' ∧ (f'.finalize y').WellFormed ∧ _ :=
    (C67_product h0 le h (fun _ => hs) hk).resolve_left fun e => by
      rw [hf] at e
      simp at e
  obtain ⟨f', x', y', e1, e2, e3, -, e4⟩ := h1
  rw [hf] at e1
  cases e1
  rw [hx] at e2
  cases e2
  rw [hy] at e3
  cases e3
  have hkt := h.fit.ket
  rcases C58_product (o := ⟨[L.sparse, R.sparse], const⟩) h0 le h.fit (Or.inr (by rw [hs.1, hs.2]; exact hkt)) with ⟨e, -⟩ | ⟨B', e, -, -, e5⟩
  · rw [hB] at e
    simp at e
  · rw [hB] at e
    simp only [Option.some.injEq, Mps.mk.injEq, List.cons.injEq, and_true] at e
    subst e
    rw [e4 a b ha hb, e5 a b ha hb]

end
end

/-! ### A case, and what goes wrong without the conditions -/

/-- Left tensor: occupation of the left part (two states with label 1), and transfer of a particle to and from the right part. -/
def funL : FlatOp Int Int :=
  ⟨Flat.pack [([0, 1, 0, 1], [1, 2, 1, 1], [3, 4]), ([0, 0, 1, -1], [1, 1, 2, 1], [2, 6])], Flat.pack [([0, 1, 1, 0], [1, 2, 2, 1], [5, 1, 1, 8])]⟩

/-- Right tensor. -/
def funR : FlatOp Int Int :=
  ⟨Flat.pack [([1, 1, 0, 0], [1, 1, 1, 1], [7]), ([-1, 0, 1, 0], [1, 1, 1, 1], [11])],
    Flat.pack [([0, 0, 0, 0], [1, 1, 1, 1], [1]), ([0, 1, 1, 0], [1, 1, 1, 1], [1])]⟩

def funT : Flat Int Int := Flat.pack [([0, 0, 0, 0], [1, 1, 1, 1], [4]), ([0, 1, 1, 0], [1, 2, 1, 1], [10, 20])]

def funPh0 : List (BondInfo Int) × List (BondInfo Int) := ([[(0, 1), (1, 2)]], [[(0, 1), (1, 2)]])
def funPh1 : List (BondInfo Int) × List (BondInfo Int) := ([[(0, 1), (1, 1)]], [[(0, 1), (1, 1)]])

/-- The hypotheses of `C67_product`, with a constant, and of the other theorems. -/
theorem funProblem : FlatProblem mpoIsF funPh0 funPh1 [(0, 1), (1, 1), (-1, 1)] [true] [false] true true none funL funR funT where
  fit := {
    op := ⟨⟨by decide, by decide, by decide, by decide, by decide, by decide⟩, ⟨by decide, by decide, by decide, by decide, by decide, by decide⟩, trivial⟩
    ket := by decide
    ketEven := by unfold EvenBlocks; decide
    bond := by unfold GoodBond; decide
    legs := by unfold GoodBond; decide }
  stored := by unfold Flat.WellFormed; decide
  unique := by decide
  signs := by decide
  left := by unfold Conserves; decide
  right := by unfold Conserves; decide
  state := by unfold Conserves; decide

example : Covered funPh0.2.length funPh1.2.length funL.sparse funR.sparse (funT.toSparse id) := by
  unfold Covered SeenOn
  decide

/-- `5 · 10 + 1 · 20 + 3 · 7 · 4 + 2 · 10` for the first pair state and `-11 (2 · 10 + 6 · 20) + 2 · 4` for the empty one: the sign is of the particle in the left part. -/
example : ∃ f x y, FlatFunctor.new mpoIsF (fun a b => decide (a ≤ b)) funL funR 2 [true, true, false, true] none true = some f ∧ f.prepare funT = some x ∧ f.apply x = some y ∧
    entry ((f.finalize y).toSparse id) [(0, 0), (1, 0), (1, 0), (0, 0)] = 174 ∧ entry ((f.finalize y).toSparse id) [(0, 0), (0, 0), (0, 0), (0, 0)] = -1532 := by
  refine ⟨_, _, _, rfl, rfl, rfl, ?_⟩
  decide +kernel

/-- Occupation of both parts only. -/
def funOcc (v : Int) : FlatOp Int Int := ⟨Flat.pack [], Flat.pack [([0, 1, 1, 0], [1, 1, 1, 1], [v])]⟩

def funS : Flat Int Int := Flat.pack [([0, 0, 0, 0], [1, 1, 1, 1], [4]), ([0, 1, 1, 0], [1, 1, 1, 1], [10])]

/-- **C67**, violation: a component whose labels do not occur in the operator is dropped, so that the constant times this component is missing.  Here the operator is
`5 · 7 n n' + 2` and the empty component of the product is 0 rather than `2 · 4`. -/
theorem C67_uncovered_lost : FlatProblem mpoIsF locPh locPh [(0, 1)] [true] [false] true true none (funOcc 5) (funOcc 7) funS ∧
    ∃ f x y, FlatFunctor.new mpoIsF (fun a b => decide (a ≤ b)) (funOcc 5) (funOcc 7) 2 [true, true, false, true] none true = some f ∧ f.prepare funS = some x ∧ f.apply x = some y ∧
      entry ((f.finalize y).toSparse id) [(0, 0), (1, 0), (1, 0), (0, 0)] = 5 * 7 * 10 + 2 * 10 ∧
      entry ((f.finalize y).toSparse id) [(0, 0), (0, 0), (0, 0), (0, 0)] = 0 ∧ entry (funS.toSparse id) [(0, 0), (0, 0), (0, 0), (0, 0)] = 4 := by
  refine ⟨⟨⟨⟨⟨by decide, by decide, by decide, by decide, by decide, by decide⟩, ⟨by decide, by decide, by decide, by decide, by decide, by decide⟩, trivial⟩, by decide,
    by unfold EvenBlocks; decide, by unfold GoodBond; decide, by unfold GoodBond; decide⟩, by unfold Flat.WellFormed; decide, by decide, by decide, by unfold Conserves; decide,
    by unfold Conserves; decide, by unfold Conserves; decide⟩, _, _, _, rfl, rfl, rfl, ?_⟩
  decide +kernel

/-- Transfer to both parts only: rows with label 1, columns with label 0. -/
def funUpL : FlatOp Int Int := ⟨Flat.pack [([0, 1, 0, 1], [1, 1, 1, 1], [3])], Flat.pack []⟩
def funUpR : FlatOp Int Int := ⟨Flat.pack [([1, 1, 0, 0], [1, 1, 1, 1], [7])], Flat.pack []⟩
def funE : Flat Int Int := Flat.pack [([0, 0, 0, 0], [1, 1, 1, 1], [4])]

/-- **C67**, violation: with `symmetric=False` (`multiply`, time steps) the argument and the result have different blocks, but the constant times the argument is added
position by position.  Here the constant 2 times the empty component is added to the pair component, `3 · 7 · 4`. -/
theorem C67_constant_misplaced : FlatProblem mpoIsF locPh locPh [(0, 1), (1, 1)] [true] [false] true true none funUpL funUpR funE ∧
    ∃ f x y, FlatFunctor.new mpoIsF (fun a b => decide (a ≤ b)) funUpL funUpR 2 [true, true, false, true] none false = some f ∧ f.prepare funE = some x ∧ f.apply x = some y ∧
      entry ((f.finalize y).toSparse id) [(0, 0), (1, 0), (1, 0), (0, 0)] = 3 * 7 * 4 + 2 * 4 ∧ entry (funE.toSparse id) [(0, 0), (1, 0), (1, 0), (0, 0)] = 0 ∧
      entry ((f.finalize y).toSparse id) [(0, 0), (0, 0), (0, 0), (0, 0)] = 0 ∧ entry (funE.toSparse id) [(0, 0), (0, 0), (0, 0), (0, 0)] = 4 := by
  refine ⟨⟨⟨⟨⟨by decide, by decide, by decide, by decide, by decide, by decide⟩, ⟨by decide, by decide, by decide, by decide, by decide, by decide⟩, trivial⟩, by decide,
    by unfold EvenBlocks; decide, by unfold GoodBond; decide, by unfold GoodBond; decide⟩, by unfold Flat.WellFormed; decide, by decide, by decide, by unfold Conserves; decide,
    by unfold Conserves; decide, by unfold Conserves; decide⟩, _, _, _, rfl, rfl, rfl, ?_⟩
  decide +kernel

end Verif
