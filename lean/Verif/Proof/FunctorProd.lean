import Verif.Proof.FunctorLegs
import Verif.Thm.Flat

/-! Lemmas for C67: plans exist, and what the two products give. -/

set_option linter.unusedSectionVars false

namespace Verif
open Functor

section
variable {Q K : Type} [DecidableEq Q] [AddCommGroup Q]

theorem mem_fpairs_iff {a b : List (List Q)} {ia ib : List Nat} {i j : Nat} :
    (i, j) ∈ Functor.pairs a b ia ib ↔ ∃ (hi : i < a.length) (hj : j < b.length), pick ib b[j] = pick ia a[i] := by
  constructor
  · exact fun h => mem_fpairs h
  · rintro ⟨hi, hj, e⟩
    unfold Functor.pairs
    refine List.mem_flatMap.2 ⟨(a[i], i), List.mem_zipIdx_iff_getElem?.2 (List.getElem?_eq_getElem hi), List.mem_map.2 ⟨(b[j], j), ?_, rfl⟩⟩
    rw [List.mem_filter]
    exact ⟨List.mem_zipIdx_iff_getElem?.2 (List.getElem?_eq_getElem hj), by simpa using e⟩

theorem td_fold (a b : List (List Q × List Nat)) (ia ib : List Nat) (l : List (Nat × Nat)) (m : List (List Q × List Nat)) :
    let sk := l.foldl (fun m p =>
      let x := a.getD p.1 ([], [])
      let y := b.getD p.2 ([], [])
      let q := outRow ia ib x.1 y.1
      if (m.map Prod.fst).contains q then m else m ++ [(q, outRow ia ib x.2 y.2)]) m
    (∀ r ∈ sk, r ∈ m ∨ ∃ p ∈ l, r = (outRow ia ib (a.getD p.1 ([], [])).1 (b.getD p.2 ([], [])).1, outRow ia ib (a.getD p.1 ([], [])).2 (b.getD p.2 ([], [])).2)) ∧
      (∀ q ∈ m.map Prod.fst, q ∈ sk.map Prod.fst) ∧ ∀ p ∈ l, outRow ia ib (a.getD p.1 ([], [])).1 (b.getD p.2 ([], [])).1 ∈ sk.map Prod.fst := by
  induction l generalizing m with
  | nil => exact ⟨fun r hr => .inl hr, fun q hq => hq, fun p hp => absurd hp (by simp)⟩
  | cons p t ih =>
    dsimp only at ih ⊢
    rw [List.foldl_cons]
    by_cases hc : (m.map Prod.fst).contains (outRow ia ib (a.getD p.1 ([], [])).1 (b.getD p.2 ([], [])).1) = true
    · rw [if_pos hc]
      obtain ⟨i1, i2, i3⟩ := ih m
      refine ⟨fun r hr => ?_, i2, fun p' hp' => ?_⟩
      · rcases i1 r hr with h | ⟨p', hp', e⟩
        · exact .inl h
        · exact .inr ⟨p', List.mem_cons_of_mem _ hp', e⟩
      · rcases List.mem_cons.1 hp' with rfl | h
        · exact i2 _ (by simpa using hc)
        · exact i3 p' h
    · rw [if_neg hc]
      obtain ⟨i1, i2, i3⟩ := ih (m ++ [(outRow ia ib (a.getD p.1 ([], [])).1 (b.getD p.2 ([], [])).1, outRow ia ib (a.getD p.1 ([], [])).2 (b.getD p.2 ([], [])).2)])
      refine ⟨fun r hr => ?_, fun q hq => i2 q (by rw [List.map_append]; exact List.mem_append_left _ hq), fun p' hp' => ?_⟩
      · rcases i1 r hr with h | ⟨p', hp', e⟩
        · rcases List.mem_append.1 h with h | h
          · exact .inl h
          · exact .inr ⟨p, List.mem_cons_self, by simpa using h⟩
        · exact .inr ⟨p', List.mem_cons_of_mem _ hp', e⟩
      · rcases List.mem_cons.1 hp' with rfl | h
        · exact i2 _ (by simp)
        · exact i3 p' h

theorem td_spec (a b : List (List Q × List Nat)) (ia ib : List Nat) :
    (∀ r ∈ tdSkeleton a b ia ib, ∃ x ∈ a, ∃ y ∈ b, pick ib y.1 = pick ia x.1 ∧ r = (outRow ia ib x.1 y.1, outRow ia ib x.2 y.2)) ∧
      ∀ x ∈ a, ∀ y ∈ b, pick ib y.1 = pick ia x.1 → outRow ia ib x.1 y.1 ∈ (tdSkeleton a b ia ib).map Prod.fst := by
  obtain ⟨h1, -, h3⟩ := td_fold a b ia ib (Functor.pairs (a.map Prod.fst) (b.map Prod.fst) ia ib) []
  constructor
  · intro r hr
    rcases h1 r hr with h | ⟨p, hp, e⟩
    · simp at h
    · obtain ⟨hi, hj, ep⟩ := mem_fpairs hp
      rw [List.length_map] at hi hj
      rw [List.getElem_map, List.getElem_map] at ep
      rw [List.getD_eq_getElem?_getD, List.getElem?_eq_getElem hi, List.getD_eq_getElem?_getD, List.getElem?_eq_getElem hj] at e
      exact ⟨_, List.getElem_mem hi, _, List.getElem_mem hj, ep, e⟩
  · intro x hx y hy e
    obtain ⟨i, hi, rfl⟩ := List.mem_iff_getElem.1 hx
    obtain ⟨j, hj, rfl⟩ := List.mem_iff_getElem.1 hy
    have := h3 (i, j) (mem_fpairs_iff.2 ⟨by simpa using hi, by simpa using hj, by simpa using e⟩)
    rw [List.getD_eq_getElem?_getD, List.getElem?_eq_getElem hi, List.getD_eq_getElem?_getD, List.getElem?_eq_getElem hj] at this
    exact this

theorem mapM_some {α β : Type} {f : α → Option β} {l : List α} (h : ∀ a ∈ l, ∃ b, f a = some b) : ∃ r, l.mapM f = some r := by
  induction l with
  | nil => exact ⟨[], rfl⟩
  | cons a t ih =>
    obtain ⟨b, hb⟩ := h a List.mem_cons_self
    obtain ⟨r, hr⟩ := ih fun c hc => h c (List.mem_cons_of_mem _ hc)
    exact ⟨b :: r, by rw [List.mapM_cons, hb, hr]; rfl⟩

theorem plan_some {isF : Q → Bool} {A B C : Flat Q K} {ia ib : List Nat} {ferm : Bool} (hB : A.qs ≠ [] → B.qs ≠ [])
    (pA : A.qs ≠ [] → ∃ t, place A.shs (A.qs.headD []).length ia = some t) (pB : B.qs ≠ [] → ∃ t, place B.shs (B.qs.headD []).length ib = some t)
    (hC : ∀ x ∈ A.qs, ∀ y ∈ B.qs, pick ib y = pick ia x → outRow ia ib x y ∈ C.qs) : ∃ p, plan isF A B C ia ib ferm = some p := by
  unfold plan
  by_cases hA : A.qs.length = 0
  · rw [if_pos hA]
    exact ⟨_, rfl⟩
  · rw [if_neg hA]
    have hA' : A.qs ≠ [] := fun h => hA (by rw [h]; rfl)
    have hB' := hB hA'
    rw [if_neg (by simpa using hB')]
    obtain ⟨ta, eta⟩ := pA hA'
    obtain ⟨tb, etb⟩ := pB hB'
    rw [eta, etb]
    simp only [Option.bind_some]
    obtain ⟨r, hr⟩ := mapM_some (f := fun p : Nat × Nat =>
      let qa := A.qs.getD p.1 []
      let qb := B.qs.getD p.2 []
      let sa := A.shs.getD p.1 []
      let sb := B.shs.getD p.2 []
      let q := outRow ia ib qa qb
      if C.qs.contains q then
        some (C.qs.idxOf q, Gemm.mk ta tb (pick (rest sa.length ia) sa).prod (pick (rest sb.length ib) sb).prod (pick ia sa).prod
          (A.idxs.getD p.1 0) (B.idxs.getD p.2 0) (C.idxs.getD (C.qs.idxOf q) 0) (signOf isF ferm ib qb))
      else none) (l := Functor.pairs A.qs B.qs ia ib) (by
        rintro ⟨i, j⟩ hp
        obtain ⟨hi, hj, e⟩ := mem_fpairs_iff.1 hp
        dsimp only
        rw [List.getD_eq_getElem?_getD, List.getElem?_eq_getElem hi, List.getD_eq_getElem?_getD (l := B.qs), List.getElem?_eq_getElem hj]
        rw [if_pos (by simpa using hC _ (List.getElem_mem hi) _ (List.getElem_mem hj) e)]
        exact ⟨_, rfl⟩)
    rw [hr]
    exact ⟨_, rfl⟩

theorem headD_length [Zero K] {F : Flat Q K} {legs : List (BondInfo Q)} (w : F.WellFormed) (c : Conforms legs (F.toSparse id)) (h : F.qs ≠ []) : (F.qs.headD []).length = legs.length := by
  obtain ⟨q, t, e⟩ := List.exists_cons_of_ne_nil h
  rw [e, List.headD_cons]
  have : q ∈ (F.toSparse id).map Prod.fst := by
    rw [Flat.labels_toSparse w, e]
    exact List.mem_cons_self
  obtain ⟨b, hb, rfl⟩ := List.mem_map.1 this
  exact (c b hb).lengths.1

theorem plan_data {isF : Q → Bool} {A B C : Flat Q K} {ia ib : List Nat} {ferm : Bool} (x y z : List K) :
    plan isF { A with data := x } { B with data := y } { C with data := z } ia ib ferm = plan isF A B C ia ib ferm := rfl

/-- The plan depends on the labels, shapes and offsets only. -/
theorem plan_transpose [Zero K] {isF : Q → Bool} {A W C : Flat Q K} {ia ib axes : List Nat} {ferm : Bool} (d : List K) :
    plan isF A (({ W with data := d } : Flat Q K).transpose axes) C ia ib ferm = plan isF A (W.transpose axes) C ia ib ferm := by
  unfold Flat.transpose
  dsimp only
  split_ifs with h
  · rfl
  · rfl


theorem sameBlocks_conforms [Zero K] {legs : List (BondInfo Q)} {S T : SpT Q K} (h : SameBlocks S T) (hT : Conforms legs T) : Conforms legs S := by
  unfold SameBlocks at h
  intro b hb
  induction h with
  | nil => cases hb
  | @cons s t S T h1 h2 ih =>
    rcases List.mem_cons.1 hb with rfl | hb
    · have := hT t List.mem_cons_self
      rwa [← h1.1, ← h1.2.1] at this
    · exact ih (fun c hc => hT c (List.mem_cons_of_mem _ hc)) hb

theorem sameBlocks_entry [AddCommMonoid K] {S T : SpT Q K} (h : SameBlocks S T) (x : List (Q × Nat)) : entry S x = entry T x := by
  unfold SameBlocks at h
  unfold entry
  induction h with
  | nil => rfl
  | @cons s t S T h1 h2 ih =>
    rw [List.map_cons, List.map_cons, List.sum_cons, List.sum_cons, ih]
    congr 1
    unfold blockEntry
    rw [← h1.1, ← h1.2.1]
    by_cases hc : s.1 = x.map Prod.fst ∧ inBox s.2.shape (x.map Prod.snd) = true
    · rw [if_pos hc, if_pos hc, h1.2.2 _ hc.2]
    · rw [if_neg hc, if_neg hc]

/-- What a functor knows after `__init__`. -/
structure FunctorOk (isF : Q → Bool) [CommRing K] (u0 d0 u1 d1 : List (BondInfo Q)) (m : BondInfo Q) (f : FlatFunctor Q K) : Prop where
  lo : f.l.odd.WellFormed ∧ Conforms ([(0, 1)] :: u0 ++ d0 ++ [m]) (f.l.odd.toSparse id)
  le : f.l.even.WellFormed ∧ Conforms ([(0, 1)] :: u0 ++ d0 ++ [m]) (f.l.even.toSparse id)
  ro : f.r.odd.WellFormed ∧ Conforms (m :: u1 ++ d1 ++ [[(0, 1)]]) (f.r.odd.toSparse id)
  re : f.r.even.WellFormed ∧ Conforms (m :: u1 ++ d1 ++ [[(0, 1)]]) (f.r.even.toSparse id)
  wc : f.cmat.WellFormed
  cc : Conforms ([(0, 1)] :: (d0 ++ d1) ++ [[(0, 1)]]) (f.cmat.toSparse id)
  wv : f.vmat.WellFormed
  cv : Conforms ([(0, 1)] :: (u0 ++ u1) ++ [[(0, 1)]]) (f.vmat.toSparse id)
  ww : f.work.WellFormed
  cw : Conforms ((m :: u1) ++ d0) (f.work.toSparse id)
  axtr : f.axtr = List.range' (d1.length + 1) d0.length ++ [0] ++ List.range' 1 d1.length
  pro : plan isF (initLegs f.r.odd) (innerLegs f.cmat) f.work (List.range' (1 + d1.length) d1.length) (List.range' d0.length d1.length) true = some f.ro
  pre : plan isF (initLegs f.r.even) (innerLegs f.cmat) f.work (List.range' (1 + d1.length) d1.length) (List.range' d0.length d1.length) false = some f.re
  plo : plan isF (tailLegs f.l.odd) (f.work.transpose f.axtr) (innerLegs f.vmat) (List.range' d0.length (d0.length + 1)) (List.range' 0 (d0.length + 1)) true = some f.lo
  ple : plan isF (tailLegs f.l.even) (f.work.transpose f.axtr) (innerLegs f.vmat) (List.range' d0.length (d0.length + 1)) (List.range' 0 (d0.length + 1)) false = some f.le

theorem conforms_data [Zero K] {F : Flat Q K} {legs : List (BondInfo Q)} (d : List K) :
    Conforms legs (({ F with data := d } : Flat Q K).toSparse id) ↔ Conforms legs (F.toSparse id) := by
  rw [Flat.conforms_rows, Flat.conforms_rows]
  rfl

theorem wellFormed_data {F : Flat Q K} {d : List K} (h : F.WellFormed) (hd : d.length = F.data.length) : ({ F with data := d } : Flat Q K).WellFormed :=
  ⟨h.1, h.2.1, hd.trans h.2.2⟩

theorem data_length {F : Flat Q K} {d : List K} (h : F.WellFormed) (h' : ({ F with data := d } : Flat Q K).WellFormed) : d.length = F.data.length :=
  h'.2.2.trans h.2.2.symm

section
variable [CommRing K] {isF : Q → Bool} {u0 d0 u1 d1 : List (BondInfo Q)} {m : BondInfo Q} {f : FlatFunctor Q K}

/-- The intermediate tensor. -/
theorem right_entry (hf : FunctorOk isF u0 d0 u1 d1 m f) (hud : u1.length = d1.length) (hd1 : d1 ≠ []) (wd1 : ∀ b ∈ d1, Dict.WF b) {x : List K}
    (hx : ({ f.cmat with data := x } : Flat Q K).WellFormed) :
    ∃ w, run f.re f.r.even.data x (run f.ro f.r.odd.data x (List.replicate f.work.data.length 0)) = w ∧ ({ f.work with data := w } : Flat Q K).WellFormed ∧
      ∀ z b p, b.length = u1.length → p.length = d0.length → entry (({ f.work with data := w } : Flat Q K).toSparse id) ((z :: b) ++ p) =
        ((legIndices d1).map fun q => opEntry f.r.sparse (fermParity isF (p.map Prod.fst)) (z :: b ++ q ++ [(0, 0)]) *
          entry (({ f.cmat with data := x } : Flat Q K).toSparse id) ((0, 0) :: p ++ q ++ [(0, 0)])).sum := by
  set X : Flat Q K := { f.cmat with data := x } with hX
  have cX : Conforms ([(0, 1)] :: (d0 ++ d1) ++ [[(0, 1)]]) (X.toSparse id) := (conforms_data x).2 hf.cc
  obtain ⟨wI, cI, -, eI⟩ := inner_spec hx cX
  obtain ⟨wO, cO, -, eO⟩ := init_spec hf.ro.1 (legs := m :: u1 ++ d1) hf.ro.2
  obtain ⟨wE, cE, -, eE⟩ := init_spec hf.re.1 (legs := m :: u1 ++ d1) hf.re.2
  set W0 : Flat Q K := { f.work with data := List.replicate f.work.data.length 0 } with hW0
  have w0 : W0.WellFormed := wellFormed_data hf.ww (by simp)
  have c0 : Conforms ((m :: u1) ++ d0) (W0.toSparse id) := (conforms_data _).2 hf.cw
  have l1 : (m :: u1).length = 1 + d1.length := by simp [hud, Nat.add_comm]
  have p1 : plan isF (initLegs f.r.odd) (innerLegs X) W0 (List.range' (m :: u1).length d1.length) (List.range' d0.length d1.length) true = some f.ro := by
    rw [l1]
    exact hf.pro
  have k1 := plan_run (a1 := m :: u1) (s := d1) (a2 := []) (b1 := d0) (b2 := []) wd1 hd1 wO wI w0 (by simpa using cO) (by simpa using cI) (by simpa using c0) p1
  set W1 : Flat Q K := { W0 with data := run f.ro (initLegs f.r.odd).data (innerLegs X).data W0.data } with hW1
  have c1 : Conforms ((m :: u1) ++ d0) (W1.toSparse id) := (conforms_data _).2 c0
  have p2 : plan isF (initLegs f.r.even) (innerLegs X) W1 (List.range' (m :: u1).length d1.length) (List.range' d0.length d1.length) false = some f.re := by
    rw [l1]
    exact hf.pre
  have k2 := plan_run (a1 := m :: u1) (s := d1) (a2 := []) (b1 := d0) (b2 := []) wd1 hd1 wE wI k1.1 (by simpa using cE) (by simpa using cI) (by simpa using c1) p2
  refine ⟨_, rfl, k2.1, fun z b p hb hp => ?_⟩
  have e2 := k2.2 (z :: b) [] p [] (by simp [hb]) rfl hp rfl
  have e1 := k1.2 (z :: b) [] p [] (by simp [hb]) rfl hp rfl
  simp only [List.append_nil] at e1 e2
  refine e2.trans ?_
  rw [e1, entry_replicate W0 _ rfl, zero_add, ← sum_map_add']
  refine sum_map_congr' _ _ _ fun q hq => ?_
  have lq := legIndices_length hq
  rw [eI (p ++ q) (by simp [hp, lq]), eO (z :: b ++ q) (by simp [hb, lq]), eE (z :: b ++ q) (by simp [hb, lq])]
  simp only [opEntry, FlatOp.sparse, Bool.true_and, Bool.false_and, List.cons_append, List.append_assoc]
  rw [show paritySign K false = 1 from rfl]
  ring

theorem axtr_perm (n k : Nat) : (List.range' (k + 1) n ++ [0] ++ List.range' 1 k).Perm (List.range (k + 1 + n)) := by
  have : List.range (k + 1 + n) = ([0] ++ List.range' 1 k) ++ List.range' (k + 1) n := by
    rw [List.range_eq_range', Nat.add_comm k 1, ← List.range'_append_1, ← List.range'_append_1]
    simp [Nat.add_comm]
  rw [this, List.append_assoc]
  exact List.perm_append_comm

theorem pick_axtr {α : Type} [Zero α] (z : α) (b p : List α) : pick (List.range' (b.length + 1) p.length ++ [0] ++ List.range' 1 b.length) ((z :: b) ++ p) = p ++ [z] ++ b := by
  have e1 : pick (List.range' (b.length + 1) p.length) ((z :: b) ++ p) = p := by
    have := pick_range' (z :: b) p []
    simpa using this
  have e2 : pick (List.range' 1 b.length) ((z :: b) ++ p) = b := by
    have := pick_range' [z] b p
    simpa using this
  have e3 : ∀ (i j : List Nat) (l : List α), pick (i ++ j) l = pick i l ++ pick j l := fun i j l => by simp [pick]
  rw [e3, e3, e1, e2]
  simp [pick]

/-- The product with both tensors. -/
theorem apply_entry (hf : FunctorOk isF u0 d0 u1 d1 m f) (hu0 : u0.length = d0.length) (hud : u1.length = d1.length) (hd1 : d1 ≠ []) (wd0 : ∀ b ∈ d0, Dict.WF b)
    (wd1 : ∀ b ∈ d1, Dict.WF b) (wm : Dict.WF m) {x : List K} (hx : ({ f.cmat with data := x } : Flat Q K).WellFormed) :
    ({ f.vmat with data := f.applyTensors x } : Flat Q K).WellFormed ∧
      ∀ a b, a.length = u0.length → b.length = u1.length → entry (({ f.vmat with data := f.applyTensors x } : Flat Q K).toSparse id) ((0, 0) :: (a ++ b) ++ [(0, 0)]) =
        ((legIndices d0).map fun p => ((legBasis m).map fun z => opEntry f.l.sparse false ((0, 0) :: a ++ p ++ [z]) *
          ((legIndices d1).map fun q => opEntry f.r.sparse (fermParity isF (p.map Prod.fst)) (z :: b ++ q ++ [(0, 0)]) *
            entry (({ f.cmat with data := x } : Flat Q K).toSparse id) ((0, 0) :: p ++ q ++ [(0, 0)])).sum).sum).sum := by
  obtain ⟨w, ew, ww, hw⟩ := right_entry hf hud hd1 wd1 hx
  set W : Flat Q K := { f.work with data := w } with hW
  have cW : Conforms ((m :: u1) ++ d0) (W.toSparse id) := (conforms_data _).2 hf.cw
  have hperm : f.axtr.Perm (List.range ((m :: u1) ++ d0).length) := by
    rw [hf.axtr]
    have := axtr_perm d0.length d1.length
    rwa [show ((m :: u1) ++ d0).length = d1.length + 1 + d0.length by simp [hud]; omega]
  obtain ⟨wZ, sZ⟩ := C47_transpose ((m :: u1) ++ d0) id W f.axtr ww cW hperm
  set Z := W.transpose f.axtr with hZ
  have eax : f.axtr = List.range' (u1.length + 1) d0.length ++ [0] ++ List.range' 1 u1.length := by rw [hf.axtr, hud]
  have cZ : Conforms ([] ++ (d0 ++ [m]) ++ u1) (Z.toSparse id) := by
    have h1 := C14_conforms _ _ cW f.axtr hperm
    have h2 : (f.axtr.map fun i => ((m :: u1) ++ d0).getD i []) = [] ++ (d0 ++ [m]) ++ u1 := by
      rw [eax]
      exact pick_axtr (α := BondInfo Q) m u1 d0
    rw [h2] at h1
    exact sameBlocks_conforms sZ h1
  have eZ : ∀ z b p, b.length = u1.length → p.length = d0.length → entry (Z.toSparse id) (p ++ [z] ++ b) = entry (W.toSparse id) ((z :: b) ++ p) := by
    intro z b p hb hp
    rw [sameBlocks_entry sZ, ← C14_entry _ _ cW f.axtr hperm ((z :: b) ++ p) (by simp [hb, hp])]
    congr 1
    rw [eax, ← hb, ← hp]
    exact (pick_axtr (α := Q × Nat) z b p).symm
  obtain ⟨wO, cO, -, eO⟩ := tail_spec hf.lo.1 (legs := u0 ++ d0 ++ [m]) hf.lo.2
  obtain ⟨wE, cE, -, eE⟩ := tail_spec hf.le.1 (legs := u0 ++ d0 ++ [m]) hf.le.2
  set V0 : Flat Q K := { f.vmat with data := List.replicate f.vmat.data.length 0 } with hV0
  have wV0 : V0.WellFormed := wellFormed_data hf.wv (by simp)
  have cV0 : Conforms ([(0, 1)] :: (u0 ++ u1) ++ [[(0, 1)]]) (V0.toSparse id) := (conforms_data _).2 hf.cv
  obtain ⟨wI, cI, -, eI⟩ := inner_spec wV0 cV0
  have ws : ∀ b ∈ d0 ++ [m], Dict.WF b := by
    intro b hb
    rcases List.mem_append.1 hb with h | h
    · exact wd0 b h
    · rw [List.mem_singleton.1 h]
      exact wm
  have p1 : plan isF (tailLegs f.l.odd) Z (innerLegs V0) (List.range' u0.length (d0 ++ [m]).length) (List.range' ([] : List (BondInfo Q)).length (d0 ++ [m]).length) true = some f.lo := by
    rw [hu0, List.length_append, hZ, hW, plan_transpose]
    exact hf.plo
  have k1 := plan_run (a1 := u0) (s := d0 ++ [m]) (a2 := []) (b1 := []) (b2 := u1) ws (by simp) wO wZ wI (by simpa using cO) cZ (by simpa using cI) p1
  set I1 : Flat Q K := { innerLegs V0 with data := run f.lo (tailLegs f.l.odd).data Z.data (innerLegs V0).data } with hI1
  have c1 : Conforms (u0 ++ u1) (I1.toSparse id) := (conforms_data _).2 cI
  have p2 : plan isF (tailLegs f.l.even) Z I1 (List.range' u0.length (d0 ++ [m]).length) (List.range' ([] : List (BondInfo Q)).length (d0 ++ [m]).length) false = some f.le := by
    rw [hu0, List.length_append, hZ, hW, plan_transpose]
    exact hf.ple
  have k2 := plan_run (a1 := u0) (s := d0 ++ [m]) (a2 := []) (b1 := []) (b2 := u1) ws (by simp) wE wZ k1.1 (by simpa using cE) cZ (by simpa using c1) p2
  have hres : f.applyTensors x = run f.le (tailLegs f.l.even).data Z.data I1.data := by
    unfold FlatFunctor.applyTensors
    dsimp only
    rw [ew]
    rfl
  have hlen : (f.applyTensors x).length = f.vmat.data.length := by
    rw [hres]
    have h2 := data_length k1.1 k2.1
    have h1 := data_length wI k1.1
    rw [h2, h1]
    exact List.length_replicate
  have wV : ({ f.vmat with data := f.applyTensors x } : Flat Q K).WellFormed := wellFormed_data hf.wv hlen
  refine ⟨wV, fun a b ha hb => ?_⟩
  obtain ⟨-, -, -, eV⟩ := inner_spec wV (legs := u0 ++ u1) ((conforms_data _).2 hf.cv)
  rw [← eV (a ++ b) (by simp [ha, hb])]
  have e2 := k2.2 a [] [] b ha rfl rfl hb
  have e1 := k1.2 a [] [] b ha rfl rfl hb
  simp only [List.append_nil, List.nil_append] at e1 e2
  have e3 := congrArg (fun d => entry ((innerLegs ({ f.vmat with data := d } : Flat Q K)).toSparse id) (a ++ b)) hres
  refine (e3.trans e2).trans ?_
  rw [e1, show entry ((innerLegs V0).toSparse id) (a ++ b) = 0 from entry_replicate (innerLegs V0) _ rfl _, zero_add, ← sum_map_add', legIndices_append_sum]
  simp only [legIndices_one_sum]
  refine sum_map_congr' _ _ _ fun p hp => sum_map_congr' _ _ _ fun z _ => ?_
  have lp := legIndices_length hp
  rw [← hw z b p hb lp, ← eZ z b p hb lp, eO, eE]
  simp only [opEntry, FlatOp.sparse, List.map_nil, Bool.false_and, List.cons_append, List.append_assoc]
  rw [show fermParity isF [] = false from rfl, Bool.and_false, show paritySign K false = 1 from rfl]
  ring

end
end
end Verif
